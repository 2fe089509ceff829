import Verif.Simplex.Props
import Verif.Rounding.Props
import Mathlib.Tactic.NormNum
import Mathlib.Tactic.FinCases
import Mathlib.Data.Fin.VecNotation

/-!
# C95: exact arithmetic, starting bases, and counterexamples
-/

namespace Verif.Simplex

open Ariadne Ariadne.Logical Ariadne.Logical.LV Verif.Matrix Verif.TaylorModel

variable {K : Type*} [Field K] [LinearOrder K] [IsStrictOrderedRing K] {m n : ℕ}

/-! ### Exact arithmetic -/

/-- The bounds are the number itself. -/
def IsPt (X : Bounds K) (x : K) : Prop := X = ⟨.fin x, .fin x⟩

theorem enclB_exact : EnclB (XRounding.ofRounding (exactRounding : Rounding K)) (IsPt : Bounds K → K → Prop) := by
  have h : Encl (boundsOps (XRounding.ofRounding (exactRounding : Rounding K))) (In : Bounds K → K → Prop) :=
    encl_bounds exactRounding
  have hin : ∀ {X : Bounds K} {x}, IsPt X x → In X x := by
    rintro _ x rfl
    exact ⟨⟨⟨_, rfl⟩, _, rfl⟩, le_rfl, le_rfl⟩
  refine ⟨⟨rfl, rfl, ?_, ?_, ?_, fun hg hx => h.ne_zero hg (hin hx), ?_, h.trans⟩, fun _ => rfl, ?_, ?_, hin⟩
  · rintro _ _ x y rfl rfl
    simp [boundsOps, Bounds.add, Ext.add, IsPt, XRounding.ofRounding, exactRounding]
  · rintro _ _ x y rfl rfl
    simp [boundsOps, Bounds.sub, Ext.sub, Ext.neg, Ext.add, IsPt, XRounding.ofRounding, exactRounding, sub_eq_add_neg]
  · rintro _ _ x y rfl rfl
    simp only [boundsOps, Bounds.mul, IsPt]
    split_ifs <;> simp [Ext.mul, XRounding.ofRounding, exactRounding, Ext.min, Ext.max]
  · rintro _ x hg rfl
    have hx := h.ne_zero hg (hin (rfl : IsPt (⟨.fin x, .fin x⟩ : Bounds K) x))
    simp only [boundsOps, Bounds.recip, IsPt]
    rcases lt_or_gt_of_ne hx with h0 | h0 <;>
      simp [Bounds.rec, Ext.lt, Ext.le, Ext.recip, Ext.div, XRounding.ofRounding, exactRounding, hx, h0, h0.le, h0.not_gt]
  · rintro _ x a rfl
    simp only [Bounds.opMulFB, IsPt]
    split_ifs <;> simp [Ext.mul, XRounding.ofRounding, exactRounding]
  · rintro _ x a rfl
    simp only [Bounds.opMulBF, IsPt]
    split_ifs <;> simp [Ext.mul, XRounding.ofRounding, exactRounding]

theorem leq_pt_det {x : K} {y : Ext K} (hy : y ≠ .nan) :
    leq ⟨.fin x, .fin x⟩ (point y) ≠ .indeterminate ∧ leq (point y) ⟨.fin x, .fin x⟩ ≠ .indeterminate := by
  cases y with
  | nan => exact absurd rfl hy
  | ninf => constructor <;> simp [leq, Bounds.lt, point, Ext.lt, Ext.le, LV.not_]
  | pinf => constructor <;> simp [leq, Bounds.lt, point, Ext.lt, Ext.le, LV.not_]
  | fin y =>
    rcases lt_trichotomy x y with h | rfl | h
    · constructor <;> simp [leq, Bounds.lt, point, Ext.lt, Ext.le, LV.not_, h, h.le, h.not_gt]
    · constructor <;> simp [leq, Bounds.lt, point, Ext.lt, Ext.le, LV.not_]
    · constructor <;> simp [leq, Bounds.lt, point, Ext.lt, Ext.le, LV.not_, h, h.le, h.not_gt]

variable {ok : (Fin n → Bounds K) → Bool} {hmn : m ≤ n}
  {xl xu : Fin n → Ext K} {A : Mat m n K} {b : Fin m → K} {vt : Fin n → Slackness}

/-- C95: in exact arithmetic, that of `SimplexSolver<Rational>`, both answers are right. -/
theorem C95_exact (hu : Usable m xl xu vt) :
    ((∀ j, Ext.le (xl j) (xu j) = true) →
      verifyFeasibility (XRounding.ofRounding exactRounding) ok hmn xl xu A b vt = some .true_ →
      ∃ x, Feasible xl xu A b x) ∧
    (verifyFeasibility (XRounding.ofRounding exactRounding) ok hmn xl xu A b vt = some .false_ →
      ¬ ∃ x, Feasible xl xu A b x) := by
  refine ⟨fun hlu h => feasible_of_true enclB_exact hu hlu h, fun h hx => ?_⟩
  obtain ⟨x, hx⟩ := hx
  refine infeasible_of_false enclB_exact hu (fun B hB => ?_) h ⟨x, hx⟩
  intro p X k
  have hs : Split (K := K) p ((computeP vt).drop m) := split_computeP hmn vt
  have h1 : IsPt (X (p k)) _ := mem_computeX enclB_exact hs (computeB_encl enclB_exact hB).2 hu.2.2 (p k)
  rw [show X (p k) = _ from h1]
  have hl : xl (p k) ≠ .nan := fun h => by have := (hx.2 (p k)).1; rw [h] at this; simp [Ext.le] at this
  have hr : xu (p k) ≠ .nan := fun h => by
    have := (hx.2 (p k)).2
    rw [h] at this
    simp [Ext.le] at this
  exact ⟨(leq_pt_det hl).1, (leq_pt_det hr).2⟩

/-! ### The starting basis -/

/-- C95: `compute_p` lists every index once, the basic ones first. -/
theorem C95_permutation (vt : Fin n → Slackness) :
    (computeP vt).Perm (List.finRange n) ∧
      (computeP vt).Pairwise fun i j => vt j = .basis → vt i = .basis := by
  refine ⟨computeP_perm vt, ?_⟩
  unfold computeP
  rw [List.pairwise_append]
  refine ⟨?_, ?_, fun i hi j hj _ => by simpa using (List.mem_filter.1 hi).2⟩
  · exact List.Pairwise.imp_of_mem (R := fun _ _ => True)
      (fun {a b} ha _ _ _ => by simpa using (List.mem_filter.1 ha).2) (List.pairwise_of_forall fun _ _ => trivial)
  · exact List.Pairwise.imp_of_mem (R := fun _ _ => True)
      (fun {a b} _ hb _ h => by simp [h] at hb) (List.pairwise_of_forall fun _ _ => trivial)

theorem foldl_basis (l : List (Fin n)) (vt : Fin n → Slackness) (j : Fin n) :
    l.foldl (fun vt j => Function.update vt j .basis) vt j = if j ∈ l then .basis else vt j := by
  induction l generalizing vt with
  | nil => simp
  | cons i l ih =>
    rw [List.foldl_cons, ih]
    by_cases h1 : j ∈ l
    · simp [h1]
    · by_cases h2 : j = i
      · subst h2; simp [h1]
      · simp [h1, h2]

/-- C95: the kinds chosen by `compute_vt` are usable when no bound is NaN; the basic variables are the
first `m` of `p`. -/
theorem C95_starting_kinds {p : List (Fin n)} (hp : p.Perm (List.finRange n))
    (hl : ∀ j, xl j ≠ .nan ∧ xu j ≠ .nan) (hl' : ∀ j, xl j ≠ .pinf ∧ xu j ≠ .ninf)
    (h : computeVt xl xu p m = some vt) :
    Usable m xl xu vt ∧ ∀ j, vt j = .basis ↔ j ∈ p.take m := by
  have hn : p.Nodup := hp.nodup_iff.2 (List.nodup_finRange n)
  have hd : List.Disjoint (p.take m) (p.drop m) := List.disjoint_take_drop hn le_rfl
  have key : ∀ (l : List (Fin n)) (v0 : Fin n → Slackness),
      l.foldlM (fun vt j =>
        if Ext.lt .ninf (xl j) then some (Function.update vt j .lower)
        else if Ext.lt (xu j) .pinf then some (Function.update vt j .upper)
        else none) v0 = some vt →
      ∀ j, (j ∉ l → vt j = v0 j) ∧ (j ∈ l → (vt j = .lower ∧ ∃ a, xl j = .fin a) ∨
        (vt j = .upper ∧ ∃ a, xu j = .fin a)) := by
    intro l
    induction l with
    | nil =>
      intro v0 h j
      simp only [List.foldlM_nil, Option.pure_def, Option.some.injEq] at h
      subst h
      simp
    | cons i l ih =>
      intro v0 h j
      rw [List.foldlM_cons] at h
      obtain ⟨v1, h1, h2⟩ := Option.bind_eq_some_iff.1 h
      obtain ⟨h3, h4⟩ := ih v1 h2 j
      refine ⟨fun hj => ?_, fun hj => ?_⟩
      · rw [List.mem_cons, not_or] at hj
        rw [h3 hj.2]
        split_ifs at h1 <;> simp only [Option.some.injEq] at h1 <;> rw [← h1, Function.update_of_ne hj.1]
      · by_cases hjl : j ∈ l
        · exact h4 hjl
        · have hji : j = i := by simpa [hjl] using hj
          subst hji
          rw [h3 hjl]
          split_ifs at h1 with ha hb
          · simp only [Option.some.injEq] at h1
            rw [← h1, Function.update_self]
            left
            refine ⟨rfl, ?_⟩
            have := (hl j).1
            have := (hl' j).1
            cases hx : xl j <;> simp_all [Ext.lt]
          · simp only [Option.some.injEq] at h1
            rw [← h1, Function.update_self]
            right
            refine ⟨rfl, ?_⟩
            have := (hl j).2
            have := (hl' j).2
            cases hx : xu j <;> simp_all [Ext.lt]
  have hk := key _ _ h
  have hmem : ∀ j, j ∈ p.take m ∨ j ∈ p.drop m := fun j => by
    rw [← List.mem_append, List.take_append_drop]
    exact hp.mem_iff.2 (List.mem_finRange j)
  have hb : ∀ j, vt j = .basis ↔ j ∈ p.take m := by
    intro j
    constructor
    · intro hv
      rcases hmem j with h1 | h1
      · exact h1
      · rcases (hk j).2 h1 with h2 | h2 <;> rw [hv] at h2 <;> exact absurd h2.1 (by decide)
    · intro h1
      rw [(hk j).1 fun h2 => hd h1 h2, foldl_basis, if_pos h1]
  refine ⟨⟨fun j hv => ?_, ?_, fun j => ⟨fun hv => ?_, fun hv => ?_⟩⟩, hb⟩
  · rcases hmem j with h1 | h1
    · rw [(hb j).2 h1] at hv
      exact absurd hv (by decide)
    · rcases (hk j).2 h1 with h2 | h2 <;> rw [hv] at h2 <;> exact absurd h2.1 (by decide)
  · have h1 : ((List.finRange n).filter fun j => vt j = .basis).length =
        (p.filter fun j => vt j = .basis).length := ((hp.filter _).length_eq).symm
    have h2 : (p.filter fun j => vt j = .basis) = p.take m := by
      conv_lhs => rw [← List.take_append_drop m p]
      rw [List.filter_append, List.filter_eq_self.2 fun j hj => by simpa using (hb j).2 hj,
        List.filter_eq_nil_iff.2 fun j hj => by simpa using fun h => hd ((hb j).1 h) hj, List.append_nil]
    rw [h1, h2]
    exact List.length_take_le m p
  · rcases hmem j with h1 | h1
    · rw [(hb j).2 h1] at hv
      exact absurd hv (by decide)
    · rcases (hk j).2 h1 with h2 | h2
      · exact h2.2
      · rw [hv] at h2
        exact absurd h2.1 (by decide)
  · rcases hmem j with h1 | h1
    · rw [(hb j).2 h1] at hv
      exact absurd hv (by decide)
    · rcases (hk j).2 h1 with h2 | h2
      · rw [hv] at h2
        exact absurd h2.1 (by decide)
      · exact h2.2

/-! ### Counterexamples -/

/-- Double precision, apart from the exponent range. -/
def dp : Rounding ℚ := PBit.rounding 53 (by norm_num)

/-- The constraints `3*x0 + 6*x2 = 1`, `x1 - x2 = 0`. -/
def exA : Mat 2 3 ℚ := ![![3, 0, 6], ![0, 1, -1]]

/-- The lower bounds: that of `x0` is `1/3` rounded down, that of `x1` is positive. -/
def exL : Fin 3 → Ext ℚ := ![.fin (6004799503160661 / 2 ^ 54), .fin (1 / 2 ^ 60), .fin 0]

/-- The upper bounds. -/
def exU : Fin 3 → Ext ℚ := ![.fin 1, .fin 1, .fin 1]

def exVt : Fin 3 → Slackness := ![.basis, .basis, .lower]

/-- **C95** fails for `false`, in double precision: the feasible point is `x1 = x2 = 2^-60`,
`x0 = (1-6*x2)/3`.  The basic solution is `x0 = 1/3`, enclosed in bounds of which the lower one is the
bound of `x0`, so the cost of `x0` is `-1` although `x0` does not violate its bound. -/
theorem C95_false_wrong :
    verifyFeasibility (XRounding.ofRounding dp) (fun _ => true) (by decide : 2 ≤ 3) exL exU exA ![1, 0] exVt =
      some .false_ ∧
    Usable 2 exL exU exVt ∧ (∀ j, Ext.le (exL j) (exU j) = true) ∧
    ∃ x, Feasible exL exU exA ![1, 0] x := by
  refine ⟨by decide +kernel, ⟨by decide, by decide, ?_⟩, by decide +kernel,
    ![(1 - 6 / 2 ^ 60) / 3, 1 / 2 ^ 60, 1 / 2 ^ 60], ?_, ?_⟩
  · intro j
    fin_cases j <;> simp [exVt, exL]
  · intro i
    fin_cases i <;> simp [exA, Fin.sum_univ_three] <;> norm_num
  · decide +kernel

/-- **C95** needs ordered bounds: the answer is `true` although the bounds of a non-basic variable
cross. -/
theorem C95_crossed_bounds_wrong :
    verifyFeasibility (XRounding.ofRounding dp) (fun _ => true) (by decide : 1 ≤ 2)
      ![.fin 0, .fin 1] ![.fin 4, .fin 0] ![![1, 1]] ![2] ![.basis, .lower] = some .true_ ∧
    ¬ ∃ x : Fin 2 → ℚ, Feasible ![.fin 0, .fin 1] ![.fin 4, .fin 0] ![![1, 1]] ![2] x := by
  refine ⟨by decide +kernel, ?_⟩
  rintro ⟨x, _, hx⟩
  have := hx 1
  simp [Ext.le] at this
  linarith

/-- **C95** fails for variables of kind `FIXED`, which are taken to be zero whatever their bounds: the
answer is `true` for `x0 + x1 = 1`, `x0` in `[0,2]`, `x1` fixed at `3`. -/
theorem C95_fixed_wrong :
    verifyFeasibility (XRounding.ofRounding dp) (fun _ => true) (by decide : 1 ≤ 2)
      ![.fin 0, .fin 3] ![.fin 2, .fin 3] ![![1, 1]] ![1] ![.basis, .fixed] = some .true_ ∧
    ¬ ∃ x : Fin 2 → ℚ, Feasible ![.fin 0, .fin 3] ![.fin 2, .fin 3] ![![1, 1]] ![1] x := by
  refine ⟨by decide +kernel, ?_⟩
  rintro ⟨x, hA, hx⟩
  have h0 := hx 0
  have h1 := hx 1
  have h2 := hA 0
  simp [Ext.le, Fin.sum_univ_two] at h0 h1 h2
  linarith

/-! ### The hypotheses are met -/

/-- `x0 + x1 = 2` with `x0` in `[0,4]` and `x1` in `[1,3]` at its lower bound. -/
example : ∃ x : Fin 2 → ℚ, Feasible ![.fin 0, .fin 1] ![.fin 4, .fin 3] ![![1, 1]] ![2] x :=
  C95_true (vt := ![.basis, .lower]) (ok := fun _ => true) (hmn := by decide) dp
    ⟨by decide, by decide, fun j => by fin_cases j <;> simp⟩ (by decide +kernel) (by decide +kernel)

/-- `x0 + x1 = 2` with `x0` in `[0,4]` and `x1` in `[3,5]` has no solution. -/
example : ¬ ∃ x : Fin 2 → ℚ, Feasible ![.fin 0, .fin 3] ![.fin 4, .fin 5] ![![1, 1]] ![2] x :=
  C95_false_partial (vt := ![.basis, .lower]) (ok := fun _ => true) (hmn := by decide) dp
    ⟨by decide, by decide, fun j => by fin_cases j <;> simp⟩
    (fun B hB => by
      obtain ⟨C, hC⟩ : ∃ C : Bounds ℚ, B = fun _ _ => C :=
        ⟨B 0 0, by funext i j; fin_cases i; fin_cases j; rfl⟩
      subst hC
      have h2 : (computeB (XRounding.ofRounding dp) (![![1, 1]] : Mat 1 2 ℚ) (fun k : Fin 1 =>
          (computeP ![.basis, .lower]).getD k ⟨k, k.2.trans_le (by decide)⟩)).map (fun B => B 0 0) =
          some ⟨.fin 1, .fin 1⟩ := by decide +kernel
      rw [hB] at h2
      simp only [Option.map_some, Option.some.injEq] at h2
      subst h2
      decide +kernel)
    (by decide +kernel)

example : (computeVt ![Ext.fin 0, .ninf, .fin (1:ℚ)] ![.pinf, .fin 3, .fin 2] [2, 0, 1] 1).isSome := by
  decide +kernel

end Verif.Simplex
