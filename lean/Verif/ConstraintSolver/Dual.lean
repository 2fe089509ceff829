import Verif.ConstraintSolver.Feasible
import Mathlib.Tactic.FinCases
import Mathlib.Tactic.Abel
import Mathlib.Algebra.Order.BigOperators.Group.Finset

/-!
# C56: infeasibility from Lagrange multipliers

The combined function of constraint_solver.cpp 171-181, and what its multipliers have to satisfy.
-/

namespace Verif.ConstraintSolver

open Ariadne Ariadne.Logical
open Ariadne.Ext (fin)

variable {n m : ℕ} {K : Type*} [Field K] [LinearOrder K] [IsStrictOrderedRing K]

/-- The number stored in a finite bound. -/
def num : Ext K → K
  | .fin x => x
  | _ => 0

/-- The value at `p` of the combined function of constraint_solver.cpp 171-181, without rounding:
`cnst - Σ (x[j]-x[n+j]) f_j(p) - Σ (x[2n+i]-x[2n+m+i]) p_i` with
`cnst = Σ (c_j.u x[j] - c_j.l x[n+j]) + Σ (d_i.u x[2n+i] - d_i.l x[2n+m+i])`. -/
def dualValue (f : Fin m → (Fin n → K) → K) (c : Fin m → Bounds K) (d : Box n K)
    (x : Fin ((m + n) * 2) → K) (p : Fin n → K) : K :=
  ((∑ j : Fin m, (num (c j).u * x ⟨j, by omega⟩ - num (c j).l * x ⟨m + j, by omega⟩)) +
   (∑ i : Fin n, (num (d i).u * x ⟨2 * m + i, by omega⟩ - num (d i).l * x ⟨2 * m + n + i, by omega⟩))) -
  ((∑ j : Fin m, (x ⟨j, by omega⟩ - x ⟨m + j, by omega⟩) * f j p) +
   (∑ i : Fin n, (x ⟨2 * m + i, by omega⟩ - x ⟨2 * m + n + i, by omega⟩) * p i))

/-- With nonnegative multipliers, the combined function is nonnegative at every feasible point. -/
theorem C56_dual_nonneg {f : Fin m → (Fin n → K) → K} {c : Fin m → Bounds K} {d : Box n K}
    {x : Fin ((m + n) * 2) → K} {p : Fin n → K} (hc : ∀ j, (c j).Finite) (hd : ∀ i, (d i).Finite)
    (hx : ∀ k, 0 ≤ x k) (hp : Feasible d f c p) : 0 ≤ dualValue f c d x p := by
  have key : ∀ (X : Bounds K) (y a b : K), X.Finite → X.Contains y → 0 ≤ a → 0 ≤ b →
      0 ≤ (num X.u * a - num X.l * b) - (a - b) * y := by
    rintro ⟨l, u⟩ y a b ⟨⟨l', hl⟩, u', hu⟩ ⟨h1, h2⟩ ha hb
    simp only at hl hu h1 h2
    subst hl hu
    simp only [num]
    have h1' : l' ≤ y := h1
    have h2' : y ≤ u' := h2
    nlinarith
  have e : dualValue f c d x p =
      (∑ j : Fin m, ((num (c j).u * x ⟨j, by omega⟩ - num (c j).l * x ⟨m + j, by omega⟩) -
        (x ⟨j, by omega⟩ - x ⟨m + j, by omega⟩) * f j p)) +
      (∑ i : Fin n, ((num (d i).u * x ⟨2 * m + i, by omega⟩ - num (d i).l * x ⟨2 * m + n + i, by omega⟩) -
        (x ⟨2 * m + i, by omega⟩ - x ⟨2 * m + n + i, by omega⟩) * p i)) := by
    simp only [Finset.sum_sub_distrib, dualValue]
    abel
  rw [e]
  refine add_nonneg (Finset.sum_nonneg fun j _ => ?_) (Finset.sum_nonneg fun i _ => ?_)
  · exact key _ _ _ _ (hc j) (hp.2 j) (hx _) (hx _)
  · exact key _ _ _ _ (hd i) (hp.1 i) (hx _) (hx _)

/-- **C56**: if the codomain is bounded, the combined function is enclosed by its evaluation, the
contractor for it is sound and the optimiser gives nonnegative multipliers, then the answers of the
feasibility test are right. -/
theorem C56_feasible_dual {R : Rounding K} {opt : Box n K → OptResult n m K}
    {txg : Box n K → (Fin ((m + n) * 2) → K) → Fn n K}
    {H : Box n K → (Fin ((m + n) * 2) → K) → Contractor n K}
    {F : Fin m → Fn n K} {f : Fin m → (Fin n → K) → K} {c : Fin m → Bounds K}
    (hF : ∀ j p, EnclosesAt (F j) (f j p) p) (hc : ∀ j, (c j).Finite)
    (ht : ∀ d x p, Mem d p → EnclosesAt (txg d x) (dualValue f c d x p) p)
    (hH : ∀ d x B p, Mem d p → Mem B p → 0 ≤ dualValue f c d x p → Mem (H d x B) p)
    (hR : ∀ d x, GoodBox R d → boxEmpty (H d x d) = false → RepBox R (H d x d))
    (ho : ∀ d x, opt d = .dual x → ∀ k, 0 ≤ x k)
    (fuel : ℕ) (d : Box n K) (r : LV × Option (Fin n → K)) (hd : GoodBox R d)
    (h : feasible (.ofRounding R) opt txg H F c fuel d = some r) :
    (r.1 = .true_ → ∃ p, Feasible d f c p) ∧ (r.1 = .false_ → ¬ ∃ p, Feasible d f c p) ∧
    (r.1 = .true_ → ∀ y, r.2 = some y → Mem d y ∧ ∀ j, Strictly (c j) (f j y)) := by
  have hfin : ∀ d : Box n K, GoodBox R d → ∀ i, (d i).Finite := by
    intro d hd i
    obtain ⟨a, b, e, -⟩ := hd i
    rw [e]
    exact ⟨⟨a, rfl⟩, b, rfl⟩
  refine C56_feasible hF ?_ ⟨?_, ?_, hR⟩ fuel d r hd h
  · intro j
    obtain ⟨⟨a, ha⟩, b, hb⟩ := hc j
    exact ⟨by rw [ha]; simp, by rw [hb]; simp⟩
  · intro d x p hd hox hp B hB
    have hb : (⟨fin 0, .pinf⟩ : Bounds K).Contains (dualValue f c d x p) :=
      ⟨C56_dual_nonneg hc (hfin d hd) (ho d x hox) hp, trivial⟩
    exact enclosed_not_empty (ht d x p hp.1) hb B hB
  · intro d x p hd hox hp
    exact hH d x d p hp.1 hp.1 (C56_dual_nonneg hc (hfin d hd) (ho d x hox) hp)

/-! ### A negative multiplier -/

/-- Multipliers of which the first is `-1`. -/
def badMult : Fin ((1 + 1) * 2) → ℚ := fun k => if k.1 = 0 then -1 else 0

theorem dualValue_bad (d : Box 1 ℚ) (p : Fin 1 → ℚ) :
    dualValue (m := 1) (fun _ p => p 0) (fun _ => ⟨fin 0, fin 2⟩) d badMult p = p 0 - 2 := by
  simp [dualValue, badMult, num]
  ring

/-- The code does not check that the multipliers are nonnegative: were the optimiser to return a
negative one, the test could answer false although every point of the domain is feasible.  Here
`x ∈ [0,1]` with the constraint `0 ≤ x ≤ 2`, and all other hypotheses of `C56_feasible_dual` hold. -/
theorem C56_negative_multiplier :
    let R : Rounding ℚ := TaylorModel.exactRounding
    let F : Fin 1 → Fn 1 ℚ := fun _ B => B 0
    let f : Fin 1 → (Fin 1 → ℚ) → ℚ := fun _ p => p 0
    let c : Fin 1 → Bounds ℚ := fun _ => ⟨fin 0, fin 2⟩
    let d : Box 1 ℚ := fun _ => ⟨fin 0, fin 1⟩
    let txg : Box 1 ℚ → (Fin ((1 + 1) * 2) → ℚ) → Fn 1 ℚ :=
      fun _ _ B => Bounds.subBF (.ofRounding R) (B 0) (fin 2)
    (∀ j p, EnclosesAt (F j) (f j p) p) ∧
    (∀ d p, Mem d p → EnclosesAt (txg d badMult) (dualValue f c d badMult p) p) ∧
    feasible (.ofRounding R) (fun _ => .dual badMult) txg (fun _ _ B => B) F c 1 d = some (.false_, none) ∧
    ∀ p, Mem d p → Feasible d f c p := by
  intro R F f c d txg
  refine ⟨fun j p B hB => hB 0, ?_, ?_, ?_⟩
  · intro d p _ B hB
    rw [dualValue_bad]
    exact Bounds.C05_sub _ (hB 0) (show (⟨fin 2, fin 2⟩ : Bounds ℚ).Contains 2 from ⟨le_rfl, le_rfl⟩)
  · rw [feasible, if_neg (by decide), if_neg (by decide +kernel)]
    simp only
    rw [if_neg (by decide +kernel)]
    have : boxReduceVars (.ofRounding R) (txg d badMult) ⟨fin 0, .pinf⟩ (List.finRange 1) d =
        some (true, Function.update d 0 emptyInterval) := by
      have e : List.finRange 1 = [0] := by decide
      rw [e, boxReduceVars, boxReduce, if_neg (by decide +kernel)]
      simp only
      rw [if_pos (by decide +kernel), Option.bind_some, if_pos (by decide +kernel)]
    rw [this]
    rfl
  · intro p hp
    refine ⟨hp, fun j => ⟨(hp 0).1, ?_⟩⟩
    have : p 0 ≤ 1 := (hp 0).2
    exact this.trans (by norm_num)

/-! ### The point returned, and an empty list of constraints -/

/-- If the domain had to be split, the point returned with the answer is always the empty one. -/
theorem C56_split_point {X : XRounding K} {opt : Box n K → OptResult n m K}
    {txg : Box n K → (Fin ((m + n) * 2) → K) → Fn n K}
    {H : Box n K → (Fin ((m + n) * 2) → K) → Contractor n K}
    {F : Fin m → Fn n K} {c : Fin m → Bounds K} {fuel : ℕ} {d : Box n K} {x : Fin ((m + n) * 2) → K}
    {r : LV × Option (Fin n → K)} (ho : opt d = .dual x)
    (h : feasible X opt txg H F c fuel d = some r) : r.2 = none := by
  cases fuel with
  | zero => simp [feasible] at h
  | succ fuel =>
    rw [feasible] at h
    split_ifs at h with h0 h1
    · cases h; rfl
    · rw [ho] at h
      simp only at h
      split_ifs at h with h2
      · cases h; rfl
      · simp only [Option.bind_eq_some_iff] at h
        obtain ⟨r0, -, h3⟩ := h
        split_ifs at h3 with h4
        · cases h3; rfl
        · simp only [Option.bind_eq_some_iff, Option.map_eq_some_iff] at h3
          obtain ⟨s, hs, r1, e1, r2, e2, rfl⟩ := h3
          rfl

/-- **C56**: without constraints, the answer is whether the domain has a point, and the midpoint
returned is in it. -/
theorem C56_no_constraints {R : Rounding K} {opt : Box n K → OptResult n 0 K}
    {txg : Box n K → (Fin ((0 + n) * 2) → K) → Fn n K}
    {H : Box n K → (Fin ((0 + n) * 2) → K) → Contractor n K}
    {F : Fin 0 → Fn n K} {c : Fin 0 → Bounds K} {fuel : ℕ} {d : Box n K} (hd : RepBox R d) :
    (∃ y, feasibleList (.ofRounding R) opt txg H F c fuel d = some (.true_, y) ∧
        (∃ p, Mem d p) ∧ ∃ z : Fin n → K, y = some (fun i => fin (z i)) ∧ Mem d z) ∨
    (∃ y, feasibleList (.ofRounding R) opt txg H F c fuel d = some (.false_, y) ∧ ¬ ∃ p, Mem d p) := by
  cases he : boxEmpty d with
  | false =>
    left
    choose a b hab ha hb using hd
    have hle : ∀ i, a i ≤ b i := by
      intro i
      simp only [boxEmpty, List.any_eq_false, List.mem_finRange, true_implies] at he
      have := he i
      rw [hab i, isEmpty_iff, not_lt] at this
      exact this
    have hv := fun i => Bounds.C08_value_mem R (hle i) (ha i) (hb i)
    choose z hz h1 h2 using hv
    have hm : Mem d z := fun i => by rw [hab i]; exact ⟨h1 i, h2 i⟩
    refine ⟨some fun i => Bounds.value (.ofRounding R) (d i), ?_, ⟨z, hm⟩, z, ?_, hm⟩
    · rw [feasibleList, if_pos rfl, he]
      rfl
    · congr 1
      funext i
      rw [hab i, hz i]
  | true =>
    right
    refine ⟨some fun i => Bounds.value (.ofRounding R) (d i), ?_, ?_⟩
    · rw [feasibleList, if_pos rfl, he]
      rfl
    · rintro ⟨p, hp⟩
      rw [boxEmpty_false hp] at he
      exact absurd he (by simp)

/-! ### Cases meeting the hypotheses -/

/-- `box_reduce` for `x ∈ [0,8]` and `2 ≤ x ≤ 3` gives `[1,4]`. -/
example : (boxReduce (.ofRounding TaylorModel.exactRounding) (fun B => B 0) ⟨fin 2, fin 3⟩ 0
    (fun _ : Fin 1 => (⟨fin 0, fin 8⟩ : Bounds ℚ))).map (fun r => (r.1, r.2 0)) =
    some (false, ⟨fin 1, fin 4⟩) := by decide +kernel

example (p : Fin 1 → ℚ) (hp : Mem (fun _ : Fin 1 => (⟨fin 0, fin 8⟩ : Bounds ℚ)) p)
    (h2 : (⟨fin 2, fin 3⟩ : Bounds ℚ).Contains (p 0)) (r)
    (h : boxReduce (.ofRounding TaylorModel.exactRounding) (fun B => B 0) ⟨fin 2, fin 3⟩ 0
      (fun _ : Fin 1 => (⟨fin 0, fin 8⟩ : Bounds ℚ)) = some r) : r.1 = false ∧ Mem r.2 p :=
  C56_box_reduce (f := fun p => p 0) (fun p B hB => hB 0) (C56_good_points trivial trivial trivial trivial) h p hp h2

/-- The loop of `reduce` ends: `[0,8]` is cut to `[1,4]`, then to `[17/8,…]` and so on. -/
example : ((reduce (.ofRounding TaylorModel.exactRounding) (fun B => B)
    (List.ofFn fun _ : Fin 1 => ((fun B => B 0 : Fn 1 ℚ), (⟨fin 2, fin 3⟩ : Bounds ℚ))) 9
    (fun _ : Fin 1 => (⟨fin 0, fin 8⟩ : Bounds ℚ))).map (fun r => (r.1, r.2 0))).isSome = true := by
  decide +kernel

end Verif.ConstraintSolver
