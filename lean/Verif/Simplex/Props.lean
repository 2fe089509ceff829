import Verif.Simplex.Lemmas

/-!
# C95: validated linear feasibility

`SimplexSolver::verify_feasibility` answers `true`, `false` or `indeterminate` to the question whether
`A x = b`, `xl <= x <= xu` has a solution.
-/

namespace Verif.Simplex

open Ariadne Ariadne.Logical Ariadne.Logical.LV Verif.Matrix

variable {K : Type*} [Field K] [LinearOrder K] [IsStrictOrderedRing K] {m n : ℕ}

/-! ### Specification -/

/-- The point `x` satisfies `A x = b` and `xl <= x <= xu`. -/
def Feasible (xl xu : Fin n → Ext K) (A : Mat m n K) (b : Fin m → K) (x : Fin n → K) : Prop :=
  (∀ i, ∑ j, A i j * x j = b i) ∧
    ∀ j, Ext.le (xl j) (.fin (x j)) = true ∧ Ext.le (.fin (x j)) (xu j) = true

/-- The kinds of the variables are usable: none is `FIXED`, at most `m` are basic, and the bound a
non-basic variable is held at is finite. -/
def Usable (m : ℕ) (xl xu : Fin n → Ext K) (vt : Fin n → Slackness) : Prop :=
  (∀ j, vt j ≠ .fixed) ∧ ((List.finRange n).filter fun j => vt j = .basis).length ≤ m ∧
    ∀ j, (vt j = .lower → ∃ a, xl j = .fin a) ∧ (vt j = .upper → ∃ a, xu j = .fin a)

/-! ### Rounded and exact arithmetic -/

theorem enclB_rounding (R : Rounding K) : EnclB (XRounding.ofRounding R) (In : Bounds K → K → Prop) where
  toEncl := encl_bounds R
  point a := ⟨⟨⟨a, rfl⟩, a, rfl⟩, le_rfl, le_rfl⟩
  mulFB a h := in_opMulFB R rfl h
  mulBF a h := by
    refine ⟨?_, (Bounds.C05_op_mul_mixed _ h.1 h.2 a).1⟩
    obtain ⟨⟨l, hl⟩, u, hu⟩ := h.1
    unfold Bounds.opMulBF
    split_ifs <;> simp [Bounds.Finite, hl, hu, Ext.mul, XRounding.ofRounding]
  toIn h := h

/-! ### Correctness -/

theorem usable_nonbasic {xl xu : Fin n → Ext K} {vt : Fin n → Slackness} (hu : Usable m xl xu vt)
    {j : Fin n} (hj : j ∈ (computeP vt).drop m) : vt j = .lower ∨ vt j = .upper := by
  obtain ⟨h1, h2, _⟩ := hu
  have h3 : vt j ≠ .basis := by
    unfold computeP at hj
    rw [List.drop_append, List.drop_of_length_le h2, List.nil_append] at hj
    simpa using (List.mem_filter.1 (List.mem_of_mem_drop hj)).2
  have h4 := h1 j
  revert h3 h4
  cases vt j <;> simp

section core

variable {R : XRounding K} {mem : Bounds K → K → Prop} (he : EnclB R mem)
  {xl xu : Fin n → Ext K} {A : Mat m n K} {b : Fin m → K} {vt : Fin n → Slackness}
  {p : Fin m → Fin n} {q : List (Fin n)}

/-- The exact non-basic values. -/
def exactN (xl xu : Fin n → Ext K) (vt : Fin n → Slackness) (j : Fin n) : K :=
  match vt j, xl j, xu j with
  | .lower, .fin a, _ => a
  | .upper, _, .fin a => a
  | _, _, _ => 0

include he in
theorem mem_startX (hb : ∀ j, (vt j = .lower → ∃ a, xl j = .fin a) ∧ (vt j = .upper → ∃ a, xu j = .fin a))
    (j : Fin n) : mem (startX xl xu vt j) (exactN xl xu vt j) := by
  unfold startX exactN
  cases hv : vt j with
  | lower =>
    obtain ⟨a, ha⟩ := (hb j).1 hv
    simpa [ha] using he.point a
  | upper =>
    obtain ⟨a, ha⟩ := (hb j).2 hv
    simpa [ha] using he.point a
  | basis => simpa using he.point 0
  | fixed => simpa using he.point 0

include he in
theorem mem_computeX (hs : Split (K := K) p q) {B : Mat m m (Bounds K)}
    (hB : ∀ i j, mem (B i j) ((basisOf A p)⁻¹ i j))
    (hb : ∀ j, (vt j = .lower → ∃ a, xl j = .fin a) ∧ (vt j = .upper → ∃ a, xu j = .fin a)) (j : Fin n) :
    mem (computeX R xl xu A b vt p q B j) (basicSolution A b p q (exactN xl xu vt) j) := by
  have e : computeX R xl xu A b vt p q B =
      place p (rowTimes R B (computeW R A b q (startX xl xu vt))) (startX xl xu vt) (List.finRange m) := rfl
  rw [e]
  rcases hs.cover j with ⟨k, rfl⟩ | hj
  · rw [place_at hs.inj (List.mem_finRange k)]
    unfold basicSolution
    rw [place_at hs.inj (List.mem_finRange k)]
    exact mem_rowTimes he hB (fun i => mem_computeW he (fun j _ => mem_startX he hb j) i) k
  · rw [place_not fun k _ h => hs.disj k ((h : p k = j) ▸ hj), basicSolution_off hs _ hj]
    exact mem_startX he hb j

end core

variable {R : XRounding K} {mem : Bounds K → K → Prop} {ok : (Fin n → Bounds K) → Bool} {hmn : m ≤ n}
  {xl xu : Fin n → Ext K} {A : Mat m n K} {b : Fin m → K} {vt : Fin n → Slackness}

theorem computeB_encl (he : EnclB R mem) {p : Fin m → Fin n} {B : Mat m m (Bounds K)}
    (h : computeB R A p = some B) :
    IsUnit (basisOf A p).det ∧ ∀ i j, mem (B i j) ((basisOf A p)⁻¹ i j) :=
  C55_lu_inverse he.toEncl h fun _ _ => he.point _

/-- What the answer tells about the computed quantities. -/
theorem verify_cases {r : LV} (h : verifyFeasibility R ok hmn xl xu A b vt = some r) :
    ∃ B c, computeB R A (fun k : Fin m => (computeP vt).getD k ⟨k, k.2.trans_le hmn⟩) = some B ∧
      let p := fun k : Fin m => (computeP vt).getD k ⟨k, k.2.trans_le hmn⟩
      let q := (computeP vt).drop m
      let x := computeX R xl xu A b vt p q B
      let fs := basicLoop (fun j => point (xl j)) (fun j => point (xu j)) x .true_
        ((List.finRange m).map p)
      computeC xl xu p x = some c ∧
      r = if definitely fs then fs else nonbasicLoop vt (computeZ R A c (computeY R c p B)) fs q := by
  unfold verifyFeasibility at h
  simp only at h
  split_ifs at h with h1
  obtain ⟨B, hB, h⟩ := Option.bind_eq_some_iff.1 h
  rcases hok : ok (computeX R xl xu A b vt
    (fun k : Fin m => (computeP vt).getD k ⟨k, k.2.trans_le hmn⟩) ((computeP vt).drop m) B) with _ | _
  · rw [hok, if_neg (by decide)] at h
    exact absurd h (by simp)
  rw [hok, if_pos rfl] at h
  obtain ⟨c, hc, h⟩ := Option.map_eq_some_iff.1 h
  exact ⟨B, c, hB, hc, h.symm⟩

theorem definitely_true {r : LV} : definitely r = true ↔ r = .true_ := by cases r <;> decide

theorem feasible_of_true (he : EnclB R mem) (hu : Usable m xl xu vt)
    (hlu : ∀ j, Ext.le (xl j) (xu j) = true)
    (h : verifyFeasibility R ok hmn xl xu A b vt = some .true_) : ∃ x, Feasible xl xu A b x := by
  obtain ⟨B, c, hB, hc, hr⟩ := verify_cases h
  set p : Fin m → Fin n := fun k : Fin m => (computeP vt).getD k ⟨k, k.2.trans_le hmn⟩ with hp
  set q := (computeP vt).drop m with hq
  set x := computeX R xl xu A b vt p q B with hx
  have hs : Split (K := K) p q := split_computeP hmn vt
  obtain ⟨hdet, hB'⟩ := computeB_encl he hB
  have hx' : ∀ j, mem (x j) (basicSolution A b p q (exactN xl xu vt) j) := mem_computeX he hs hB' hu.2.2
  have hfs : basicLoop (fun j => point (xl j)) (fun j => point (xu j)) x .true_
      ((List.finRange m).map p) = .true_ := by
    split_ifs at hr with hd
    · exact hr.symm
    · have h1 := nonbasicLoop_det (vt := vt) (z := computeZ R A c (computeY R c p B)) (l := q)
        (fs := basicLoop (fun j => point (xl j)) (fun j => point (xu j)) x .true_
          ((List.finRange m).map p)) (by rw [← hr]; decide)
      rw [h1.1] at hr
      exact hr.symm
  have hb := (basicLoop_true hfs).2
  refine ⟨basicSolution A b p q (exactN xl xu vt), basicSolution_solves hs hdet _, fun j => ?_⟩
  rcases hs.cover j with ⟨k, rfl⟩ | hj
  · obtain ⟨h1, h2⟩ := hb (p k) (List.mem_map_of_mem (List.mem_finRange k))
    exact ⟨le_of_lt (lt_of_lt_lower (he.toIn (hx' _)) (possibly_leq.1 h1)),
      le_of_lt (lt_of_upper_lt (he.toIn (hx' _)) (possibly_leq.1 h2))⟩
  · rw [basicSolution_off hs _ hj]
    have hl := hlu j
    unfold exactN
    rcases usable_nonbasic hu hj with hv | hv
    · obtain ⟨a, ha⟩ := (hu.2.2 j).1 hv
      rw [ha] at hl
      simpa [hv, ha, Ext.le] using hl
    · obtain ⟨a, ha⟩ := (hu.2.2 j).2 hv
      rw [ha] at hl
      simpa [hv, ha, Ext.le] using hl

theorem infeasible_of_false (he : EnclB R mem) (hu : Usable m xl xu vt)
    (hdet : ∀ B, computeB R A (fun k : Fin m => (computeP vt).getD k ⟨k, k.2.trans_le hmn⟩) = some B →
      let p := fun k : Fin m => (computeP vt).getD k ⟨k, k.2.trans_le hmn⟩
      let x := computeX R xl xu A b vt p ((computeP vt).drop m) B
      ∀ k, leq (x (p k)) (point (xl (p k))) ≠ .indeterminate ∧
        leq (point (xu (p k))) (x (p k)) ≠ .indeterminate)
    (h : verifyFeasibility R ok hmn xl xu A b vt = some .false_) : ¬ ∃ x, Feasible xl xu A b x := by
  rintro ⟨u, hAu, hbu⟩
  obtain ⟨B, c, hB, hc, hr⟩ := verify_cases h
  have hdt := hdet B hB
  simp only at hdt
  set p : Fin m → Fin n := fun k : Fin m => (computeP vt).getD k ⟨k, k.2.trans_le hmn⟩ with hp
  set q := (computeP vt).drop m with hq
  set x := computeX R xl xu A b vt p q B with hx
  have hs : Split (K := K) p q := split_computeP hmn vt
  obtain ⟨hdetB, hB'⟩ := computeB_encl he hB
  set v := basicSolution A b p q (exactN xl xu vt) with hv
  have hx' : ∀ j, mem (x j) (v j) := mem_computeX he hs hB' hu.2.2
  have hAv : ∀ i, ∑ j, A i j * v j = b i := basicSolution_solves hs hdetB _
  set fs := basicLoop (fun j => point (xl j)) (fun j => point (xu j)) x .true_
    ((List.finRange m).map p) with hfsd
  set z := computeZ R A c (computeY R c p B) with hz
  have hnd : definitely fs = false := by
    cases hd : definitely fs
    · rfl
    · rw [hd, if_pos rfl] at hr
      rw [definitely_true] at hd
      rw [hd] at hr
      exact absurd hr (by decide)
  rw [hnd, if_neg (by decide)] at hr
  obtain ⟨h1, h2⟩ := nonbasicLoop_det (vt := vt) (z := z) (l := q) (fs := fs) (by rw [← hr]; decide)
  rw [h1] at hr
  obtain ⟨hc0, hcp⟩ := computeC_spec hs.inj hc
  have hcq : ∀ j ∈ q, c j = 0 := fun j hj => hc0 j fun k hk => hs.disj k (hk ▸ hj)
  have hcost := cost_change hs hdetB hcq (u := u) (v := v) fun i => by rw [hAu i, hAv i]
  -- the right-hand side is not negative
  have hnn : 0 ≤ ∑ k, c (p k) * (u (p k) - v (p k)) := by
    rw [hcost]
    refine List.sum_nonneg fun t ht => ?_
    obtain ⟨j, hj, rfl⟩ := List.mem_map.1 ht
    have hzj := mem_computeZ he (A := A) (c := c) (mem_computeY he (c := c) (p := p) hB') j
    have hvj : v j = exactN xl xu vt j := basicSolution_off hs _ hj
    rw [hvj]
    rcases usable_nonbasic hu hj with hk | hk
    · obtain ⟨a, ha⟩ := (hu.2.2 j).1 hk
      have h3 := lt_of_lt_lower (he.toIn hzj) (possibly_leq.1 ((h2 j hj).1 hk))
      have h4 := (hbu j).1
      rw [ha] at h4
      simp only [point, Ext.lt, Ext.le, decide_eq_true_eq] at h3 h4
      have h5 : exactN xl xu vt j = a := by simp [exactN, hk, ha]
      rw [h5]
      exact mul_nonneg h3.le (sub_nonneg.2 h4)
    · obtain ⟨a, ha⟩ := (hu.2.2 j).2 hk
      have h3 := lt_of_upper_lt (he.toIn hzj) (possibly_leq.1 ((h2 j hj).2 hk))
      have h4 := (hbu j).2
      rw [ha] at h4
      simp only [point, Ext.lt, Ext.le, decide_eq_true_eq] at h3 h4
      have h5 : exactN xl xu vt j = a := by simp [exactN, hk, ha]
      rw [h5]
      exact mul_nonneg_of_nonpos_of_nonpos h3.le (sub_nonpos.2 h4)
  -- every basic term is not positive
  have hle : ∀ k, c (p k) * (u (p k) - v (p k)) ≤ 0 := by
    intro k
    rw [hcp k]
    obtain ⟨hk1, hk2⟩ := hdt k
    have hd1 : possibly (leq (x (p k)) (point (xl (p k)))) = true →
        definitely (leq (x (p k)) (point (xl (p k)))) = true := by
      unfold leq Bounds.lt at hk1 ⊢
      revert hk1
      split_ifs <;> decide
    have hd2 : possibly (leq (point (xu (p k))) (x (p k))) = true →
        definitely (leq (point (xu (p k))) (x (p k))) = true := by
      unfold leq Bounds.lt at hk2 ⊢
      revert hk2
      split_ifs <;> decide
    split_ifs with ha hb
    · have h3 := le_of_upper_le (he.toIn (hx' (p k))) (definitely_leq (hd1 ha))
      have h4 := (hbu (p k)).1
      have h5 : v (p k) ≤ u (p k) := ext_le_trans h3 h4
      linarith
    · have h3 := le_of_le_lower (he.toIn (hx' (p k))) (definitely_leq (hd2 hb))
      have h4 := (hbu (p k)).2
      have h5 : u (p k) ≤ v (p k) := ext_le_trans h4 h3
      linarith
    · simp
  -- one of them is negative
  have hlt : ∃ k, c (p k) * (u (p k) - v (p k)) < 0 := by
    rcases basicLoop_false hr.symm with h3 | ⟨j, hj, h3⟩
    · exact absurd h3 (by decide)
    · obtain ⟨k, _, rfl⟩ := List.mem_map.1 hj
      rcases h3 with h3 | h3
      · have h4 := lt_of_upper_lt (he.toIn (hx' (p k))) (definitely_lt.1 h3)
        have h5 := (hbu (p k)).1
        have h6 : v (p k) < u (p k) := ext_lt_of_lt_le h4 h5
        have h7 : possibly (leq (x (p k)) (point (xl (p k)))) = true := by
          by_contra h8
          have h9 := lt_of_lt_lower (he.toIn (hx' (p k))) (possibly_leq.1 (Bool.eq_false_iff.2 h8))
          exact lt_irrefl _ (ext_lt_of_lt_le h4 (le_of_lt h9))
        refine ⟨k, ?_⟩
        rw [hcp k, if_pos h7]
        linarith
      · have h4 := lt_of_lt_lower (he.toIn (hx' (p k))) (definitely_lt.1 h3)
        have h5 := (hbu (p k)).2
        have h6 : u (p k) < v (p k) := ext_lt_of_le_lt h5 h4
        have h7 : possibly (leq (point (xu (p k))) (x (p k))) = true := by
          by_contra h8
          have h9 := lt_of_upper_lt (he.toIn (hx' (p k))) (possibly_leq.1 (Bool.eq_false_iff.2 h8))
          exact lt_irrefl _ (ext_lt_of_lt_le h9 (le_of_lt h4))
        have h8 : possibly (leq (x (p k)) (point (xl (p k)))) ≠ true := by
          intro h8
          have h9 := hle k
          rw [hcp k, if_pos h8] at h9
          linarith
        refine ⟨k, ?_⟩
        rw [hcp k, if_neg h8, if_pos h7]
        linarith
  obtain ⟨k, hk⟩ := hlt
  have : ∑ k, c (p k) * (u (p k) - v (p k)) < 0 :=
    Finset.sum_neg' (fun k _ => hle k) ⟨k, Finset.mem_univ k, hk⟩
  linarith

/-! ### The claims -/

/-- C95: if the answer is `true`, there is a feasible point.  The kinds of the variables must be
usable and the bounds ordered. -/
theorem C95_true (R : Rounding K) (hu : Usable m xl xu vt) (hlu : ∀ j, Ext.le (xl j) (xu j) = true)
    (h : verifyFeasibility (XRounding.ofRounding R) ok hmn xl xu A b vt = some .true_) :
    ∃ x, Feasible xl xu A b x :=
  feasible_of_true (enclB_rounding R) hu hlu h

/-- C95, partial: if the answer is `false`, there is no feasible point, provided that every comparison of
a basic variable with its bounds was decided.  Without that the claim fails (`C95_false_wrong`). -/
theorem C95_false_partial (R : Rounding K) (hu : Usable m xl xu vt)
    (hdet : ∀ B, computeB (XRounding.ofRounding R) A
        (fun k : Fin m => (computeP vt).getD k ⟨k, k.2.trans_le hmn⟩) = some B →
      let p := fun k : Fin m => (computeP vt).getD k ⟨k, k.2.trans_le hmn⟩
      let x := computeX (XRounding.ofRounding R) xl xu A b vt p ((computeP vt).drop m) B
      ∀ k, leq (x (p k)) (point (xl (p k))) ≠ .indeterminate ∧
        leq (point (xu (p k))) (x (p k)) ≠ .indeterminate)
    (h : verifyFeasibility (XRounding.ofRounding R) ok hmn xl xu A b vt = some .false_) :
    ¬ ∃ x, Feasible xl xu A b x :=
  infeasible_of_false (enclB_rounding R) hu hdet h

end Verif.Simplex
