import Verif.PDE.Model
import Mathlib.Algebra.BigOperators.Intervals
import Mathlib.Analysis.Calculus.Deriv.Add
import Mathlib.Analysis.Calculus.Deriv.Mul
import Mathlib.Tactic.Ring
import Mathlib.Tactic.NormNum
import Mathlib.Tactic.Linarith
import Mathlib.Tactic.Abel

/-!
# C108: the scheme for first-order partial differential equations

The specification is that of the equation: totals are conserved (the scheme is in divergence form with periodic boundaries),
constants stay, solutions add, transport moves the data, and values stay within the bounds of the initial data.
-/

namespace Verif.PDE

variable {K : Type} [Field K] {n : ℕ}

theorem next_wrap (M : ℕ) (b : Bool) : next M b M = next M b 0 := by
  unfold next
  cases b
  · by_cases h : M = 0 <;> simp
  · by_cases h : M = 0 <;> simp [h]

theorem next_lt {M i : ℕ} (b : Bool) (h : i < M) : next M b i < M := by
  unfold next
  cases b
  · simp only [Bool.false_eq_true, if_false]; split_ifs <;> omega
  · simp only [if_true]; split_ifs <;> omega

theorem next_succ_lt {M i : ℕ} (b : Bool) (h : i < M) : next M b (i + 1) < M := by
  unfold next
  cases b
  · simp only [Bool.false_eq_true, if_false]; split_ifs <;> omega
  · simp only [if_true]; split_ifs <;> omega

/-- The total of a component. -/
def total (M : ℕ) (u : Cells K n) : Fin n → K := ∑ i ∈ Finset.range M, ∑ j ∈ Finset.range M, u i j

/-- **C108**: the total of each component is the same after every number of steps, whatever the matrices and the step. -/
theorem C108_conservation (M : ℕ) (r : K) (p : Pde K n) (u : Cells K n) (k : ℕ) : total M (uts M r p u k) = total M u := by
  induction k with
  | zero => rfl
  | succ k ih =>
    rw [← ih]
    show total M (step M r p (uts M r p u k)) = total M (uts M r p u k)
    generalize uts M r p u k = v
    have h0 : ∀ j, ∑ i ∈ Finset.range M, (face0 M p v (i + 1) j - face0 M p v i j) = 0 := by
      intro j
      rw [Finset.sum_range_sub (fun i => face0 M p v i j)]
      unfold face0
      simp only [next_wrap, sub_self]
    have h1 : ∀ i, ∑ j ∈ Finset.range M, (face1 M p v i (j + 1) - face1 M p v i j) = 0 := by
      intro i
      rw [Finset.sum_range_sub (fun j => face1 M p v i j)]
      unfold face1
      simp only [next_wrap, sub_self]
    have e0 : ∑ i ∈ Finset.range M, ∑ j ∈ Finset.range M, face0 M p v (i + 1) j =
        ∑ i ∈ Finset.range M, ∑ j ∈ Finset.range M, face0 M p v i j := by
      rw [Finset.sum_comm, Finset.sum_comm (f := fun i j => face0 M p v i j)]
      exact Finset.sum_congr rfl fun j _ => sub_eq_zero.1 (by rw [← Finset.sum_sub_distrib]; exact h0 j)
    have e1 : ∑ i ∈ Finset.range M, ∑ j ∈ Finset.range M, face1 M p v i (j + 1) =
        ∑ i ∈ Finset.range M, ∑ j ∈ Finset.range M, face1 M p v i j :=
      Finset.sum_congr rfl fun i _ => sub_eq_zero.1 (by rw [← Finset.sum_sub_distrib]; exact h1 i)
    unfold total step
    simp only [Finset.sum_sub_distrib, ← Finset.smul_sum, ← Matrix.mulVec_sum, Finset.sum_add_distrib]
    rw [e0, e1]
    simp

/-- **C108**: data which are the same in all cells stay. -/
theorem C108_constants (M : ℕ) (r : K) (p : Pde K n) (c : Fin n → K) (k : ℕ) : uts M r p (fun _ _ => c) k = fun _ _ => c := by
  induction k with
  | zero => rfl
  | succ k ih =>
    show step M r p (uts M r p _ k) = _
    rw [ih]
    funext i j
    unfold step face0 face1
    simp

/-- **C108**: solutions add up. -/
theorem C108_superposition (M : ℕ) (r : K) (p : Pde K n) (a b : K) (u v : Cells K n) (k : ℕ) :
    uts M r p (fun i j => a • u i j + b • v i j) k = fun i j => a • uts M r p u k i j + b • uts M r p v k i j := by
  induction k with
  | zero => rfl
  | succ k ih =>
    show step M r p (uts M r p _ k) = _
    rw [ih]
    have f0 : ∀ u v : Cells K n, ∀ i j, face0 M p (fun i j => a • u i j + b • v i j) i j = a • face0 M p u i j + b • face0 M p v i j := by
      intro u v i j
      unfold face0
      rw [← Matrix.mulVec_smul, ← Matrix.mulVec_smul, ← Matrix.mulVec_add]
      congr 1; funext k
      simp only [Matrix.mulVec_add, Matrix.mulVec_smul, Pi.add_apply, Pi.smul_apply]
    have f1 : ∀ u v : Cells K n, ∀ i j, face1 M p (fun i j => a • u i j + b • v i j) i j = a • face1 M p u i j + b • face1 M p v i j := by
      intro u v i j
      unfold face1
      rw [← Matrix.mulVec_smul, ← Matrix.mulVec_smul, ← Matrix.mulVec_add]
      congr 1; funext k
      simp only [Matrix.mulVec_add, Matrix.mulVec_smul, Pi.add_apply, Pi.smul_apply]
    funext i j
    show step M r p _ i j = a • step M r p _ i j + b • step M r p _ i j
    unfold step
    rw [f0, f0, f1, f1]
    simp only [Matrix.mulVec_add, Matrix.mulVec_smul, Matrix.mulVec_sub]
    funext l
    simp only [Pi.add_apply, Pi.sub_apply, Pi.smul_apply, smul_eq_mul]
    ring

theorem next_lower {M i : ℕ} (h : i < M) : next M true i = (i + (M - 1)) % M := by
  unfold next
  rw [if_pos rfl]
  by_cases e : i = 0
  · subst e; rw [if_pos rfl, Nat.zero_add, Nat.mod_eq_of_lt (by omega)]
  · rw [if_neg e, show i + (M - 1) = (i - 1) + M by omega, Nat.add_mod_right, Nat.mod_eq_of_lt (by omega)]

/-- **C108**: transport in the first direction by one cell for each step moves the data by this number of cells, around the
grid. -/
theorem C108_transport (M : ℕ) (r : K) (p : Pde K n) (hT : p.T0 * p.invT0 = 1) (hl : ∀ k, p.lower0 k = true)
    (hr : r • (p.invA * p.B0) = 1) (hB : p.B1 = 0) (u : Cells K n) (k i j : ℕ) (hi : i < M) :
    uts M r p u k i j = u ((i + k * (M - 1)) % M) j := by
  induction k generalizing i with
  | zero => simp [uts, Nat.mod_eq_of_lt hi]
  | succ k ih =>
    show step M r p (uts M r p u k) i j = _
    generalize hv : uts M r p u k = v at ih
    have hf : ∀ i, face0 M p v i j = v (next M true i) j := by
      intro i
      unfold face0
      simp only [hl]
      show p.T0.mulVec (p.invT0.mulVec (v (next M true i) j)) = _
      rw [Matrix.mulVec_mulVec, hT, Matrix.one_mulVec]
    unfold step
    rw [hf, hf, hB, Matrix.zero_mulVec, add_zero, Matrix.mulVec_mulVec, ← Matrix.smul_mulVec, hr, Matrix.one_mulVec,
      show next M true (i + 1) = i by simp [next], sub_sub_cancel, next_lower hi, ih _ (Nat.mod_lt _ (by omega)),
      Nat.mod_add_mod]
    congr 2
    ring

/-! ### Bounds -/

/-- A scalar equation with the direction of each face taken from the sign of the velocity. -/
structure Upwind (p : Pde ℝ 1) : Prop where
  t0 : p.T0 * p.invT0 = 1
  t1 : p.T1 * p.invT1 = 1
  l0 : p.lower0 0 = true ↔ 0 ≤ (p.invA * p.B0) 0 0
  l1 : p.lower1 0 = true ↔ 0 ≤ (p.invA * p.B1) 0 0

theorem step_convex {M : ℕ} {r : ℝ} {p : Pde ℝ 1} (h : Upwind p) (u : Cells ℝ 1) {i j : ℕ} (hi : i < M) (hj : j < M) :
    ∃ i' < M, ∃ j' < M, step M r p u i j 0 = (1 - r * (|(p.invA * p.B0) 0 0| + |(p.invA * p.B1) 0 0|)) * u i j 0 +
      r * |(p.invA * p.B0) 0 0| * u i' j 0 + r * |(p.invA * p.B1) 0 0| * u i j' 0 := by
  have t0 : p.T0 0 0 * p.invT0 0 0 = 1 := by
    have := congrFun (congrFun h.t0 0) 0
    simpa [Matrix.mul_apply] using this
  have t1 : p.T1 0 0 * p.invT1 0 0 = 1 := by
    have := congrFun (congrFun h.t1 0) 0
    simpa [Matrix.mul_apply] using this
  have f0 : ∀ i j, face0 M p u i j 0 = u (next M (p.lower0 0) i) j 0 := by
    intro i j
    simp only [face0, Matrix.mulVec, dotProduct, Fin.sum_univ_one, Fin.isValue]
    rw [← mul_assoc, t0, one_mul]
  have f1 : ∀ i j, face1 M p u i j 0 = u i (next M (p.lower1 0) j) 0 := by
    intro i j
    simp only [face1, Matrix.mulVec, dotProduct, Fin.sum_univ_one, Fin.isValue]
    rw [← mul_assoc, t1, one_mul]
  have hs : step M r p u i j 0 = u i j 0 -
      r * ((p.invA * p.B0) 0 0 * (u (next M (p.lower0 0) (i + 1)) j 0 - u (next M (p.lower0 0) i) j 0) +
        (p.invA * p.B1) 0 0 * (u i (next M (p.lower1 0) (j + 1)) 0 - u i (next M (p.lower1 0) j) 0)) := by
    rw [← f0, ← f0, ← f1, ← f1]
    simp only [step, Matrix.mulVec, dotProduct, Fin.sum_univ_one, Fin.isValue, Matrix.mul_apply, Pi.sub_apply, Pi.add_apply,
      Pi.smul_apply, smul_eq_mul]
    ring
  have hx : ∃ i' < M, (p.invA * p.B0) 0 0 * (u (next M (p.lower0 0) (i + 1)) j 0 - u (next M (p.lower0 0) i) j 0) =
      |(p.invA * p.B0) 0 0| * (u i j 0 - u i' j 0) := by
    by_cases ha : 0 ≤ (p.invA * p.B0) 0 0
    · refine ⟨_, next_lt (p.lower0 0) hi, ?_⟩
      rw [abs_of_nonneg ha, h.l0.2 ha, show next M true (i + 1) = i by simp [next]]
    · refine ⟨_, next_succ_lt (p.lower0 0) hi, ?_⟩
      have hb : p.lower0 0 = false := by
        rw [← Bool.not_eq_true]; exact fun e => ha (h.l0.1 e)
      rw [abs_of_neg (not_le.1 ha), hb, show next M false i = i by simp [next, hi.ne]]
      ring
  have hy : ∃ j' < M, (p.invA * p.B1) 0 0 * (u i (next M (p.lower1 0) (j + 1)) 0 - u i (next M (p.lower1 0) j) 0) =
      |(p.invA * p.B1) 0 0| * (u i j 0 - u i j' 0) := by
    by_cases ha : 0 ≤ (p.invA * p.B1) 0 0
    · refine ⟨_, next_lt (p.lower1 0) hj, ?_⟩
      rw [abs_of_nonneg ha, h.l1.2 ha, show next M true (j + 1) = j by simp [next]]
    · refine ⟨_, next_succ_lt (p.lower1 0) hj, ?_⟩
      have hb : p.lower1 0 = false := by
        rw [← Bool.not_eq_true]; exact fun e => ha (h.l1.1 e)
      rw [abs_of_neg (not_le.1 ha), hb, show next M false j = j by simp [next, hj.ne]]
      ring
  obtain ⟨i', hi', ex⟩ := hx
  obtain ⟨j', hj', ey⟩ := hy
  refine ⟨i', hi', j', hj', ?_⟩
  rw [hs, ex, ey]
  ring

/-- **C108** (partial): for scalar equations, if the step satisfies the Courant condition for both directions together, the
values stay within the bounds of the initial data. Missing: the step which the code chooses need not satisfy the condition
(`C108_courant_fails`); systems. -/
theorem C108_bounds_partial (M : ℕ) (r : ℝ) (p : Pde ℝ 1) (h : Upwind p) (hr : 0 ≤ r)
    (hc : r * (|(p.invA * p.B0) 0 0| + |(p.invA * p.B1) 0 0|) ≤ 1) (u : Cells ℝ 1) (a b : ℝ)
    (hu : ∀ i < M, ∀ j < M, a ≤ u i j 0 ∧ u i j 0 ≤ b) (k : ℕ) :
    ∀ i < M, ∀ j < M, a ≤ uts M r p u k i j 0 ∧ uts M r p u k i j 0 ≤ b := by
  induction k with
  | zero => exact hu
  | succ k ih =>
    intro i hi j hj
    show a ≤ step M r p (uts M r p u k) i j 0 ∧ step M r p (uts M r p u k) i j 0 ≤ b
    obtain ⟨i', hi', j', hj', e⟩ := step_convex (r := r) h (uts M r p u k) hi hj
    rw [e]
    have w0 : 0 ≤ r * |(p.invA * p.B0) 0 0| := mul_nonneg hr (abs_nonneg _)
    have w1 : 0 ≤ r * |(p.invA * p.B1) 0 0| := mul_nonneg hr (abs_nonneg _)
    have w2 : 0 ≤ 1 - r * (|(p.invA * p.B0) 0 0| + |(p.invA * p.B1) 0 0|) := by linarith
    have x := ih i hi j hj
    have y := ih i' hi' j hj
    have z := ih i hi j' hj'
    constructor
    · have := mul_le_mul_of_nonneg_left x.1 w2
      have := mul_le_mul_of_nonneg_left y.1 w0
      have := mul_le_mul_of_nonneg_left z.1 w1
      linarith
    · have := mul_le_mul_of_nonneg_left x.2 w2
      have := mul_le_mul_of_nonneg_left y.2 w0
      have := mul_le_mul_of_nonneg_left z.2 w1
      linarith

/-- The equation `u_t + c u_x + c u_y = s` with velocity `c ≥ 0`. -/
def advection (c s : ℝ) : Pde ℝ 1 where
  invA := 1
  B0 := c • 1
  B1 := c • 1
  T0 := 1
  T1 := 1
  invT0 := 1
  invT1 := 1
  lower0 := fun _ => true
  lower1 := fun _ => true
  f := fun _ _ => s

theorem advection_upwind {c : ℝ} (hc : 0 ≤ c) (s : ℝ) : Upwind (advection c s) :=
  ⟨by simp [advection], by simp [advection], by simp [advection, hc], by simp [advection, hc]⟩

/-- The hypotheses of `C108_bounds_partial` and `C108_transport` are met. -/
example : Upwind (advection (1 / 2) 0) ∧
    (1 : ℝ) * (|((advection (1 / 2) 0).invA * (advection (1 / 2) 0).B0) 0 0| +
      |((advection (1 / 2) 0).invA * (advection (1 / 2) 0).B1) 0 0|) ≤ 1 := by
  refine ⟨advection_upwind (by norm_num) 0, ?_⟩
  simp only [advection, one_mul, Matrix.smul_apply, Matrix.one_apply_eq, smul_eq_mul, mul_one]
  rw [abs_of_nonneg (by norm_num)]; norm_num

example : (1 / 2 : ℝ) • ((1 : Matrix (Fin 1) (Fin 1) ℝ) * ((2 : ℝ) • 1)) = 1 := by
  rw [Matrix.one_mul, smul_smul]; norm_num

/-- Data which alternate between cells. -/
def alternating : Cells ℝ 1 := fun i j _ => (-1) ^ (i + j)

theorem alt_next {M : ℕ} (hM : Even M) (h0 : 0 < M) (i : ℕ) : ((-1 : ℝ)) ^ next M true i = -(-1) ^ i := by
  unfold next
  rw [if_pos rfl]
  by_cases e : i = 0
  · subst e
    rw [if_pos rfl, pow_zero]
    obtain ⟨m, rfl⟩ : ∃ m, M = m + 1 := ⟨M - 1, by omega⟩
    have := hM.neg_one_pow (α := ℝ)
    rw [pow_succ] at this
    show (-1 : ℝ) ^ m = _
    linarith
  · obtain ⟨m, rfl⟩ : ∃ m, i = m + 1 := ⟨i - 1, by omega⟩
    rw [if_neg e, Nat.add_sub_cancel, pow_succ]; ring

/-- **C108**: the step chosen by the code: for velocity `3/2` in both directions the harmonic rule gives `tau/h=1`, and
alternating data, which are within `[-1,1]`, are multiplied by `-5` in every step. -/
theorem C108_courant_fails : (2 : ℝ)⁻¹ ^ level (courant (3 / 2) (3 / 2)) = 1 ∧
    ∀ M, Even M → 0 < M → ∀ k, uts M ((2 : ℝ)⁻¹ ^ level (courant (3 / 2) (3 / 2))) (advection (3 / 2) 0) alternating k =
      fun i j => (-5 : ℝ) ^ k • alternating i j := by
  have hL : level (courant (3 / 2) (3 / 2)) = 0 := by
    unfold level
    rw [Nat.floor_eq_zero]
    have : Real.logb 2 (courant (3 / 2) (3 / 2)) < 0 := by
      apply Real.logb_neg (by norm_num) <;> (unfold courant; norm_num)
    linarith
  rw [hL, pow_zero]
  refine ⟨rfl, fun M hM h0 k => ?_⟩
  induction k with
  | zero => funext i j; simp [uts]
  | succ k ih =>
    show step M 1 _ (uts M 1 _ _ k) = _
    rw [ih]
    funext i j l
    obtain rfl : l = 0 := Subsingleton.elim _ _
    have n1 : ∀ i, next M true (i + 1) = i := fun i => by simp [next]
    simp only [step, face0, face1, advection, alternating, Matrix.one_mulVec, Matrix.smul_mulVec, Pi.sub_apply, Pi.add_apply,
      Pi.smul_apply, smul_eq_mul, n1, pow_add, alt_next hM h0]
    ring

/-- **C108**: the right-hand side is never used: for `u_t + u_x + u_y = s` with `u = 1` at the beginning, the solution is
`1 + s t`, and the result is `1` at all times. -/
theorem C108_source_fails (s : ℝ) (M : ℕ) (h : ℝ) (τ : ℝ) :
    ∃ U : ℝ → ℝ → ℝ → ℝ, (∀ x y, U 0 x y = 1) ∧
      (∀ t x y, HasDerivAt (fun t => U t x y) s t ∧ HasDerivAt (fun x => U t x y) 0 x ∧ HasDerivAt (fun y => U t x y) 0 y ∧
        s + 0 + 0 = (advection 1 s).f (fun _ => U t x y) 0) ∧
      ∀ (k : ℕ) (i j : ℕ) (x y : ℝ), U (k * τ) x y - uts M (τ / h) (advection 1 s) (fun _ _ _ => 1) k i j 0 = s * (k * τ) := by
  refine ⟨fun t _ _ => 1 + s * t, fun x y => by simp, fun t x y => ⟨?_, hasDerivAt_const _ _, hasDerivAt_const _ _, ?_⟩, ?_⟩
  · simpa using ((hasDerivAt_id t).const_mul s).const_add 1
  · simp [advection]
  · intro k i j x y
    rw [C108_constants]
    ring

/-! ### Interpolation -/

theorem cellOf_spec {m : ℕ} (hm : 0 < m) {x : ℝ} (h0 : 0 ≤ x) (h1 : x ≤ 1) : (cellOf m x).1 < m ∧
    x * m = (cellOf m x).1 + (cellOf m x).2 ∧ 0 ≤ (cellOf m x).2 ∧ (cellOf m x).2 ≤ 1 := by
  have hm' : (0 : ℝ) < m := by exact_mod_cast hm
  have hx0 : 0 ≤ x * m := mul_nonneg h0 hm'.le
  have hx1 : x * m ≤ m := by nlinarith
  have hf := Nat.floor_le hx0
  have hg := Nat.lt_floor_add_one (x * m)
  have hle : ⌊x * m⌋₊ ≤ m := by
    have : ((⌊x * m⌋₊ : ℕ) : ℝ) ≤ m := hf.trans hx1
    exact_mod_cast this
  unfold cellOf
  by_cases e : ⌊x * m⌋₊ = m
  · simp only [e, if_true]
    have hc : ((m - 1 : ℕ) : ℝ) = m - 1 := by rw [Nat.cast_sub hm, Nat.cast_one]
    rw [e] at hf
    rw [hc]
    exact ⟨by omega, by ring, by linarith, by linarith⟩
  · simp only [e, if_false]
    exact ⟨by omega, by ring, by linarith, by linarith⟩

/-- **C108** (partial): the interpolation of affine data is exact, also on the sides of the square, and that of any data is
exact at the lower corners of cells. Missing: other data (`C108_interpolate_fails`). -/
theorem C108_interpolate_partial {m : ℕ} (hm : 0 < m) (us : ℕ → ℕ → ℝ) :
    (∀ a b c, (∀ i ≤ m, ∀ j ≤ m, us i j = a + b * i + c * j) → ∀ x0 x1, 0 ≤ x0 → x0 ≤ 1 → 0 ≤ x1 → x1 ≤ 1 →
      interpolate m us x0 x1 = a + b * (x0 * m) + c * (x1 * m)) ∧
    ∀ i < m, ∀ j < m, interpolate m us (i / m) (j / m) = us i j := by
  constructor
  · intro a b c h x0 x1 p0 p1 q0 q1
    obtain ⟨s1, s2, -, -⟩ := cellOf_spec hm p0 p1
    obtain ⟨t1, t2, -, -⟩ := cellOf_spec hm q0 q1
    unfold interpolate
    generalize cellOf m x0 = k0 at *
    generalize cellOf m x1 = k1 at *
    obtain ⟨i0, a0⟩ := k0
    obtain ⟨i1, a1⟩ := k1
    simp only at s1 s2 t1 t2 ⊢
    rw [h _ s1.le _ t1.le, h _ s1 _ t1.le, h _ s1.le _ t1, h _ s1 _ t1, s2, t2]
    push_cast
    ring
  · intro i hi j hj
    have hm' : (m : ℝ) ≠ 0 := by exact_mod_cast hm.ne'
    have hc : ∀ i < m, cellOf m ((i : ℝ) / m) = (i, 0) := by
      intro i hi
      unfold cellOf
      rw [div_mul_cancel₀ _ hm', Nat.floor_natCast, if_neg hi.ne]
      simp
    unfold interpolate
    rw [hc i hi, hc j hj]
    simp

/-- **C108**: the last term is not multiplied by the second weight: for the values `i*j` at the corners of one cell the result
at the corner `(1,0)` is 1, and the value there is 0; at the centre it is `1/2` instead of `1/4`. -/
theorem C108_interpolate_fails : interpolate 1 (fun i j => i * j) 1 0 = 1 ∧ interpolate 1 (fun i j => i * j) (1 / 2) (1 / 2) = 1 / 2 := by
  have h1 : cellOf 1 1 = (0, 1) := by simp [cellOf]
  have h0 : cellOf 1 0 = (0, 0) := by simp [cellOf]
  have h2 : cellOf 1 (1 / 2) = (0, 1 / 2) := by
    have : ⌊(1 / 2 : ℝ)⌋₊ = 0 := by rw [Nat.floor_eq_zero]; norm_num
    simp only [cellOf, Nat.cast_one, mul_one, this]; simp
  unfold interpolate
  rw [h1, h0, h2]
  norm_num

end Verif.PDE
