import Verif.Differential.Extra
/-!
# C44: univariate differentials; where constructors are wrong; cases meeting the hypotheses
-/
namespace Verif.Differential
open Verif.Expansion

variable {n m : Nat} {K : Type*} [Field K]

/-- The polynomial of a list of coefficients. -/
noncomputable def upoly (x : List K) : Polynomial K :=
  ∑ i ∈ Finset.range x.length, Polynomial.monomial i (x.getD i 0)

theorem coeff_upoly (x : List K) (k : Nat) : (upoly x).coeff k = x.getD k 0 := by
  rw [upoly, Polynomial.finset_sum_coeff]
  simp only [Polynomial.coeff_monomial]
  rw [Finset.sum_ite_eq' (Finset.range x.length) k]
  split_ifs with h
  · rfl
  · rw [Finset.mem_range, not_lt] at h
    rw [List.getD_eq_getElem?_getD, List.getElem?_eq_none h]; rfl

/-- Equality of polynomials up to terms of degree greater than `d`. -/
def UCong (d : Nat) (p q : Polynomial K) : Prop := ∀ k ≤ d, p.coeff k = q.coeff k

theorem UCong.mul {d : Nat} {p q p' q' : Polynomial K} (h : UCong d p q) (h' : UCong d p' q') :
    UCong d (p * p') (q * q') := by
  intro k hk
  rw [Polynomial.coeff_mul, Polynomial.coeff_mul]
  apply Finset.sum_congr rfl
  intro ij hij
  have := Finset.mem_antidiagonal.1 hij
  rw [h _ (by omega), h' _ (by omega)]

theorem getD_set (r : List K) (i k : Nat) (c : K) (hi : i < r.length) :
    (r.set i c).getD k 0 = if i = k then c else r.getD k 0 := by
  rw [List.getD_eq_getElem?_getD, List.getD_eq_getElem?_getD, List.getElem?_set]
  split_ifs with h1
  · rfl
  · rfl

theorem inner_fold (r : List K) (i m : Nat) (f : Nat → K) (h : i + m ≤ r.length) :
    ((List.range m).foldl (fun r j => r.set (i + j) (r.getD (i + j) 0 + f j)) r).length = r.length ∧
    ∀ k, ((List.range m).foldl (fun r j => r.set (i + j) (r.getD (i + j) 0 + f j)) r).getD k 0 =
      r.getD k 0 + if i ≤ k ∧ k < i + m then f (k - i) else 0 := by
  induction m with
  | zero =>
    refine ⟨rfl, fun k => ?_⟩
    rw [if_neg (by omega)]; simp
  | succ m ih =>
    obtain ⟨h1, h2⟩ := ih (by omega)
    rw [List.range_succ, List.foldl_append, List.foldl_cons, List.foldl_nil]
    refine ⟨by rw [List.length_set, h1], fun k => ?_⟩
    rw [getD_set _ _ _ _ (by rw [h1]; omega)]
    by_cases hk : i + m = k
    · subst hk
      rw [if_pos rfl, h2, if_neg (by omega), if_pos (by omega)]
      simp
    · rw [if_neg hk, h2]
      by_cases hc : i ≤ k ∧ k < i + m
      · rw [if_pos hc, if_pos (by omega)]
      · rw [if_neg hc, if_neg (by omega)]

theorem outer_fold (x y : List K) (d M : Nat) (hM : M ≤ d + 1) :
    ((List.range M).foldl (fun r i => (List.range (d - i + 1)).foldl (fun r j =>
      r.set (i + j) (r.getD (i + j) 0 + x.getD i 0 * y.getD j 0)) r)
      (List.replicate (d + 1) 0)).length = d + 1 ∧
    ∀ k ≤ d, ((List.range M).foldl (fun r i => (List.range (d - i + 1)).foldl (fun r j =>
      r.set (i + j) (r.getD (i + j) 0 + x.getD i 0 * y.getD j 0)) r)
      (List.replicate (d + 1) 0)).getD k 0 =
      ∑ i ∈ Finset.range M, if i ≤ k then x.getD i 0 * y.getD (k - i) 0 else 0 := by
  induction M with
  | zero =>
    refine ⟨by simp, fun k hk => ?_⟩
    simp [List.getD_eq_getElem?_getD, List.getElem?_replicate, hk]
  | succ M ih =>
    obtain ⟨h1, h2⟩ := ih (by omega)
    rw [List.range_succ, List.foldl_append, List.foldl_cons, List.foldl_nil]
    obtain ⟨g1, g2⟩ := inner_fold _ M (d - M + 1) (fun j => x.getD M 0 * y.getD j 0)
      (by rw [h1]; omega)
    refine ⟨by rw [g1, h1], fun k hk => ?_⟩
    rw [g2, h2 k hk, Finset.sum_range_succ]
    congr 1
    by_cases hc : M ≤ k
    · rw [if_pos (by omega), if_pos hc]
    · rw [if_neg (by omega), if_neg hc]

theorem uMul_spec (x y : List K) :
    (uMul x y).length = min (x.length - 1) (y.length - 1) + 1 ∧
    UCong (min (x.length - 1) (y.length - 1)) (upoly (uMul x y)) (upoly x * upoly y) := by
  obtain ⟨h1, h2⟩ := outer_fold x y (min (x.length - 1) (y.length - 1)) _ (le_refl _)
  refine ⟨h1, fun k hk => ?_⟩
  rw [coeff_upoly]
  show List.getD (uMul x y) k 0 = _
  rw [uMul]
  rw [h2 k hk, Polynomial.coeff_mul, Finset.Nat.sum_antidiagonal_eq_sum_range_succ_mk]
  have hsub : Finset.range k.succ ⊆ Finset.range (min (x.length - 1) (y.length - 1) + 1) := by
    intro i hi
    simp only [Finset.mem_range] at *
    omega
  rw [← Finset.sum_subset hsub]
  · apply Finset.sum_congr rfl
    intro i hi
    have := Finset.mem_range.1 hi
    rw [if_pos (by omega), coeff_upoly, coeff_upoly]
  · intro i _ hi
    rw [Finset.mem_range] at hi
    rw [if_neg (by omega)]

/-- **C44** (univariate arithmetic): the sum and product of univariate differentials are those of
polynomials, up to the lesser degree. -/
theorem C44_univariate_arithmetic (x y : List K) :
    (uAdd x y).length = min (x.length - 1) (y.length - 1) + 1 ∧
    (uMul x y).length = min (x.length - 1) (y.length - 1) + 1 ∧
    ∀ k ≤ min (x.length - 1) (y.length - 1),
      (uAdd x y).getD k 0 = (upoly x + upoly y).coeff k ∧
      (uMul x y).getD k 0 = (upoly x * upoly y).coeff k := by
  obtain ⟨h1, h2⟩ := uMul_spec x y
  refine ⟨by simp [uAdd], h1, fun k hk => ⟨?_, ?_⟩⟩
  · rw [Polynomial.coeff_add, coeff_upoly, coeff_upoly, uAdd, getD_range_map, if_pos (by omega)]
  · rw [← h2 k hk, coeff_upoly]

theorem uComposeLoop_spec (x y : List K) (d : Nat) (hy : d + 1 ≤ y.length) (k : Nat) (hk : k ≤ d)
    (hx : x.length ≠ 0) :
    (uComposeLoop x y d k ((List.replicate (d + 1) (0 : K)).set 0 (x.getD d 0))).length = d + 1 ∧
    UCong d (upoly (uComposeLoop x y d k ((List.replicate (d + 1) (0 : K)).set 0 (x.getD d 0))))
      (∑ i ∈ Finset.range (k + 1), Polynomial.C (x.getD (d - k + i) 0) * upoly y ^ i) := by
  induction k with
  | zero =>
    refine ⟨by simp [uComposeLoop], fun k _ => ?_⟩
    rw [uComposeLoop, coeff_upoly, getD_set _ _ _ _ (by simp)]
    simp only [zero_add, Finset.range_one, Finset.sum_singleton, pow_zero, mul_one, Nat.sub_zero,
      add_zero, Polynomial.coeff_C]
    by_cases hk : k = 0
    · subst hk; simp
    · rw [if_neg (Ne.symm hk), if_neg hk]
      rw [List.getD_eq_getElem?_getD, List.getElem?_replicate]
      split_ifs <;> rfl
  | succ k ih =>
    obtain ⟨h1, h2⟩ := ih (by omega)
    set r := uComposeLoop x y d k ((List.replicate (d + 1) (0 : K)).set 0 (x.getD d 0)) with hr
    obtain ⟨g1, g2⟩ := uMul_spec r y
    have hmin : min (r.length - 1) (y.length - 1) = d := by rw [h1]; omega
    rw [hmin] at g1 g2
    have e : uComposeLoop x y d (k + 1) ((List.replicate (d + 1) (0 : K)).set 0 (x.getD d 0)) =
      (uMul r y).set 0 ((uMul r y).getD 0 0 + x.getD (d - (k + 1)) 0) := rfl
    rw [e]
    refine ⟨by rw [List.length_set, g1], fun l hl => ?_⟩
    have hprod := g2 l hl
    have hprod2 : (upoly r * upoly y).coeff l = _ :=
      (UCong.mul h2 (fun _ _ => rfl : UCong d (upoly y) (upoly y))) l hl
    rw [coeff_upoly, getD_set _ _ _ _ (by rw [g1]; omega), Finset.sum_range_succ', Polynomial.coeff_add]
    have hs : (∑ i ∈ Finset.range (k + 1), Polynomial.C (x.getD (d - (k + 1) + (i + 1)) 0) *
        upoly y ^ (i + 1)) = (∑ i ∈ Finset.range (k + 1), Polynomial.C (x.getD (d - k + i) 0) *
        upoly y ^ i) * upoly y := by
      rw [Finset.sum_mul]
      apply Finset.sum_congr rfl
      intro i _
      rw [show d - (k + 1) + (i + 1) = d - k + i from by omega, pow_succ]; ring
    rw [hs, ← hprod2, ← hprod, coeff_upoly]
    simp only [add_zero, pow_zero, mul_one, Polynomial.coeff_C]
    by_cases hl0 : l = 0
    · subst hl0; simp
    · rw [if_neg (Ne.symm hl0), if_neg hl0, add_zero]

/-- **C44** (univariate composition): the composition of two univariate differentials is
`Σᵢxᵢ(y-y₀)ⁱ`, up to the lesser degree. -/
theorem C44_univariate_compose (x y : List K) (hx : x.length ≠ 0) (hy : y.length ≠ 0) :
    (uCompose x y).length = min (x.length - 1) (y.length - 1) + 1 ∧
    ∀ k ≤ min (x.length - 1) (y.length - 1), (uCompose x y).getD k 0 =
      (∑ i ∈ Finset.range (min (x.length - 1) (y.length - 1) + 1),
        Polynomial.C (x.getD i 0) * (upoly y - Polynomial.C (y.getD 0 0)) ^ i).coeff k := by
  obtain ⟨h1, h2⟩ := uComposeLoop_spec x (y.set 0 0) (min (x.length - 1) (y.length - 1))
    (by rw [List.length_set]; omega) _ (le_refl _) hx
  refine ⟨h1, fun k hk => ?_⟩
  have e : upoly (y.set 0 0) = upoly y - Polynomial.C (y.getD 0 0) := by
    ext l
    rw [Polynomial.coeff_sub, coeff_upoly, coeff_upoly, Polynomial.coeff_C, getD_set _ _ _ _ (by omega)]
    by_cases hl : l = 0
    · subst hl; simp
    · rw [if_neg (Ne.symm hl), if_neg hl, sub_zero]
  have := h2 k hk
  rw [coeff_upoly, e] at this
  simp only [Nat.sub_self, zero_add] at this
  exact this

/-- **C44** (univariate composition with itself): when one object is given for both arguments, the value
is lost: the result has value zero. -/
theorem C44_univariate_compose_self_wrong (x : List K) (hx : x.length ≠ 0) :
    (uComposeSelf x).getD 0 0 = 0 := by
  have e : uComposeSelf x = uCompose (x.set 0 0) (x.set 0 0) := by
    simp [uComposeSelf, uCompose]
  have hl : (x.set 0 0).length ≠ 0 := by simpa using hx
  rw [e, (C44_univariate_compose _ _ hl hl).2 0 (Nat.zero_le _), Finset.sum_range_succ',
    Polynomial.coeff_add, Polynomial.finset_sum_coeff, Finset.sum_eq_zero]
  · rw [getD_set _ _ _ _ (by omega)]; simp
  · intro i _
    have hz : (upoly (x.set 0 0) - Polynomial.C ((x.set 0 0).getD 0 0)).coeff 0 = 0 := by
      rw [Polynomial.coeff_sub, coeff_upoly, Polynomial.coeff_C_zero, sub_self]
    rw [Polynomial.coeff_zero_eq_eval_zero] at hz ⊢
    rw [Polynomial.eval_mul, Polynomial.eval_pow, hz]
    simp

/-- **C44** (univariate antiderivative): the derivative of the antiderivative is the differential, and
its value the given constant. -/
theorem C44_univariate_antiderivative [CharZero K] (x : List K) (c : K) :
    (uAnti x c).length = x.length + 1 ∧ (uAnti x c).getD 0 0 = c ∧
    Polynomial.derivative (upoly (uAnti x c)) = upoly x := by
  refine ⟨by simp [uAnti], rfl, ?_⟩
  ext k
  rw [Polynomial.coeff_derivative, coeff_upoly, coeff_upoly, uAnti, List.getD_cons_succ, getD_range_map]
  split_ifs with h
  · have : ((k : K) + 1) ≠ 0 := by exact_mod_cast k.succ_ne_zero
    push_cast
    field_simp
  · rw [List.getD_eq_getElem?_getD, List.getElem?_eq_none (by omega)]; simp

/-- **C44** (univariate derivative): the derivative of a univariate differential of degree two or more
writes beyond the end of the result; in degree one it is right; and in degree zero the result has
degree 65535. -/
theorem C44_univariate_derivative_wrong (x : List K) :
    (3 ≤ x.length → uDeriv x = none) ∧
    (∀ a b : K, uDeriv [a, b] = some [b]) ∧
    ∀ a : K, (uDeriv [a]).map List.length = some 65536 := by
  refine ⟨fun h => ?_, fun a b => ?_, fun a => ?_⟩
  · unfold uDeriv
    simp only
    rw [if_neg (show ¬ x.length - 1 = 0 by omega), if_pos (by omega)]
  · simp [uDeriv]
  · have e : uDeriv [a] = some (List.replicate 65536 0) := rfl
    rw [e, Option.map_some, List.length_replicate]

variable [DecidableEq K]

/-- **C44** (degree zero): a variable created with degree zero has a term of degree one. -/
theorem C44_variable_degree_zero_wrong (v : K) (j : Fin n) : ¬ WF (var 0 v j) := by
  intro h
  have := h.low (unitIx j, 1) (by simp [var])
  rw [sum_unitIx] at this
  simp [var] at this

/-- **C44** (affine vectors): the coefficients of a vector of affine differentials are all stored for
the variable with the number of the component. -/
theorem C44_affine_vector_wrong : ∃ (v : Fin 2 → ℚ) (G : Fin 2 → Fin 2 → ℚ) (i j : Fin 2),
    gradient (affineVec 2 v G i) j ≠ G i j ∧ ¬ WF (affineVec 2 v G i) := by
  refine ⟨fun _ => 0, fun _ _ => 1, 0, 1, by decide +kernel, fun h => ?_⟩
  have := sorted_distinct (gl_strict 2) h.sorted
  revert this
  unfold Distinct
  decide +kernel

/-! ### Cases meeting the hypotheses -/

/-- The differential of `x₀²x₁` at `(3,2)`. -/
example : Rep (mul (pow (var 3 3 0) 2) (var 3 2 1) : Diff 2 ℚ)
    ((MvPolynomial.C 3 + MvPolynomial.X 0) ^ 2 * (MvPolynomial.C 2 + MvPolynomial.X 1)) :=
  (C44_mul _ _ _ _ (C44_pow _ _ (C44_variable 3 (by omega) (by omega) 3 0).1 2).1
    (C44_variable 3 (by omega) (by omega) 2 1).1).1

/-- The flow of `ẋ=x` at `1`, to degree 3. -/
example : ∃ phi, flow (⟨2, fun _ => var 2 1 0⟩ : DVec 1 1 ℚ) (fun _ => 1) = some phi ∧
    phi.deg = 3 := by
  have hr : URep (⟨2, fun _ => var 2 1 0⟩ : DVec 1 1 ℚ) (fun _ => MvPolynomial.C 1 + MvPolynomial.X 0) :=
    ⟨fun _ => (C44_variable 2 (by omega) (by omega) 1 0).1, fun _ => rfl⟩
  obtain ⟨phi, h1, h2, -⟩ := C44_flow_partial _ _ hr (by decide) (by decide) (fun _ => 1)
  exact ⟨phi, h1, h2⟩

/-- The solution `y` of `x-y=0` at `(0,0)`, to degree 2. -/
example : ∃ dh, solve (m := 0) (⟨2, fun _ => sub (var 2 0 0) (var 2 0 1)⟩ : DVec 1 (0 + 1 + (0 + 1)) ℚ)
    (fun _ => 0) (fun _ _ _ => -1) = some dh ∧ dh.deg = 2 := by
  have hs := C44_sub _ _ _ _ (C44_variable 2 (by omega) (by omega) (0 : ℚ) (0 : Fin 2)).1
    (C44_variable 2 (by omega) (by omega) 0 1).1
  have hr : URep (⟨2, fun _ => sub (var 2 0 0) (var 2 0 1)⟩ : DVec 1 (0 + 1 + (0 + 1)) ℚ)
      (fun _ => _) := ⟨fun _ => hs.1, fun _ => hs.2⟩
  obtain ⟨dh, h1, h2, -⟩ := C44_solve_partial (l := 0) (m := 0) _ _ hr (by decide) (by decide)
    (fun _ => 0) (by intro i; simp) (fun _ _ _ => -1) (by
      ext i j
      obtain rfl : i = 0 := Fin.ext (by omega)
      obtain rfl : j = 0 := Fin.ext (by omega)
      rw [Matrix.mul_apply, Fin.sum_univ_one]
      simp only [Matrix.of_apply, Matrix.one_apply_eq]
      decide +kernel)
  exact ⟨dh, h1, h2⟩

/-- The function `exp((3+h₀)(2+h₁))/(2+h₁)` has a Taylor polynomial of degree 3, computed by the code. -/
example : ∃ e r : Diff 2 ℝ, apply realFns .exp (mul (var 3 3 0) (var 3 2 1)) = some e ∧
    div realFns e (var 3 2 1) = some r ∧ r.deg = 3 ∧
    Taylor r (fun h => Real.exp ((3 + h 0) * (2 + h 1)) / (2 + h 1)) := by
  have hx := (C44_taylor_init (n := 2) 3 (by omega) 3).2 (by omega) 0
  have hy := (C44_taylor_init (n := 2) 3 (by omega) 2).2 (by omega) 1
  have hm := (C44_taylor_arithmetic _ _ _ _ hx hy 0 0).2.2.1
  have hmd : (mul (var 3 (3 : ℝ) 0) (var 3 2 1) : Diff 2 ℝ).deg = 3 := rfl
  obtain ⟨e, e1, e2, e3⟩ := C44_taylor_apply_partial .exp _ _ hm trivial
    (terms_ne_nil (by rw [hm.value_eq]; simp))
  obtain ⟨r, r1, r2, r3⟩ := (C44_taylor_div _ _ _ _ e3 hy (by simp)).1
  exact ⟨e, r, e1, r1, by rw [r2, e2, hmd]; rfl, r3⟩

end Verif.Differential
