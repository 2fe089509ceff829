import Verif.Inclusion.Constant
import Mathlib.Analysis.SpecialFunctions.ExpDeriv
import Mathlib.Analysis.Complex.ExponentialBounds

/-!
# Examples and counterexamples for the error bounds of differential inclusions
-/

namespace Verif.Inclusion

open Ariadne Set

variable {n m : ℕ}

/-- Linear functions are described by their coefficients. -/
theorem describes_linear {B : Set (Fin n → ℝ)} {a : Fin n → ℝ} {b : ℝ} {ts : Terms n ℝ}
    (hn : (ts.map Prod.fst).Nodup) (hv : ∀ x ∈ B, Gives ts 0 (∑ k, a k * x k + b))
    (ha : ∀ k, Gives ts (Pi.single k 1) (a k)) :
    Describes B (fun x => ∑ k, a k * x k + b) (fun _ => a) ts where
  nodup := hn
  value := hv
  partials _ _ k := ha k
  deriv x _ := by
    have h1 : HasFDerivAt (fun x : Fin n → ℝ => ∑ k, a k * x k)
        (∑ k, a k • ContinuousLinearMap.proj (R := ℝ) (φ := fun _ : Fin n => ℝ) k) x := by
      have : (fun x : Fin n → ℝ => ∑ k, a k * x k) =
          ⇑(∑ k, a k • ContinuousLinearMap.proj (R := ℝ) (φ := fun _ : Fin n => ℝ) k) := by
        funext y
        simp [ContinuousLinearMap.sum_apply]
      rw [this]
      exact ContinuousLinearMap.hasFDerivAt _
    exact (h1.add_const b).hasFDerivWithinAt

/-- The box with all coordinates between `-q` and `q`. -/
def ball (n : ℕ) (q : ℝ) : Set (Fin n → ℝ) := {x | ∀ k, |x k| ≤ q}

theorem convex_ball (q : ℝ) : Convex ℝ (ball n q) := by
  intro x hx y hy a b ha hb hab k
  have h1 : |a * x k + b * y k| ≤ a * |x k| + b * |y k| := by
    refine (abs_add_le _ _).trans ?_
    rw [abs_mul, abs_mul, abs_of_nonneg ha, abs_of_nonneg hb]
  have h2 : (a • x + b • y) k = a * x k + b * y k := rfl
  rw [h2]
  have h3 := mul_le_mul_of_nonneg_left (hx k) ha
  have h4 := mul_le_mul_of_nonneg_left (hy k) hb
  have h5 : a * q + b * q = q := by rw [← add_mul, hab, one_mul]
  linarith

/-! ### Additive inputs -/

/-- `x' = v₁ + v₂` with `|v₁|, |v₂| ≤ 1`. -/
def twoInputs : System 1 2 ℝ where
  f := fun _ => []
  g := fun _ _ => [(0, ⟨1, 1⟩)]
  V := fun _ => 1
  additive := true

theorem twoInputs_models : Models twoInputs (ball 1 2) (fun _ _ => 0) (fun _ _ _ => 1) where
  f j := ⟨_, by
    have := describes_linear (B := ball 1 2) (a := fun _ : Fin 1 => 0) (b := 0) (ts := []) (by simp)
      (fun x _ => Or.inr ⟨by simp, by simp⟩) (fun k => Or.inr ⟨by simp, rfl⟩)
    simpa [twoInputs] using this⟩
  g i j := ⟨_, by
    have := describes_linear (B := ball 1 2) (a := fun _ : Fin 1 => 0) (b := 1)
      (ts := [(0, ⟨1, 1⟩)]) (by simp) (fun x _ => Or.inl ⟨⟨1, 1⟩, by simp, by simp, by simp⟩)
      (fun k => Or.inr ⟨by simp, rfl⟩)
    simpa [twoInputs] using this⟩

theorem up_zero (R : Rounding ℝ) : R.up 0 = 0 := R.up_of_rep R.rep_zero
theorem up_one (R : Rounding ℝ) : R.up 1 = 1 := R.up_of_rep R.rep_one

/-- **C81, counterexample** (additive inputs).  For `x' = v₁ + v₂` with `|v₁|, |v₂| ≤ 1` the inputs are
additive, and the constant `pK` is the largest input although both act on the same component: the error
of the zero approximation is at most `1` for a step of length `1`, but the state moves by `2`. -/
theorem C81_zero_additive (R : Rounding ℝ) (exp : ℝ → ℝ) :
    Models twoInputs (ball 1 2) (fun _ _ => 0) (fun _ _ _ => 1) ∧
    Input twoInputs.V 1 (fun _ _ => 1) ∧
    Curve (withInputs (fun _ _ => 0) (fun _ _ _ => 1) (fun _ (_ : Fin 2) => 1)) (ball 1 2) 1
      (fun t _ => 2 * t) ∧
    Curve (fun _ _ _ => 0) (ball 1 2) 1 (fun _ _ => 0) ∧
    zeroError R exp twoInputs 1 0 ≤ 1 := by
  refine ⟨twoInputs_models, fun t _ i => by simp [twoInputs], ⟨by fun_prop, fun t _ => ?_, ?_⟩,
    ⟨continuousOn_const, fun t _ => hasDerivWithinAt_const _ _ _, fun t _ k => by simp⟩, ?_⟩
  · rw [hasDerivWithinAt_pi]
    intro k
    have := ((hasDerivAt_id t).const_mul (2 : ℝ)).hasDerivWithinAt (s := Ici t)
    simpa [withInputs] using this
  · intro t ht k
    have h1 := ht.1
    have h2 := ht.2
    rw [abs_of_nonneg (by linarith)]
    linarith
  · refine (min_le_left _ _).trans ((min_le_right _ _).trans ?_)
    have h1 : (constants R exp 0 twoInputs 1).Km = 0 := by
      simp [constants, maxOf, twoInputs, row, List.finRange]
    have h2 : (constants R exp 0 twoInputs 1).pK = 1 := by
      simp [constants, maxOf, twoInputs, List.finRange]
    rw [h1, h2, zero_mul, up_zero, zero_add, up_one, mul_one, up_one]

/-! ### Large inputs -/

/-- `x' = v`, `y' = v` with `|v| ≤ 2`: the input occurs twice, and so is not additive. -/
def largeInput : System 2 1 ℝ where
  f := fun _ => []
  g := fun _ _ => [(0, ⟨1, 1⟩)]
  V := fun _ => 2
  additive := false

theorem largeInput_models : Models largeInput (ball 2 2) (fun _ _ => 0) (fun _ _ _ => 1) where
  f j := ⟨_, by
    have := describes_linear (B := ball 2 2) (a := fun _ : Fin 2 => 0) (b := 0) (ts := []) (by simp)
      (fun x _ => Or.inr ⟨by simp, by simp⟩) (fun k => Or.inr ⟨by simp, rfl⟩)
    simpa [largeInput] using this⟩
  g i j := ⟨_, by
    have := describes_linear (B := ball 2 2) (a := fun _ : Fin 2 => 0) (b := 1)
      (ts := [(0, ⟨1, 1⟩)]) (by simp) (fun x _ => Or.inl ⟨⟨1, 1⟩, by simp, by simp, by simp⟩)
      (fun k => Or.inr ⟨by simp, rfl⟩)
    simpa [largeInput] using this⟩

/-- **C81, counterexample** (large inputs).  For `x' = v`, `y' = v` with `|v| ≤ 2` the constant `pK` does
not take the size of the input into account: the error of the zero approximation is at most `1` for a step
of length `1`, but both components move by `2`. -/
theorem C81_zero_large (R : Rounding ℝ) (exp : ℝ → ℝ) :
    Models largeInput (ball 2 2) (fun _ _ => 0) (fun _ _ _ => 1) ∧
    Input largeInput.V 1 (fun _ _ => 2) ∧
    Curve (withInputs (fun _ _ => 0) (fun _ _ _ => 1) (fun _ (_ : Fin 1) => 2)) (ball 2 2) 1
      (fun t _ => 2 * t) ∧
    Curve (fun _ _ _ => 0) (ball 2 2) 1 (fun _ _ => 0) ∧
    ∀ j, zeroError R exp largeInput 1 j ≤ 1 := by
  refine ⟨largeInput_models, fun t _ i => by simp [largeInput], ⟨by fun_prop, fun t _ => ?_, ?_⟩,
    ⟨continuousOn_const, fun t _ => hasDerivWithinAt_const _ _ _, fun t _ k => by simp⟩, fun j => ?_⟩
  · rw [hasDerivWithinAt_pi]
    intro k
    have := ((hasDerivAt_id t).const_mul (2 : ℝ)).hasDerivWithinAt (s := Ici t)
    simpa [withInputs] using this
  · intro t ht k
    have h1 := ht.1
    have h2 := ht.2
    rw [abs_of_nonneg (by linarith)]
    linarith
  · refine (min_le_left _ _).trans ((min_le_right _ _).trans ?_)
    have h1 : (constants R exp 0 largeInput 1).Km = 0 := by
      simp [constants, maxOf, largeInput, row, List.finRange]
    have h2 : (constants R exp 0 largeInput 1).pK = 1 := by
      simp [constants, maxOf, sumUp, largeInput, entry, entryStep, degree, Coef.mag, List.finRange, up_one]
    rw [h1, h2, zero_mul, up_zero, zero_add, up_one, mul_one, up_one]

/-! ### Constant inputs for a contracting system -/

/-- `x' = -2x + y`, `y' = -2y + v` with `|v| ≤ 1`, over the box with coordinates between `-1` and `1`. -/
def contracting : System 2 1 ℝ where
  f := ![[(0, ⟨-3, 3⟩), (Pi.single 0 1, ⟨-2, -2⟩), (Pi.single 1 1, ⟨1, 1⟩)],
    [(0, ⟨-2, 2⟩), (Pi.single 1 1, ⟨-2, -2⟩)]]
  g := fun _ => ![[], [(0, ⟨1, 1⟩)]]
  V := fun _ => 1
  additive := true

/-- The right-hand side without input. -/
def contractingF : (Fin 2 → ℝ) → Fin 2 → ℝ := fun x => ![-2 * x 0 + x 1, -2 * x 1]

/-- The derivative by the input. -/
def contractingG : Fin 1 → (Fin 2 → ℝ) → Fin 2 → ℝ := fun _ _ => ![0, 1]

theorem contracting_models : Models contracting (ball 2 1) contractingF contractingG where
  f j := by
    fin_cases j
    · refine ⟨fun _ => ![-2, 1], ?_⟩
      have := describes_linear (B := ball 2 1) (a := ![-2, 1]) (b := 0)
        (ts := [(0, ⟨-3, 3⟩), (Pi.single 0 1, ⟨-2, -2⟩), (Pi.single 1 1, ⟨1, 1⟩)])
        (by simp only [List.map]; decide)
        (fun x hx => Or.inl ⟨⟨-3, 3⟩, by simp, by
          have h1 := abs_le.1 (hx 0)
          have h2 := abs_le.1 (hx 1)
          simp only [Fin.sum_univ_two, Matrix.cons_val_zero, Matrix.cons_val_one]
          constructor <;> linarith⟩)
        (fun k => by
          fin_cases k
          · exact Or.inl ⟨⟨-2, -2⟩, by simp, by simp, by simp⟩
          · exact Or.inl ⟨⟨1, 1⟩, by simp, by simp, by simp⟩)
      simpa [contracting, contractingF, Fin.sum_univ_two] using this
    · refine ⟨fun _ => ![0, -2], ?_⟩
      have := describes_linear (B := ball 2 1) (a := ![0, -2]) (b := 0)
        (ts := [(0, ⟨-2, 2⟩), (Pi.single 1 1, ⟨-2, -2⟩)])
        (by simp only [List.map]; decide)
        (fun x hx => Or.inl ⟨⟨-2, 2⟩, by simp, by
          have h2 := abs_le.1 (hx 1)
          simp only [Fin.sum_univ_two, Matrix.cons_val_zero, Matrix.cons_val_one]
          constructor <;> linarith⟩)
        (fun k => by
          fin_cases k
          · exact Or.inr ⟨by simp only [List.map]; decide, by simp⟩
          · exact Or.inl ⟨⟨-2, -2⟩, by simp, by simp, by simp⟩)
      simpa [contracting, contractingF, Fin.sum_univ_two] using this
  g i j := by
    refine ⟨fun _ => ![0, 0], ?_⟩
    fin_cases j
    · have := describes_linear (B := ball 2 1) (a := ![0, 0]) (b := 0) (ts := []) (by simp)
        (fun x _ => Or.inr ⟨by simp, by simp⟩) (fun k => Or.inr ⟨by simp, by fin_cases k <;> rfl⟩)
      simpa [contracting, contractingG, Fin.sum_univ_two] using this
    · have := describes_linear (B := ball 2 1) (a := ![0, 0]) (b := 1) (ts := [(0, ⟨1, 1⟩)]) (by simp)
        (fun x _ => Or.inl ⟨⟨1, 1⟩, by simp, by simp, by simp⟩)
        (fun k => Or.inr ⟨by simp, by fin_cases k <;> rfl⟩)
      simpa [contracting, contractingG, Fin.sum_univ_two] using this

/-- A solution of the inclusion. -/
noncomputable def bent : ℝ → Fin 2 → ℝ := fun t =>
  ![(2 * t ^ 2 - 3 * t ^ 3) / 8, (4 * t - 5 * t ^ 2 - 6 * t ^ 3) / 8]

/-- Its input. -/
noncomputable def bentInput : ℝ → Fin 1 → ℝ := fun t _ => (4 - 2 * t - 28 * t ^ 2 - 12 * t ^ 3) / 8

theorem bentInput_input : Input contracting.V (1 / 2) bentInput := by
  rintro t ⟨h0, h1⟩ i
  show |(4 - 2 * t - 28 * t ^ 2 - 12 * t ^ 3) / 8| ≤ 1
  have h2 : t ^ 2 ≤ 1 / 4 := by nlinarith
  have h3 : t ^ 3 ≤ 1 / 8 := by nlinarith [sq_nonneg t]
  have h4 : 0 ≤ t ^ 2 := by positivity
  have h5 : 0 ≤ t ^ 3 := by positivity
  rw [abs_le]
  constructor <;> linarith

theorem bent_curve : Curve (withInputs contractingF contractingG bentInput) (ball 2 1) (1 / 2) bent where
  cont := by
    refine continuousOn_pi.2 fun k => ?_
    fin_cases k <;> simp only [bent] <;> simp <;> fun_prop
  deriv t ht := by
    rw [hasDerivWithinAt_pi]
    have d1 := hasDerivAt_id t
    have d2 := hasDerivAt_pow 2 t
    have d3 := hasDerivAt_pow 3 t
    intro k
    fin_cases k
    · have := (((d2.const_mul 2).sub (d3.const_mul 3)).div_const 8).hasDerivWithinAt (s := Ici t)
      refine this.congr_deriv ?_
      simp [withInputs, contractingF, contractingG, bentInput, bent]
      ring
    · have := ((((d1.const_mul 4).sub (d2.const_mul 5)).sub (d3.const_mul 6)).div_const 8).hasDerivWithinAt
        (s := Ici t)
      refine this.congr_deriv ?_
      simp [withInputs, contractingF, contractingG, bentInput, bent]
      ring
  mem := by
    rintro t ⟨h0, h1⟩ k
    have h2 : t ^ 2 ≤ 1 / 4 := by nlinarith
    have h3 : t ^ 3 ≤ 1 / 8 := by nlinarith [sq_nonneg t]
    have h4 : 0 ≤ t ^ 2 := by positivity
    have h5 : 0 ≤ t ^ 3 := by positivity
    fin_cases k
    · show |(2 * t ^ 2 - 3 * t ^ 3) / 8| ≤ 1
      rw [abs_le]
      constructor <;> linarith
    · show |(4 * t - 5 * t ^ 2 - 6 * t ^ 3) / 8| ≤ 1
      rw [abs_le]
      constructor <;> linarith

/-- The solution for the constant input `w`. -/
noncomputable def steady (w : ℝ) : ℝ → Fin 2 → ℝ := fun t =>
  ![w * ((1 - Real.exp (-2 * t)) / 4 - t * Real.exp (-2 * t) / 2), w * ((1 - Real.exp (-2 * t)) / 2)]

theorem steady_deriv (w t : ℝ) :
    HasDerivAt (steady w) (fun j => contractingF (steady w t) j + ![0, w] j) t := by
  rw [hasDerivAt_pi]
  have d1 := hasDerivAt_id t
  have de : HasDerivAt (fun t : ℝ => Real.exp (-2 * t)) (Real.exp (-2 * t) * (-2)) t := by
    simpa using (d1.const_mul (-2 : ℝ)).exp
  intro k
  fin_cases k
  · have := (((de.const_sub 1).div_const 4).sub ((d1.mul de).div_const 2)).const_mul w
    refine this.congr_deriv ?_
    simp [contractingF, steady]
    ring
  · have := ((de.const_sub 1).div_const 2).const_mul w
    refine this.congr_deriv ?_
    simp [contractingF, steady]
    ring

/-- Every solution for the constant input `w` from the origin is `steady w`. -/
theorem eq_steady {B : Set (Fin 2 → ℝ)} {h w : ℝ} {y : ℝ → Fin 2 → ℝ} (hh : 0 ≤ h)
    (hy : Curve (withInputs contractingF contractingG (fun _ _ => w)) B h y) (h0 : y 0 = 0) :
    y h = steady w h := by
  have hs : Continuous (steady w) :=
    continuous_iff_continuousAt.2 fun t => (steady_deriv w t).continuousAt
  have := norm_le_growth (d := fun t => y t - steady w t) (h := h) (lam := -1) (ε := 0)
    (A := fun _ => ![![-2, 1], ![0, -2]]) (r := fun _ => 0) (hy.cont.sub hs.continuousOn)
    (by
      show y 0 - steady w 0 = 0
      rw [h0]
      funext k
      fin_cases k <;> simp [steady])
    (fun t ht => by
      refine ((hy.deriv t ht).sub (steady_deriv w t).hasDerivWithinAt).congr_deriv ?_
      funext k
      fin_cases k <;> simp [withInputs, contractingF, contractingG, Fin.sum_univ_two] <;> ring)
    (fun t _ j => by
      fin_cases j
      · have : (Finset.univ.erase (0 : Fin 2)) = {1} := by decide
        simp [this]
        norm_num
      · have : (Finset.univ.erase (1 : Fin 2)) = {0} := by decide
        simp [this])
    (fun t _ j => by simp) le_rfl h ⟨hh, le_rfl⟩
  rw [gronwallBound_of_K_ne_0 (by norm_num)] at this
  have h1 : ‖y h - steady w h‖ ≤ 0 := by simpa using this
  exact sub_eq_zero.1 (norm_le_zero_iff.1 h1)

/-- **C81, counterexample** (constant inputs).  For `x' = -2x + y`, `y' = -2y + v` with `|v| ≤ 1` the
logarithmic norm is negative, so that the factor `(e^{Λh} - 1)/(Λh)` is replaced by one where the error for
constant inputs needs the factor *minus one*: the error is zero.  But there is a solution of the inclusion
whose state at the end of the step is not that of any solution with constant input. -/
theorem C81_constant_contracting (R : Rounding ℝ) (exp : ℝ → ℝ) :
    Models contracting (ball 2 1) contractingF contractingG ∧
    Input contracting.V (1 / 2) bentInput ∧
    Curve (withInputs contractingF contractingG bentInput) (ball 2 1) (1 / 2) bent ∧
    (∀ j, ∃ e, constantError R exp contracting (1 / 2) j = some e ∧ e ≤ 0) ∧
    ∀ w y, Curve (withInputs contractingF contractingG (fun _ _ => w)) (ball 2 1) (1 / 2) y →
      y 0 = bent 0 → y (1 / 2) ≠ bent (1 / 2) := by
  refine ⟨contracting_models, bentInput_input, bent_curve, fun j => ?_, fun w y hy h0 he => ?_⟩
  · have hm2 : R.up (-2) = -2 := R.up_of_rep (R.rep_neg _ (by simpa using R.rep_two _ R.rep_one))
    have hm1 : R.up (-1) = -1 := R.up_of_rep (R.rep_neg _ R.rep_one)
    have hmh : R.down (-(1 / 2)) = -(1 / 2) := R.down_of_rep (R.rep_neg _ (R.rep_half _ R.rep_one))
    have hL : (constants R exp 1 contracting (1 / 2)).Lam = some (-1) := by
      have h0 : (row R (0 : Fin 2) (contracting.f 0)).lam = -1 := by
        simp [row, contracting, rowStep, degree, Coef.mag, hm2, hm1,
          show (-2 : ℝ) + 1 = -1 by norm_num]
      have h1 : (row R (1 : Fin 2) (contracting.f 1)).lam = -2 := by
        simp [row, contracting, rowStep, degree, Coef.mag, hm2]
      simp only [constants, maxOf?, List.finRange_succ, List.finRange_zero, List.map_nil, List.map_cons,
        List.foldl_cons, List.foldl_nil, maxWith, Fin.succ_zero_eq_one, h0, h1]
      norm_num
    have hE : (constants R exp 1 contracting (1 / 2)).expLam = 1 := by
      show expLamOf R exp (1 / 2) (constants R exp 1 contracting (1 / 2)).Lam = 1
      rw [hL]
      simp [expLamOf]
    have hP : (constants R exp 1 contracting (1 / 2)).pLjv j = 0 := by
      fin_cases j <;>
        simp [constants, sumUp, contracting, entry, entryStep, degree, List.finRange, up_zero]
    refine ⟨_, by
      show ((constantComponent R _ _ j).map _) = some _
      unfold constantComponent
      rw [hL]
      simp only
      rw [if_neg (by rw [show (-1 : ℝ) * (1 / 2) = -(1 / 2) by ring, hmh]; norm_num)]
      rfl, (min_le_right _ _).trans ?_⟩
    rw [hE, hP]
    simp [up_zero]
  · have hb : bent 0 = 0 := by
      funext k
      fin_cases k <;> simp [bent]
    have hs := eq_steady (by norm_num) hy (h0.trans hb)
    rw [he] at hs
    have h1 : bent (1 / 2) 1 = 0 := by
      simp [bent]
      norm_num
    have h2 : bent (1 / 2) 0 = 1 / 64 := by
      simp [bent]
      norm_num
    have h3 : steady w (1 / 2) 1 = w * ((1 - Real.exp (-2 * (1 / 2))) / 2) := rfl
    have h4 : Real.exp (-2 * (1 / 2)) < 1 := by
      rw [Real.exp_lt_one_iff]
      norm_num
    have hw : w = 0 := by
      rw [hs, h3] at h1
      rcases mul_eq_zero.1 h1 with h | h
      · exact h
      · linarith
    rw [hs, hw] at h2
    simp [steady] at h2

/-! ### Non-vacuity -/

/-- `x' = x + v` with `|v| ≤ 1`. -/
def growing : System 1 1 ℝ where
  f := fun _ => [(0, ⟨-2, 2⟩), (Pi.single 0 1, ⟨1, 1⟩)]
  g := fun _ _ => [(0, ⟨1, 1⟩)]
  V := fun _ => 1
  additive := true

theorem growing_models : Models growing (ball 1 2) (fun x => x) (fun _ _ _ => 1) where
  f j := ⟨fun _ _ => 1, by
    have := describes_linear (B := ball 1 2) (a := fun _ : Fin 1 => 1) (b := 0)
      (ts := [(0, ⟨-2, 2⟩), (Pi.single 0 1, ⟨1, 1⟩)]) (by simp only [List.map]; decide)
      (fun x hx => Or.inl ⟨⟨-2, 2⟩, by simp, by simpa using abs_le.1 (hx 0)⟩)
      (fun k => Or.inl ⟨⟨1, 1⟩, by simp [Subsingleton.elim k 0], by simp, by simp⟩)
    simpa [growing, Subsingleton.elim j 0] using this⟩
  g i j := ⟨_, by
    have := describes_linear (B := ball 1 2) (a := fun _ : Fin 1 => 0) (b := 1)
      (ts := [(0, ⟨1, 1⟩)]) (by simp) (fun x _ => Or.inl ⟨⟨1, 1⟩, by simp, by simp, by simp⟩)
      (fun k => Or.inr ⟨by simp, rfl⟩)
    simpa [growing] using this⟩

/-- The hypotheses of `C81_zero_partial` hold for `x' = x + v` with the input `1`, which gives `e^t - 1`
instead of zero. -/
example (R : Rounding ℝ) {t : ℝ} (ht : t ∈ Icc (0 : ℝ) (1 / 2)) :
    Real.exp t - 1 ≤ zeroError R Real.exp growing (1 / 2) 0 := by
  have := C81_zero_partial (R := R) (S := growing) (B := ball 1 2) (f := fun x => x)
    (g := fun _ _ _ => 1) (h := 1 / 2) (v := fun _ _ => 1) (x := fun t _ => Real.exp t - 1)
    (y := fun _ _ => 0) (exp := Real.exp) (fun x => le_rfl) growing_models (convex_ball 2)
    (Or.inr ⟨rfl, fun p _ j => by simp⟩) (by norm_num) (fun t _ i => by simp [growing])
    ⟨by fun_prop, fun t _ => by
      rw [hasDerivWithinAt_pi]
      intro k
      have := ((Real.hasDerivAt_exp t).sub_const 1).hasDerivWithinAt (s := Ici t)
      simpa [withInputs] using this, fun t ht k => by
      have h1 := Real.add_one_le_exp t
      have h2 : Real.exp t ≤ Real.exp 1 := Real.exp_le_exp.2 (by linarith [ht.2])
      have h3 := Real.exp_one_lt_d9
      have h4 := ht.1
      rw [abs_of_nonneg (by linarith)]
      linarith⟩
    ⟨continuousOn_const, fun t _ => hasDerivWithinAt_const _ _ _, fun t _ k => by simp⟩
    (by funext k; simp) ht 0
  exact (le_abs_self _).trans (by simpa using this)

/-- The hypotheses of `C81_constant_partial` hold for `x' = x + v` with the input `t/2 - t²/4`, which gives
`t²/4`, and the average `5/48` of the input for times up to `1/2`. -/
example (R : Rounding ℝ) : ∃ e, constantError R Real.exp growing (1 / 2) 0 = some e ∧
    |1 / 16 - 5 / 48 * (Real.exp (1 / 2) - 1)| ≤ e := by
  have hL : (constants R Real.exp 1 growing (1 / 2)).Lam = some 1 := by
    simp [constants, maxOf?, List.finRange, maxWith, row, growing, rowStep, degree, up_one]
  have hd : R.down (1 * (1 / 2)) ≠ 0 := by
    rw [one_mul, R.down_of_rep (R.rep_half _ R.rep_one)]
    norm_num
  obtain ⟨e, he⟩ : ∃ e, constantError R Real.exp growing (1 / 2) 0 = some e := by
    unfold constantError constantComponent
    simp only
    rw [hL]
    simp only
    rw [if_neg hd]
    exact ⟨_, rfl⟩
  refine ⟨e, he, ?_⟩
  have hav : ∀ i : Fin 1, ((fun (t : ℝ) (_ : Fin 1) => t ^ 2 / 4 - t ^ 3 / 12) (1 / 2) i -
      (fun (t : ℝ) (_ : Fin 1) => t ^ 2 / 4 - t ^ 3 / 12) 0 i) / (1 / 2) = 5 / 48 := by
    intro i
    norm_num
  have hbox : ∀ t ∈ Icc (0 : ℝ) (1 / 2), |5 / 48 * (Real.exp t - 1)| ≤ 2 := by
    intro t ht
    have h1 := Real.add_one_le_exp t
    have h2 : Real.exp t ≤ Real.exp 1 := Real.exp_le_exp.2 (by linarith [ht.2])
    have h3 := Real.exp_one_lt_d9
    have h4 := ht.1
    rw [abs_of_nonneg (by linarith)]
    linarith
  have := (C81_constant_partial (R := R) (S := growing) (B := ball 1 2) (f := fun x => x)
    (G := fun _ _ => 1) (h := 1 / 2) (v := fun t _ => t / 2 - t ^ 2 / 4) (x := fun t _ => t ^ 2 / 4)
    (y := fun t _ => 5 / 48 * (Real.exp t - 1)) (exp := Real.exp)
    (W := fun t _ => t ^ 2 / 4 - t ^ 3 / 12) (fun x => le_rfl) growing_models (convex_ball 2)
    (fun t ht i => by
      have h1 := ht.1
      have h2 := ht.2
      show |t / 2 - t ^ 2 / 4| ≤ 1
      rw [abs_le]
      constructor <;> nlinarith)
    ⟨by fun_prop, fun t _ => by
      rw [hasDerivWithinAt_pi]
      intro k
      have := (((hasDerivAt_pow 2 t).div_const 4).sub ((hasDerivAt_pow 3 t).div_const 12)).hasDerivWithinAt
        (s := Ici t)
      refine this.congr_deriv ?_
      norm_num
      ring⟩
    ⟨by fun_prop, fun t _ => by
      rw [hasDerivWithinAt_pi]
      intro k
      have := ((hasDerivAt_pow 2 t).div_const 4).hasDerivWithinAt (s := Ici t)
      refine this.congr_deriv ?_
      simp [withInputs]
      ring, fun t ht k => by
      have h1 := ht.1
      have h2 := ht.2
      show |t ^ 2 / 4| ≤ 2
      rw [abs_le]
      constructor <;> nlinarith⟩
    (t := 1 / 2) (by norm_num) le_rfl
    ⟨by fun_prop, fun t _ => by
      rw [hasDerivWithinAt_pi]
      intro k
      have := (((Real.hasDerivAt_exp t).sub_const 1).const_mul (5 / 48 : ℝ)).hasDerivWithinAt (s := Ici t)
      refine this.congr_deriv ?_
      simp only [withInputs, hav]
      simp
      ring, fun t ht k => hbox t ht⟩
    (by funext k; simp) hL one_pos 0 he).2
  convert this using 2
  norm_num

end Verif.Inclusion
