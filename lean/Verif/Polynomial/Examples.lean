import Verif.Polynomial.Evaluate
import Verif.Polynomial.Univariate
import Mathlib.Data.Rat.Defs
import Mathlib.Algebra.Order.Field.Rat

/-!
# Polynomials: coefficients meeting the hypotheses, and counterexamples
-/

namespace Verif.Polynomial

open Verif.Expansion

/-- Exact rational coefficients. -/
def ratCoef : Coef ℚ where
  one := 1
  add := (· + ·)
  sub := (· - ·)
  neg := fun x => -x
  mul := (· * ·)
  sqr := fun x => x * x
  mulNat := fun x m => x * m
  divNat := fun x m => x / m
  isNull := fun x => decide (x = 0)
  isUnit := fun x => decide (x = 1)
  nonzero := fun x => decide (x ≠ 0)
  surelyZero := fun x => decide (x = 0)

/-- Exact coefficients meet the hypotheses of every theorem of C89. -/
theorem ratCoef_sound : Sound ratCoef (fun a b : ℚ => a = b) where
  zero := rfl
  one := rfl
  add := by rintro k l x y rfl rfl; rfl
  sub := by rintro k l x y rfl rfl; rfl
  neg := by rintro k x rfl; rfl
  mul := by rintro k l x y rfl rfl; rfl
  sqr := by rintro k x rfl; simp [ratCoef, sq]
  mulNat := by rintro k x m rfl; rfl
  divNat := by rintro k x m _ rfl; rfl
  isNull := by rintro k x rfl h; simpa [ratCoef] using h
  isUnit := by rintro k x rfl h; simpa [ratCoef] using h
  surelyZero := by rintro k x rfl h; simpa [ratCoef] using h

/-- Intervals of rational numbers, with the decisions made by `FloatBounds`
(`float_bounds.hpp` lines 282-285): `x==0` is true only for the interval `[0,0]` and `x!=0` only for
intervals without zero; the square is the product, and the quotient is by an exact number. -/
def ivCoef : Coef (ℚ × ℚ) where
  one := (1, 1)
  add := fun x y => (x.1 + y.1, x.2 + y.2)
  sub := fun x y => (x.1 - y.2, x.2 - y.1)
  neg := fun x => (-x.2, -x.1)
  mul := mulIv
  sqr := fun x => mulIv x x
  mulNat := fun x m => (x.1 * m, x.2 * m)
  divNat := fun x m => (x.1 / m, x.2 / m)
  isNull := fun x => decide (x = 0)
  isUnit := fun x => decide (x = (1, 1))
  nonzero := fun x => decide (x.1 > 0 ∨ x.2 < 0)
  surelyZero := fun x => decide (x = 0)
where
  mulIv (x y : ℚ × ℚ) : ℚ × ℚ :=
    (min (min (x.1 * y.1) (x.1 * y.2)) (min (x.2 * y.1) (x.2 * y.2)),
      max (max (x.1 * y.1) (x.1 * y.2)) (max (x.2 * y.1) (x.2 * y.2)))

/-- The numbers in an interval. -/
def InIv (k : ℚ) (x : ℚ × ℚ) : Prop := x.1 ≤ k ∧ k ≤ x.2

theorem mulIv_in (k l : ℚ) (x y : ℚ × ℚ) (hx : InIv k x) (hy : InIv l y) :
    InIv (k * l) (ivCoef.mulIv x y) := by
  obtain ⟨h1, h2⟩ := hx
  obtain ⟨h3, h4⟩ := hy
  constructor
  · show min (min _ _) (min _ _) ≤ _
    rcases le_total 0 l with hl | hl
    · have : x.1 * l ≤ k * l := mul_le_mul_of_nonneg_right h1 hl
      rcases le_total 0 x.1 with h | h
      · have := mul_le_mul_of_nonneg_left h3 h
        exact le_trans (min_le_left _ _) (le_trans (min_le_left _ _) (by linarith))
      · have := mul_le_mul_of_nonpos_left h4 h
        exact le_trans (min_le_left _ _) (le_trans (min_le_right _ _) (by linarith))
    · have : x.2 * l ≤ k * l := mul_le_mul_of_nonpos_right h2 hl
      rcases le_total 0 x.2 with h | h
      · have := mul_le_mul_of_nonneg_left h3 h
        exact le_trans (min_le_right _ _) (le_trans (min_le_left _ _) (by linarith))
      · have := mul_le_mul_of_nonpos_left h4 h
        exact le_trans (min_le_right _ _) (le_trans (min_le_right _ _) (by linarith))
  · show _ ≤ max (max _ _) (max _ _)
    rcases le_total 0 l with hl | hl
    · have : k * l ≤ x.2 * l := mul_le_mul_of_nonneg_right h2 hl
      rcases le_total 0 x.2 with h | h
      · have := mul_le_mul_of_nonneg_left h4 h
        exact le_trans (le_trans (by linarith) (le_max_right _ _)) (le_max_right _ _)
      · have := mul_le_mul_of_nonpos_left h3 h
        exact le_trans (le_trans (by linarith) (le_max_left _ _)) (le_max_right _ _)
    · have : k * l ≤ x.1 * l := mul_le_mul_of_nonpos_right h1 hl
      rcases le_total 0 x.1 with h | h
      · have := mul_le_mul_of_nonneg_left h4 h
        exact le_trans (le_trans (by linarith) (le_max_right _ _)) (le_max_left _ _)
      · have := mul_le_mul_of_nonpos_left h3 h
        exact le_trans (le_trans (by linarith) (le_max_left _ _)) (le_max_left _ _)

/-- Interval coefficients meet the hypotheses as well. -/
theorem ivCoef_sound : Sound ivCoef InIv where
  zero := ⟨le_refl _, le_refl _⟩
  one := ⟨le_refl _, le_refl _⟩
  add := fun _ _ _ _ h h' => ⟨add_le_add h.1 h'.1, add_le_add h.2 h'.2⟩
  sub := fun _ _ _ _ h h' => ⟨sub_le_sub h.1 h'.2, sub_le_sub h.2 h'.1⟩
  neg := fun _ _ h => ⟨neg_le_neg h.2, neg_le_neg h.1⟩
  mul := mulIv_in
  sqr := fun k x h => by rw [sq]; exact mulIv_in k k x x h h
  mulNat := fun _ _ m h => ⟨mul_le_mul_of_nonneg_right h.1 (Nat.cast_nonneg m),
    mul_le_mul_of_nonneg_right h.2 (Nat.cast_nonneg m)⟩
  divNat := fun _ _ m _ h => ⟨div_le_div_of_nonneg_right h.1 (Nat.cast_nonneg m),
    div_le_div_of_nonneg_right h.2 (Nat.cast_nonneg m)⟩
  isNull := by
    rintro k ⟨l, u⟩ ⟨h1, h2⟩ h
    simp only [ivCoef, decide_eq_true_eq, Prod.mk_eq_zero] at h
    simp only [h.1, h.2] at h1 h2
    linarith
  isUnit := by
    rintro k ⟨l, u⟩ ⟨h1, h2⟩ h
    simp only [ivCoef, decide_eq_true_eq, Prod.mk.injEq] at h
    simp only [h.1, h.2] at h1 h2
    linarith
  surelyZero := by
    rintro k ⟨l, u⟩ ⟨h1, h2⟩ h
    simp only [ivCoef, decide_eq_true_eq, Prod.mk_eq_zero] at h
    simp only [h.1, h.2] at h1 h2
    linarith

/-! ### Cases meeting the hypotheses -/

/-- `y^2+2xy-x^2+3`, in the order of the terms. -/
def sampleP : Terms (MIndex 2) ℚ :=
  [(⟨[0, 2], rfl⟩, 1), (⟨[1, 1], rfl⟩, 2), (⟨[2, 0], rfl⟩, -1), (⟨[0, 0], rfl⟩, 3)]

/-- `y+5x`. -/
def sampleQ : Terms (MIndex 2) ℚ := [(⟨[0, 1], rfl⟩, 1), (⟨[1, 0], rfl⟩, 5)]

example : Sorted lt sampleP ∧ Sorted lt sampleQ := by
  exact ⟨by unfold sampleP Sorted; decide, by unfold sampleQ Sorted; decide⟩

example : add lt ratCoef sampleP sampleQ =
    [(⟨[0, 2], rfl⟩, 1), (⟨[1, 1], rfl⟩, 2), (⟨[0, 1], rfl⟩, 1), (⟨[2, 0], rfl⟩, -1),
      (⟨[1, 0], rfl⟩, 5), (⟨[0, 0], rfl⟩, 3)] := by decide +kernel

example : mul lt addIdx ratCoef sampleP sampleQ =
    [(⟨[0, 3], rfl⟩, 1), (⟨[1, 2], rfl⟩, 7), (⟨[2, 1], rfl⟩, 9), (⟨[0, 1], rfl⟩, 3),
      (⟨[3, 0], rfl⟩, -5), (⟨[1, 0], rfl⟩, 15)] := by decide +kernel

example : ∀ s ∈ sampleP, ∀ t ∈ sampleQ, s.1.1.sum + t.1.1.sum < 65536 := by decide

example : evaluate ratCoef sampleP [2, 3] = some 20 := by decide +kernel

example : compose ratCoef sampleP [sampleQ, sampleQ] =
    some [(⟨[0, 2], rfl⟩, 2), (⟨[1, 1], rfl⟩, 20), (⟨[2, 0], rfl⟩, 50), (⟨[0, 0], rfl⟩, 3)] := by
  decide +kernel

example : partialEvaluate ratCoef sampleP 0 2 =
    some [(⟨[2], rfl⟩, 1), (⟨[1], rfl⟩, 4), (⟨[0], rfl⟩, -1)] := by decide +kernel

example : antidifferentiate ratCoef sampleQ 0 =
    [(⟨[1, 1], rfl⟩, 1), (⟨[2, 0], rfl⟩, 5 / 2)] := by decide +kernel

example : evaluateU ratCoef [(2, 2), (0, -1)] 3 = some 17 := by decide +kernel

/-! ### Counterexamples -/

/-- `1+x`. -/
def onePlusX : Terms (MIndex 1) ℚ := [(⟨[1], rfl⟩, 1), (⟨[0], rfl⟩, 1)]

/-- **C89** (counterexample): the derivative of `1+x` has two terms with the same index; evaluating it
is undefined, and its negation is the zero polynomial instead of `-1`. -/
theorem C89_derivative_invariant :
    Sorted lt onePlusX ∧
    differentiate ratCoef onePlusX 0 = [(⟨[0], rfl⟩, 1), (⟨[0], rfl⟩, 0)] ∧
    ¬ Sorted lt (differentiate ratCoef onePlusX 0) ∧
    evaluate ratCoef (differentiate ratCoef onePlusX 0) [2] = none ∧
    neg lt ratCoef (differentiate ratCoef onePlusX 0) = [(⟨[0], rfl⟩, 0)] ∧
    toMv (neg lt ratCoef (differentiate ratCoef onePlusX 0)) ≠
      -(MvPolynomial.pderiv 0 (toMv onePlusX)) := by
  have h5 : neg lt ratCoef (differentiate ratCoef onePlusX 0) = [(⟨[0], rfl⟩, 0)] := by
    decide +kernel
  refine ⟨?_, by decide +kernel, ?_, by decide +kernel, h5, ?_⟩
  · unfold onePlusX Sorted; decide
  · have : differentiate ratCoef onePlusX 0 = [(⟨[0], rfl⟩, 1), (⟨[0], rfl⟩, 0)] := by
      decide +kernel
    rw [this]; unfold Sorted; decide
  · rw [h5]
    have h0 := C89_differentiate_partial ratCoef_sound onePlusX _ ((encl_eq _ _).2 rfl) 0
    rw [encl_eq] at h0
    have : differentiate ratCoef onePlusX ((0 : Fin 1) : ℕ) =
        [(⟨[0], rfl⟩, 1), (⟨[0], rfl⟩, 0)] := by decide +kernel
    rw [← h0, this]
    intro h
    have h2 := congrArg (MvPolynomial.eval (fun _ => (0 : ℚ))) h
    have hz : expo (⟨[0], rfl⟩ : MIndex 1) = 0 := expo_zero
    simp [hz] at h2

/-- **C89** (counterexample): putting two for the variable of a constant polynomial in one variable,
or for a variable of the zero polynomial, is undefined behaviour. -/
theorem C89_partial_evaluate_undefined :
    Sorted lt (constant 2 (3 : ℚ)) ∧ partialEvaluate ratCoef (constant 2 (3 : ℚ)) 0 2 = none ∧
    partialEvaluate ratCoef ([] : Terms (MIndex 2) ℚ) 0 2 = none ∧
    partialEvaluate ratCoef (constant 2 (3 : ℚ)) 0 1 = some [(⟨[0], rfl⟩, 3)] := by
  refine ⟨?_, by decide +kernel, by decide +kernel, by decide +kernel⟩
  have : constant 2 (3 : ℚ) = [(⟨[0, 0], rfl⟩, 3)] := by decide +kernel
  rw [this]; unfold Sorted; decide

/-- **C89** (counterexample): the product of `x^65535` and `x` is the constant one. -/
theorem C89_mul_wrap :
    mul lt addIdx ratCoef [((⟨[65535], rfl⟩ : MIndex 1), 1)] [(⟨[1], rfl⟩, 1)] =
      [(⟨[0], rfl⟩, 1)] ∧
    evaluate ratCoef (mul lt addIdx ratCoef [((⟨[65535], rfl⟩ : MIndex 1), 1)]
      [(⟨[1], rfl⟩, 1)]) [2] = some 1 := by
  constructor <;> decide +kernel

/-- **C89** (counterexample): truncating a polynomial with interval coefficients to its own degree
drops the term with coefficient `[-1,1]`, so that the result no longer encloses `x`. -/
theorem C89_truncate_unsound :
    truncate ivCoef [((⟨[1], rfl⟩ : MIndex 1), (-1, 1))] 1 = [] ∧
    Encl InIv [((⟨[1], rfl⟩ : MIndex 1), ((-1, 1) : ℚ × ℚ))] (MvPolynomial.X 0) ∧
    ¬ Encl InIv (truncate ivCoef [((⟨[1], rfl⟩ : MIndex 1), ((-1, 1) : ℚ × ℚ))] 1)
      (MvPolynomial.X 0) := by
  have h1 : truncate ivCoef [((⟨[1], rfl⟩ : MIndex 1), (-1, 1))] 1 = [] := by decide +kernel
  refine ⟨h1, ⟨[(⟨[1], rfl⟩, 1)], .cons ⟨rfl, by constructor <;> norm_num⟩ .nil, ?_⟩, ?_⟩
  · have hu : expo (⟨[1], rfl⟩ : MIndex 1) = Finsupp.single 0 1 := expo_unit 0
    simp [hu, MvPolynomial.X]
  · rw [h1]
    rintro ⟨e, h2, h3⟩
    cases h2
    have := congrArg (MvPolynomial.eval (fun _ => (1 : ℚ))) h3
    simp at this

/-- **C89** (counterexample): in one variable, adding the constant two to the constant one gives
`2x+1`; assigning a constant gives the zero polynomial; the degree is always zero. -/
theorem C89_univariate_constants (p : Terms Nat ℚ) :
    addConstU ratCoef (constantU 1) 2 = [(1, 2), (0, 1)] ∧
    assignU p 2 = [] ∧ degU [(3, (1 : ℚ))] = 0 := by
  refine ⟨by decide +kernel, rfl, rfl⟩

/-- **C89** (counterexample): in one variable, the value of `x` at three is one and the value of
`x^2` is one; composing `x` with itself gives zero. -/
theorem C89_univariate_evaluate_wrong :
    Sorted ltU [(1, (1 : ℚ))] ∧ evaluateU ratCoef [(1, 1)] 3 = some 1 ∧
    (toPoly [(1, (1 : ℚ))]).eval 3 = 3 ∧
    evaluateU ratCoef [(2, 1)] 3 = some 1 ∧ composeU ratCoef [(1, 1)] [(1, 1)] = some [] := by
  refine ⟨by unfold Sorted; decide, by decide +kernel, ?_, by decide +kernel, by decide +kernel⟩
  rw [eval_toPoly]; norm_num

end Verif.Polynomial
