import Verif.Elementary.Model
import Verif.Elementary.Taylor

/-!
# C86: the series for sine and cosine

The rounded sums by Horner's rule bound the polynomials in the wanted direction.  What is not bounded is the rest of the
series, and for the sine the rounding of the square.
-/

namespace Verif.Elementary

open Ariadne (Rounding)

/-! ## Horner's rule -/

/-- The polynomial whose coefficients are the inverses of the given integers. -/
def poly {K : Type*} [Field K] (x : K) : List ℤ → K
  | [] => 0
  | c :: cs => 1 / c + x * poly x cs

theorem poly_cast (x : ℚ) (cs : List ℤ) : ((poly x cs : ℚ) : ℝ) = poly (x : ℝ) cs := by
  induction cs with
  | nil => simp [poly]
  | cons c cs ih => simp [poly, ih]

variable {m : Mode} {x : ℚ}

theorem poly_le_horner (h : ∀ t, t ≤ m.rnd t) (hx : 0 ≤ x) (cs : List ℤ) : poly x cs ≤ hornerRnd m x cs := by
  induction cs with
  | nil => exact le_rfl
  | cons c cs ih =>
    cases cs with
    | nil => simpa [poly, hornerRnd] using h (1 / (c : ℚ))
    | cons d cs =>
      rw [poly, hornerRnd]
      have h1 := h (1 / (c : ℚ))
      have h2 := h (x * hornerRnd m x (d :: cs))
      have h3 := mul_le_mul_of_nonneg_left ih hx
      have h4 := h (m.rnd (1 / (c : ℚ)) + m.rnd (x * hornerRnd m x (d :: cs)))
      linarith

theorem horner_le_poly (h : ∀ t, m.rnd t ≤ t) (hx : 0 ≤ x) (cs : List ℤ) : hornerRnd m x cs ≤ poly x cs := by
  induction cs with
  | nil => exact le_rfl
  | cons c cs ih =>
    cases cs with
    | nil => simpa [poly, hornerRnd] using h (1 / (c : ℚ))
    | cons d cs =>
      rw [poly, hornerRnd]
      have h1 := h (1 / (c : ℚ))
      have h2 := h (x * hornerRnd m x (d :: cs))
      have h3 := mul_le_mul_of_nonneg_left ih hx
      have h4 := h (m.rnd (1 / (c : ℚ)) + m.rnd (x * hornerRnd m x (d :: cs)))
      linarith

theorem neg_poly_le_horner (h : ∀ t, t ≤ m.rnd t) (hx : 0 ≤ x) (cs : List ℤ) : -poly x cs ≤ hornerNeg m x cs := by
  induction cs with
  | nil => simp [poly, hornerNeg]
  | cons c cs ih =>
    cases cs with
    | nil => simpa [poly, hornerNeg, neg_div] using h (-1 / (c : ℚ))
    | cons d cs =>
      rw [poly, hornerNeg]
      have h1 := h (-1 / (c : ℚ))
      have h2 := h (x * hornerNeg m x (d :: cs))
      have h3 := mul_le_mul_of_nonneg_left ih hx
      have h4 := h (m.rnd (-1 / (c : ℚ)) + m.rnd (x * hornerNeg m x (d :: cs)))
      have h5 : (-1 : ℚ) / c = -(1 / c) := by ring
      linarith

theorem horner_le_neg_poly (h : ∀ t, m.rnd t ≤ t) (hx : 0 ≤ x) (cs : List ℤ) : hornerNeg m x cs ≤ -poly x cs := by
  induction cs with
  | nil => simp [poly, hornerNeg]
  | cons c cs ih =>
    cases cs with
    | nil => simpa [poly, hornerNeg, neg_div] using h (-1 / (c : ℚ))
    | cons d cs =>
      rw [poly, hornerNeg]
      have h1 := h (-1 / (c : ℚ))
      have h2 := h (x * hornerNeg m x (d :: cs))
      have h3 := mul_le_mul_of_nonneg_left ih hx
      have h4 := h (m.rnd (-1 / (c : ℚ)) + m.rnd (x * hornerNeg m x (d :: cs)))
      have h5 : (-1 : ℚ) / c = -(1 / c) := by ring
      linarith

theorem hornerOpp_le (h : ∀ t, t ≤ m.rnd t) (hx : 0 ≤ x) (cs : List ℤ) : hornerOpp m x cs ≤ poly x cs := by
  have := neg_poly_le_horner h hx cs
  unfold hornerOpp
  linarith

theorem le_hornerOpp (h : ∀ t, m.rnd t ≤ t) (hx : 0 ≤ x) (cs : List ℤ) : poly x cs ≤ hornerOpp m x cs := by
  have := horner_le_neg_poly h hx cs
  unfold hornerOpp
  linarith

/-! ## Dependence of the polynomials on their argument -/

/-- A bound for the polynomial on the unit interval -/
def absSum : List ℤ → ℚ
  | [] => 0
  | c :: cs => |1 / (c : ℚ)| + absSum cs

/-- A bound for the slope on the unit interval -/
def slope : List ℤ → ℚ
  | [] => 0
  | _ :: cs => absSum cs + slope cs

theorem absSum_nonneg (cs : List ℤ) : 0 ≤ absSum cs := by
  induction cs with
  | nil => exact le_rfl
  | cons c cs ih => exact add_nonneg (abs_nonneg _) ih

theorem abs_poly_le {s : ℚ} (h0 : 0 ≤ s) (h1 : s ≤ 1) (cs : List ℤ) : |poly s cs| ≤ absSum cs := by
  induction cs with
  | nil => simp [poly, absSum]
  | cons c cs ih =>
    rw [poly, absSum]
    refine (abs_add_le _ _).trans (add_le_add le_rfl ?_)
    rw [abs_mul, abs_of_nonneg h0]
    exact (mul_le_of_le_one_left (abs_nonneg _) h1).trans ih

theorem poly_lipschitz {s t : ℚ} (s0 : 0 ≤ s) (s1 : s ≤ 1) (t0 : 0 ≤ t) (t1 : t ≤ 1) (cs : List ℤ) :
    |poly t cs - poly s cs| ≤ slope cs * |t - s| := by
  induction cs with
  | nil => simp [poly, slope]
  | cons c cs ih =>
    rw [poly, poly, slope]
    have e : 1 / (c : ℚ) + t * poly t cs - (1 / c + s * poly s cs) =
        poly t cs * (t - s) + s * (poly t cs - poly s cs) := by ring
    rw [e]
    refine (abs_add_le _ _).trans ?_
    rw [abs_mul, abs_mul, abs_of_nonneg s0, add_mul]
    exact add_le_add (mul_le_mul_of_nonneg_right (abs_poly_le t0 t1 cs) (abs_nonneg _))
      ((mul_le_of_le_one_left (abs_nonneg _) s1).trans ih)

/-- If the second coefficient is larger than the slope of the rest, it decides whether the polynomial increases. -/
theorem poly_linear {s t : ℚ} (s0 : 0 ≤ s) (t1 : t ≤ 1) (h : s ≤ t) (c d : ℤ) (cs : List ℤ) :
    |poly t (c :: d :: cs) - poly s (c :: d :: cs) - (t - s) / d| ≤ slope (0 :: 0 :: cs) * (t - s) := by
  have := poly_lipschitz s0 (h.trans t1) (s0.trans h) t1 (0 :: 0 :: cs)
  rw [abs_of_nonneg (sub_nonneg.2 h)] at this
  have e : poly t (c :: d :: cs) - poly s (c :: d :: cs) - (t - s) / d =
      poly t (0 :: 0 :: cs) - poly s (0 :: 0 :: cs) := by
    simp only [poly]
    simp
    ring
  rw [e]
  exact this

theorem cosPoly_anti {s t : ℚ} (s0 : 0 ≤ s) (t1 : t ≤ 1) (h : s ≤ t) : poly t cosCoeffs ≤ poly s cosCoeffs := by
  have := poly_linear s0 t1 h 1 (-2) [24, -720, 40320, -3628800, 479001600, -87178291200, 20922789888000]
  have h1 : slope (0 :: 0 :: [24, -720, 40320, -3628800, 479001600, -87178291200, 20922789888000]) ≤ 1 / 2 := by
    decide +kernel
  have h2 := mul_le_mul_of_nonneg_right h1 (sub_nonneg.2 h)
  have h3 := (abs_le.1 this).2
  unfold cosCoeffs
  push_cast at h3
  linarith

theorem sinSlope : slope sinCoeffs ≤ 1 / 5 := by decide +kernel

/-! ## The polynomials and the functions -/

theorem cosPoly_eq (x : ℝ) : poly (x ^ 2) cosCoeffs = cosSum 9 x := by
  simp only [poly, cosCoeffs, cosSum, Finset.sum_range_succ, Finset.sum_range_zero]
  norm_num [Nat.factorial]
  ring

theorem sinPoly_eq (x : ℝ) : x * poly (x ^ 2) sinCoeffs = sinSum 9 x := by
  simp only [poly, sinCoeffs, sinSum, Finset.sum_range_succ, Finset.sum_range_zero]
  norm_num [Nat.factorial]
  ring

open Finset Filter Topology in
/-- Partial sums of an alternating series -/
theorem alternating_bounds {f : ℕ → ℝ} {l : ℝ} (hs : HasSum (fun n => (-1) ^ n * f n) l) (ha : Antitone f) :
    l ≤ ∑ i ∈ range 9, (-1) ^ i * f i ∧ ∑ i ∈ range 9, (-1) ^ i * f i ≤ l + f 9 := by
  have ht := hs.tendsto_sum_nat
  refine ⟨ha.tendsto_le_alternating_series ht 4, ?_⟩
  have := ha.alternating_series_le_tendsto ht 5
  rw [show 2 * 5 = 9 + 1 by norm_num, sum_range_succ] at this
  norm_num at this ⊢
  linarith

theorem cosTerm_antitone {x : ℝ} (h0 : 0 ≤ x) (h1 : x ≤ 1) :
    Antitone fun n : ℕ => x ^ (2 * n) / (2 * n).factorial := by
  refine antitone_nat_of_succ_le fun n => ?_
  have h2 : x ^ (2 * (n + 1)) ≤ x ^ (2 * n) := pow_le_pow_of_le_one h0 h1 (by omega)
  have h3 : ((2 * n).factorial : ℝ) ≤ (2 * (n + 1)).factorial := by
    exact_mod_cast Nat.factorial_le (by omega)
  exact div_le_div₀ (by positivity) h2 (by positivity) h3

theorem sinTerm_antitone {x : ℝ} (h0 : 0 ≤ x) (h1 : x ≤ 1) :
    Antitone fun n : ℕ => x ^ (2 * n + 1) / (2 * n + 1).factorial := by
  refine antitone_nat_of_succ_le fun n => ?_
  have h2 : x ^ (2 * (n + 1) + 1) ≤ x ^ (2 * n + 1) := pow_le_pow_of_le_one h0 h1 (by omega)
  have h3 : ((2 * n + 1).factorial : ℝ) ≤ (2 * (n + 1) + 1).factorial := by
    exact_mod_cast Nat.factorial_le (by omega)
  exact div_le_div₀ (by positivity) h2 (by positivity) h3

theorem cos_poly_bounds {x : ℝ} (h0 : 0 ≤ x) (h1 : x ≤ 1) :
    Real.cos x ≤ poly (x ^ 2) cosCoeffs ∧ poly (x ^ 2) cosCoeffs ≤ Real.cos x + x ^ 18 / (18).factorial := by
  have := alternating_bounds (f := fun n => x ^ (2 * n) / (2 * n).factorial) (l := Real.cos x)
    (by simpa [mul_div_assoc] using Real.hasSum_cos x) (cosTerm_antitone h0 h1)
  rw [cosPoly_eq]
  simpa [cosSum, mul_div_assoc] using this

theorem sin_poly_bounds {x : ℝ} (h0 : 0 ≤ x) (h1 : x ≤ 1) :
    Real.sin x ≤ x * poly (x ^ 2) sinCoeffs ∧ x * poly (x ^ 2) sinCoeffs ≤ Real.sin x + x ^ 19 / (19).factorial := by
  have := alternating_bounds (f := fun n => x ^ (2 * n + 1) / (2 * n + 1).factorial) (l := Real.sin x)
    (by simpa [mul_div_assoc] using Real.hasSum_sin x) (sinTerm_antitone h0 h1)
  rw [sinPoly_eq]
  simpa [sinSum, mul_div_assoc] using this

end Verif.Elementary
