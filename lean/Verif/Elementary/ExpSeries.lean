import Verif.Elementary.Series
import Mathlib.Analysis.SpecialFunctions.Log.Basic

/-!
# The rational function for the exponential

Facts about the real exponential and the polynomial of `exp_rnd` (source/numeric/double.cpp 163-170).
-/

namespace Verif.Elementary

/-- The polynomial with the given coefficients. -/
def evalL (x : ℝ) : List ℚ → ℝ
  | [] => 0
  | c :: cs => c + x * evalL x cs

/-- A bound for the polynomial. -/
def absL (a : ℚ) : List ℚ → ℚ
  | [] => 0
  | c :: cs => |c| + a * absL a cs

theorem abs_evalL {x : ℝ} {a : ℚ} (h : |x| ≤ a) (cs : List ℚ) : |evalL x cs| ≤ absL a cs := by
  induction cs with
  | nil => simp [evalL, absL]
  | cons c cs ih =>
    rw [evalL, absL]
    push_cast
    refine (abs_add_le _ _).trans (add_le_add le_rfl ?_)
    rw [abs_mul]
    exact mul_le_mul h ih (abs_nonneg _) ((abs_nonneg _).trans h)

/-- `w` without rounding (165-167) -/
noncomputable def expPoly (r : ℝ) : ℝ := 1 + poly (r ^ 2) expCoeffs

/-- The coefficients of `w + r - (w - r) T`, where `T` is the partial sum of the exponential series -/
def expDefect : List ℚ := [0, 0, 0, 0, 0, 0, 0, 0, 0, 0, 0, 0, 0, 1 / 5624300264558976000, 1 / 11248600529117952000, 451604423 / 16872900793676928000, 519805907 / 38566630385547264000, 336624503 / 89988804232943616000, 3165531953 / 4049496190482462720000, 387396719 / 3037122142861847040000, 11836336867 / 680315360001053736960000, 471979841 / 226771786667017912320000, 227600809 / 1020473040001580605440000, 2361245981 / 112252034400173866598400000, 31024507 / 17960325504027818655744000, 37120891 / 269404882560417279836160000, 1 / 82489737213531648000, 1 / 1237346058202974720000]

theorem expDefect_eq (r : ℝ) : expPoly r + r - (expPoly r - r) * ∑ k ∈ Finset.range 16, r ^ k / k.factorial =
    evalL r expDefect := by
  simp only [expPoly, poly, expCoeffs, expDefect, evalL, Finset.sum_range_succ, Finset.sum_range_zero]
  norm_num [Nat.factorial]
  ring

theorem expPoly_bounds {r : ℝ} (h : |r| ≤ 4001 / 10000) : 2 ≤ expPoly r ∧ expPoly r ≤ 21 / 10 := by
  have e : expPoly r = 2 + r ^ 2 * (1 / 6 + evalL r [0, 0, -1/360, 0, 1/15120, 0, -1/604800, 0, 1/23950080, 0,
      -1/946218790]) := by
    simp only [expPoly, poly, expCoeffs, evalL]
    norm_num
    ring
  have h1 := abs_evalL (a := 4001 / 10000) (by push_cast; exact h) [0, 0, -1/360, 0, 1/15120, 0, -1/604800, 0, 1/23950080, 0,
      -1/946218790]
  have h2 : absL (4001 / 10000) [0, 0, -1/360, 0, 1/15120, 0, -1/604800, 0, 1/23950080, 0, -1/946218790] ≤ 1 / 6 := by
    decide +kernel
  have h3 : ((absL (4001 / 10000) [0, 0, -1/360, 0, 1/15120, 0, -1/604800, 0, 1/23950080, 0, -1/946218790] : ℚ) : ℝ) ≤
      1 / 6 := by
    have : ((_ : ℚ) : ℝ) ≤ ((1 / 6 : ℚ) : ℝ) := Rat.cast_le.2 h2
    push_cast at this
    exact this
  have h4 := abs_le.1 (h1.trans h3)
  have h5 : r ^ 2 ≤ 17 / 100 := by
    have := sq_le_sq' (by linarith [(abs_le.1 h).1]) (abs_le.1 h).2
    norm_num at this
    linarith
  have h6 : 0 ≤ r ^ 2 := sq_nonneg r
  rw [e]
  constructor
  · nlinarith
  · nlinarith

/-- The rational function is close to the exponential. -/
theorem exp_rational {r : ℝ} (h : |r| ≤ 4001 / 10000) :
    Real.exp r * (1 - 1 / 2 ^ 54) ≤ (expPoly r + r) / (expPoly r - r) ∧
      (expPoly r + r) / (expPoly r - r) ≤ Real.exp r * (1 + 1 / 2 ^ 54) := by
  have hp := expPoly_bounds h
  have hr := abs_le.1 h
  have h0 : 0 < expPoly r - r := by linarith
  -- the partial sum
  have h1 : |Real.exp r - ∑ k ∈ Finset.range 16, r ^ k / k.factorial| ≤ 1 / 2 ^ 62 := by
    refine (Real.exp_bound (h.trans (by norm_num)) (by norm_num : 0 < 16)).trans ?_
    have h2 : |r| ^ 16 ≤ (4001 / 10000) ^ 16 := pow_le_pow_left₀ (abs_nonneg r) h 16
    have h3 : |r| ^ 16 * (((16 : ℕ).succ : ℝ) / ((16 : ℕ).factorial * (16 : ℕ))) ≤
        (4001 / 10000) ^ 16 * (((16 : ℕ).succ : ℝ) / ((16 : ℕ).factorial * (16 : ℕ))) := by gcongr
    refine h3.trans ?_
    norm_num [Nat.factorial]
  have h2 : |evalL r expDefect| ≤ 36 / 10 ^ 18 := by
    have := abs_evalL (a := 4001 / 10000) (by push_cast; exact h) expDefect
    have h3 : absL (4001 / 10000) expDefect ≤ 36 / 10 ^ 18 := by decide +kernel
    have h4 : ((_ : ℚ) : ℝ) ≤ ((36 / 10 ^ 18 : ℚ) : ℝ) := Rat.cast_le.2 h3
    push_cast at h4
    exact this.trans h4
  -- the exponential is not small
  have h3 : 59 / 100 ≤ Real.exp r := by
    have := Real.add_one_le_exp r
    linarith
  have h4 : |expPoly r + r - (expPoly r - r) * Real.exp r| ≤ 1 / 2 ^ 54 * ((expPoly r - r) * Real.exp r) := by
    have e : expPoly r + r - (expPoly r - r) * Real.exp r = evalL r expDefect -
        (expPoly r - r) * (Real.exp r - ∑ k ∈ Finset.range 16, r ^ k / k.factorial) := by
      rw [← expDefect_eq]
      ring
    rw [e]
    refine (abs_sub _ _).trans ?_
    rw [abs_mul, abs_of_pos h0]
    have h5 : (expPoly r - r) * |Real.exp r - ∑ k ∈ Finset.range 16, r ^ k / k.factorial| ≤
        (251 / 100) * (1 / 2 ^ 62) := mul_le_mul (by linarith) h1 (abs_nonneg _) (by norm_num)
    have h6 : (159 / 100 : ℝ) * (59 / 100) ≤ (expPoly r - r) * Real.exp r :=
      mul_le_mul (by linarith) h3 (by norm_num) h0.le
    have h7 : (36 / 10 ^ 18 : ℝ) + (251 / 100) * (1 / 2 ^ 62) ≤ 1 / 2 ^ 54 * ((159 / 100 : ℝ) * (59 / 100)) := by norm_num
    have h8 := mul_le_mul_of_nonneg_left h6 (show (0 : ℝ) ≤ 1 / 2 ^ 54 by norm_num)
    linarith
  have h5 := abs_le.1 h4
  constructor
  · rw [le_div_iff₀ h0]
    linarith
  · rw [div_le_iff₀ h0]
    linarith

/-! ## The logarithm of two -/

theorem log_two_gt : ((6243314768165359 / 2 ^ 53 : ℚ) : ℝ) < Real.log 2 := by
  rw [Real.lt_log_iff_exp_lt (by norm_num)]
  refine (Real.exp_bound' (by norm_num) (by norm_num) (by norm_num : 0 < 20)).trans_lt ?_
  have : (∑ k ∈ Finset.range 20, (6243314768165359 / 2 ^ 53 : ℚ) ^ k / k.factorial) +
      (6243314768165359 / 2 ^ 53 : ℚ) ^ 20 * (20 + 1) / ((20 : ℕ).factorial * 20) < 2 := by
    decide +kernel
  have h : ((_ : ℚ) : ℝ) < ((2 : ℚ) : ℝ) := Rat.cast_lt.2 this
  push_cast at h ⊢
  exact h

theorem log_two_lt : Real.log 2 < ((6243314768165360 / 2 ^ 53 : ℚ) : ℝ) := by
  rw [Real.log_lt_iff_lt_exp (by norm_num)]
  refine lt_of_lt_of_le ?_ (Real.sum_le_exp_of_nonneg (by norm_num) 20)
  have : 2 < ∑ k ∈ Finset.range 20, (6243314768165360 / 2 ^ 53 : ℚ) ^ k / k.factorial := by
    decide +kernel
  have h : ((2 : ℚ) : ℝ) < ((_ : ℚ) : ℝ) := Rat.cast_lt.2 this
  push_cast at h ⊢
  exact h

end Verif.Elementary
