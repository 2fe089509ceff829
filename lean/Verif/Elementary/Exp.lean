import Verif.Elementary.ExpSeries
import Verif.Elementary.Cos

/-!
# C87: the rounded exponential function bounds the exponential up to the rest of its series
-/

namespace Verif.Elementary

open Ariadne (Rounding)

variable (R : Rounding ℚ)

/-! ## Crude bounds, which show that the denominators are positive -/

theorem rep_half_one : R.Rep (1 / 2) := R.rep_half _ R.rep_one

theorem inv_bounds {c : ℤ} (hc : 2 ≤ |c|) : -(1 / 2) ≤ 1 / (c : ℚ) ∧ 1 / (c : ℚ) ≤ 1 / 2 := by
  have h : |1 / (c : ℚ)| ≤ 1 / 2 := by
    rw [abs_div, abs_one]
    have : (2 : ℚ) ≤ |(c : ℚ)| := by exact_mod_cast hc
    exact div_le_div_of_nonneg_left (by norm_num) (by norm_num) this
  exact abs_le.1 h

theorem hornerNeg_le_one {s : ℚ} (s0 : 0 ≤ s) (s1 : s ≤ 1 / 4) (cs : List ℤ) (hc : ∀ c ∈ cs, 2 ≤ |c|) :
    hornerNeg (upward R) s cs ≤ 1 := by
  induction cs with
  | nil => exact zero_le_one
  | cons c cs ih =>
    have h1 : R.up (-1 / (c : ℚ)) ≤ 1 / 2 := R.up_min _ _ (rep_half_one R) (by
      have := (inv_bounds (hc c (by simp))).1
      have e : -1 / (c : ℚ) = -(1 / c) := by ring
      rw [e]
      linarith)
    cases cs with
    | nil => exact h1.trans (by norm_num)
    | cons d cs =>
      have h2 := ih (fun c h => hc c (List.mem_cons_of_mem _ h))
      have h3 : R.up (s * hornerNeg (upward R) s (d :: cs)) ≤ 1 / 2 := R.up_min _ _ (rep_half_one R) (by nlinarith)
      exact R.up_min _ _ R.rep_one (show R.up (-1 / (c : ℚ)) + R.up (s * hornerNeg (upward R) s (d :: cs)) ≤ 1 by
        linarith)

theorem neg_one_le_horner {s : ℚ} (s0 : 0 ≤ s) (s1 : s ≤ 1 / 4) (cs : List ℤ) (hc : ∀ c ∈ cs, 2 ≤ |c|) :
    -1 ≤ hornerRnd (downward R) s cs := by
  induction cs with
  | nil => exact (by norm_num : (-1 : ℚ) ≤ 0)
  | cons c cs ih =>
    have h1 : -(1 / 2) ≤ R.down (1 / (c : ℚ)) :=
      R.down_max _ _ (R.rep_neg _ (rep_half_one R)) (inv_bounds (hc c (by simp))).1
    cases cs with
    | nil => exact le_trans (by norm_num) h1
    | cons d cs =>
      have h2 := ih (fun c h => hc c (List.mem_cons_of_mem _ h))
      have h3 : -(1 / 2) ≤ R.down (s * hornerRnd (downward R) s (d :: cs)) :=
        R.down_max _ _ (R.rep_neg _ (rep_half_one R)) (by nlinarith)
      exact R.down_max _ _ (R.rep_neg _ R.rep_one)
        (show -1 ≤ R.down (1 / (c : ℚ)) + R.down (s * hornerRnd (downward R) s (d :: cs)) by linarith)

theorem expTail_large : ∀ c ∈ ([6, -360, 15120, -604800, 23950080, -946218790] : List ℤ), 2 ≤ |c| := by decide

theorem expPoly_mono {s t : ℚ} (s0 : 0 ≤ s) (t1 : t ≤ 1) (h : s ≤ t) : poly s expCoeffs ≤ poly t expCoeffs := by
  have := poly_linear s0 t1 h 1 6 [-360, 15120, -604800, 23950080, -946218790]
  have h1 : slope (0 :: 0 :: [-360, 15120, -604800, 23950080, -946218790]) ≤ 1 / 6 := by decide +kernel
  have h2 := mul_le_mul_of_nonneg_right h1 (sub_nonneg.2 h)
  have h3 := (abs_le.1 this).1
  unfold expCoeffs
  push_cast at h3
  linarith

/-! ## The numerator and denominator -/

theorem square_small {r : ℚ} (h : |r| ≤ 9 / 20) : 0 ≤ r * r ∧ r * r ≤ 1 / 4 := by
  refine ⟨mul_self_nonneg r, ?_⟩
  have := mul_self_le_mul_self (abs_nonneg r) h
  rw [abs_mul_abs_self] at this
  linarith

theorem rep_quarter : R.Rep (1 / 4) := by
  have := R.rep_half _ (rep_half_one R)
  norm_num at this ⊢
  exact this

theorem expW_up_pos {r : ℚ} (h : |r| ≤ 9 / 20) (h0 : 0 ≤ r) :
    1 ≤ expW (upward R) r ∧ expW (upward R) r ≤ 1 + poly (r * r) expCoeffs := by
  have hs := square_small h
  have e : expW (upward R) r = R.down (1 + hornerOpp (upward R) (R.down (r * r)) expCoeffs) := by
    unfold expW
    rw [if_neg (not_lt.2 h0)]
    show -R.up (-1 - hornerOpp (upward R) (-R.up (-r * r)) expCoeffs) = _
    rw [neg_mul, R.up_neg, neg_neg, show ∀ a : ℚ, -1 - a = -(1 + a) from fun a => by ring, R.up_neg, neg_neg]
  have d0 : 0 ≤ R.down (r * r) := R.down_max _ _ R.rep_zero hs.1
  have d1 : R.down (r * r) ≤ 1 / 4 := (R.down_le _).trans hs.2
  rw [e]
  constructor
  · refine R.down_max _ _ R.rep_one ?_
    have h1 := hornerNeg_le_one R d0 d1 _ expTail_large
    have h2 : R.up (R.down (r * r) * hornerNeg (upward R) (R.down (r * r))
        [6, -360, 15120, -604800, 23950080, -946218790]) ≤ 1 := R.up_min _ _ R.rep_one (by nlinarith)
    have h3 : R.up (-1 / ((1 : ℤ) : ℚ)) = -1 := by
      rw [Int.cast_one, div_one, R.up_neg, R.down_of_rep R.rep_one]
    have h4 : hornerNeg (upward R) (R.down (r * r)) expCoeffs ≤ 0 := by
      refine R.up_min _ _ R.rep_zero ?_
      show R.up (-1 / ((1 : ℤ) : ℚ)) + R.up _ ≤ 0
      rw [h3]
      linarith
    unfold hornerOpp
    linarith
  · refine (R.down_le _).trans ?_
    have h1 := hornerOpp_le (m := upward R) (fun t => R.le_up t) d0 expCoeffs
    have h2 := expPoly_mono d0 (hs.2.trans (by norm_num)) (R.down_le (r * r))
    linarith

theorem expW_up_neg {r : ℚ} (h : |r| ≤ 9 / 20) (h0 : r < 0) : 1 + poly (r * r) expCoeffs ≤ expW (upward R) r := by
  have hs := square_small h
  unfold expW
  rw [if_pos h0]
  have u0 : 0 ≤ R.up (r * r) := hs.1.trans (R.le_up _)
  have u1 : R.up (r * r) ≤ 1 / 4 := R.up_min _ _ (rep_quarter R) hs.2
  have h1 := poly_le_horner (m := upward R) (fun t => R.le_up t) u0 expCoeffs
  have h2 := expPoly_mono hs.1 (u1.trans (by norm_num)) (R.le_up (r * r))
  have h3 : 1 + hornerRnd (upward R) (R.up (r * r)) expCoeffs ≤
      (upward R).rnd (1 + hornerRnd (upward R) ((upward R).rnd (r * r)) expCoeffs) := R.le_up _
  linarith

theorem expW_down_neg {r : ℚ} (h : |r| ≤ 9 / 20) (h0 : r < 0) :
    1 ≤ expW (downward R) r ∧ expW (downward R) r ≤ 1 + poly (r * r) expCoeffs := by
  have hs := square_small h
  unfold expW
  rw [if_pos h0]
  have d0 : 0 ≤ R.down (r * r) := R.down_max _ _ R.rep_zero hs.1
  have d1 : R.down (r * r) ≤ 1 / 4 := (R.down_le _).trans hs.2
  have e : (downward R).rnd = R.down := rfl
  rw [e]
  constructor
  · refine R.down_max _ _ R.rep_one ?_
    have h1 := neg_one_le_horner R d0 d1 _ expTail_large
    have h2 : -1 ≤ R.down (R.down (r * r) * hornerRnd (downward R) (R.down (r * r))
        [6, -360, 15120, -604800, 23950080, -946218790]) :=
      R.down_max _ _ (R.rep_neg _ R.rep_one) (by nlinarith)
    have h3 : R.down (1 / ((1 : ℤ) : ℚ)) = 1 := by
      rw [Int.cast_one, div_one, R.down_of_rep R.rep_one]
    have h4 : 0 ≤ hornerRnd (downward R) (R.down (r * r)) expCoeffs := by
      refine R.down_max _ _ R.rep_zero ?_
      show 0 ≤ R.down (1 / ((1 : ℤ) : ℚ)) + R.down _
      rw [h3]
      linarith
    linarith
  · refine (R.down_le _).trans ?_
    have h1 := horner_le_poly (m := downward R) (fun t => R.down_le t) d0 expCoeffs
    have h2 := expPoly_mono d0 (hs.2.trans (by norm_num)) (R.down_le (r * r))
    linarith

theorem expW_down_pos {r : ℚ} (h : |r| ≤ 9 / 20) (h0 : 0 ≤ r) :
    1 + poly (r * r) expCoeffs ≤ expW (downward R) r := by
  have hs := square_small h
  have e : expW (downward R) r = R.up (1 + hornerOpp (downward R) (R.up (r * r)) expCoeffs) := by
    unfold expW
    rw [if_neg (not_lt.2 h0)]
    show -R.down (-1 - hornerOpp (downward R) (-R.down (-r * r)) expCoeffs) = _
    rw [neg_mul, R.down_neg, neg_neg, show ∀ a : ℚ, -1 - a = -(1 + a) from fun a => by ring, R.down_neg, neg_neg]
  have u0 : 0 ≤ R.up (r * r) := hs.1.trans (R.le_up _)
  have u1 : R.up (r * r) ≤ 1 / 4 := R.up_min _ _ (rep_quarter R) hs.2
  rw [e]
  have h1 := le_hornerOpp (m := downward R) (fun t => R.down_le t) u0 expCoeffs
  have h2 := expPoly_mono hs.1 (u1.trans (by norm_num)) (R.le_up (r * r))
  have h3 := R.le_up (1 + hornerOpp (downward R) (R.up (r * r)) expCoeffs)
  linarith

/-! ## The quotient -/

theorem quotient_anti {r v w : ℚ} (hr : 0 ≤ r) (hv : r < v) (h : v ≤ w) : (w + r) / (w - r) ≤ (v + r) / (v - r) := by
  rw [div_le_div_iff₀ (by linarith) (by linarith)]
  nlinarith

theorem quotient_mono {r v w : ℚ} (hr : r ≤ 0) (hv : r < v) (h : v ≤ w) : (v + r) / (v - r) ≤ (w + r) / (w - r) := by
  rw [div_le_div_iff₀ (by linarith) (by linarith)]
  nlinarith

theorem expY_up {r : ℚ} (h : |r| ≤ 9 / 20) (hw : 1 ≤ expW (upward R) r) :
    (expW (upward R) r + r) / (expW (upward R) r - r) ≤ expY (upward R) r := by
  set w := expW (upward R) r with hwd
  have hr := abs_le.1 h
  have e : expY (upward R) r = R.up (R.up (w + r) / R.down (w - r)) := by
    show R.up (R.up (w + r) / -R.up (r - w)) = _
    rw [show r - w = -(w - r) by ring, R.up_neg, neg_neg]
  rw [e]
  refine le_trans ?_ (R.le_up _)
  have h1 : 1 / 2 ≤ R.down (w - r) := R.down_max _ _ (rep_half_one R) (by linarith)
  exact div_le_div₀ ((by linarith : (0 : ℚ) ≤ w + r).trans (R.le_up _)) (R.le_up _) (by linarith) (R.down_le _)

theorem expY_down {r : ℚ} (h : |r| ≤ 9 / 20) (hw : 1 ≤ expW (downward R) r) :
    expY (downward R) r ≤ (expW (downward R) r + r) / (expW (downward R) r - r) := by
  set w := expW (downward R) r with hwd
  have hr := abs_le.1 h
  have e : expY (downward R) r = R.down (R.down (w + r) / R.up (w - r)) := by
    show R.down (R.down (w + r) / -R.down (r - w)) = _
    rw [show r - w = -(w - r) by ring, R.down_neg, neg_neg]
  rw [e]
  refine (R.down_le _).trans ?_
  exact div_le_div₀ (by linarith) (R.down_le _) (by linarith) (R.le_up _)

theorem expPoly_cast (r : ℚ) : ((1 + poly (r * r) expCoeffs : ℚ) : ℝ) = expPoly r := by
  unfold expPoly
  push_cast [poly_cast]
  rw [← sq]

theorem poly_pos {r : ℚ} (h : |r| ≤ 4001 / 10000) : 2 ≤ 1 + poly (r * r) expCoeffs := by
  have h1 : |(r : ℝ)| ≤ 4001 / 10000 := by
    have : ((|r| : ℚ) : ℝ) ≤ ((4001 / 10000 : ℚ) : ℝ) := by exact_mod_cast h
    push_cast at this
    exact this
  have h2 := (expPoly_bounds h1).1
  rw [← expPoly_cast] at h2
  exact_mod_cast h2

theorem real_abs {r : ℚ} (h : |r| ≤ 4001 / 10000) : |(r : ℝ)| ≤ 4001 / 10000 := by
  have : ((|r| : ℚ) : ℝ) ≤ ((4001 / 10000 : ℚ) : ℝ) := by exact_mod_cast h
  push_cast at this
  exact this

/-- The exponential of the reduced argument, rounded upwards -/
theorem exp_reduced_up {r : ℚ} (h : |r| ≤ 4001 / 10000) : Real.exp r * (1 - 1 / 2 ^ 54) ≤ expY (upward R) r := by
  have h9 : |r| ≤ 9 / 20 := h.trans (by norm_num)
  have hr := abs_le.1 h
  have hp := poly_pos h
  refine (exp_rational (real_abs h)).1.trans ?_
  rw [← expPoly_cast]
  suffices hq : (1 + poly (r * r) expCoeffs + r) / (1 + poly (r * r) expCoeffs - r) ≤ expY (upward R) r by
    exact_mod_cast hq
  rcases lt_or_ge r 0 with h0 | h0
  · have h1 := expW_up_neg R h9 h0
    exact (quotient_mono h0.le (by linarith) h1).trans (expY_up R h9 (by linarith))
  · have h1 := expW_up_pos R h9 h0
    exact (quotient_anti h0 (by linarith [h1.1]) h1.2).trans (expY_up R h9 h1.1)

/-- The exponential of the reduced argument, rounded downwards -/
theorem exp_reduced_down {r : ℚ} (h : |r| ≤ 4001 / 10000) : expY (downward R) r ≤ Real.exp r * (1 + 1 / 2 ^ 54) := by
  have h9 : |r| ≤ 9 / 20 := h.trans (by norm_num)
  have hr := abs_le.1 h
  have hp := poly_pos h
  refine le_trans ?_ (exp_rational (real_abs h)).2
  rw [← expPoly_cast]
  suffices hq : expY (downward R) r ≤ (1 + poly (r * r) expCoeffs + r) / (1 + poly (r * r) expCoeffs - r) by
    exact_mod_cast hq
  rcases lt_or_ge r 0 with h0 | h0
  · have h1 := expW_down_neg R h9 h0
    exact (expY_down R h9 h1.1).trans (quotient_mono h0.le (by linarith [h1.1]) h1.2)
  · have h1 := expW_down_pos R h9 h0
    exact (expY_down R h9 (by linarith)).trans (quotient_anti h0 (by linarith) h1)

/-! ## Reduction of the argument -/

theorem log2_up : ((nextOpp up53 log2 : ℚ) : ℝ) ≤ Real.log 2 ∧ Real.log 2 ≤ ((nextRnd up53 log2 : ℚ) : ℝ) := by
  have h1 : nextOpp up53 log2 ≤ 6243314768165359 / 2 ^ 53 := by decide +kernel
  have h2 : 6243314768165360 / 2 ^ 53 ≤ nextRnd up53 log2 := by decide +kernel
  exact ⟨(Rat.cast_le.2 h1).trans log_two_gt.le, log_two_lt.le.trans (Rat.cast_le.2 h2)⟩

theorem log2_down : ((nextRnd down53 log2 : ℚ) : ℝ) ≤ Real.log 2 ∧ Real.log 2 ≤ ((nextOpp down53 log2 : ℚ) : ℝ) := by
  have h1 : nextRnd down53 log2 ≤ 6243314768165359 / 2 ^ 53 := by decide +kernel
  have h2 : 6243314768165360 / 2 ^ 53 ≤ nextOpp down53 log2 := by decide +kernel
  exact ⟨(Rat.cast_le.2 h1).trans log_two_gt.le, log_two_lt.le.trans (Rat.cast_le.2 h2)⟩

theorem exp_shift (x : ℝ) (n : ℤ) : Real.exp x = Real.exp (x - n * Real.log 2) * 2 ^ n := by
  have : (2 : ℝ) ^ n = Real.exp (n * Real.log 2) := by
    rw [mul_comm, Real.exp_mul, Real.exp_log (by norm_num), Real.rpow_intCast]
  rw [this, ← Real.exp_add]
  ring_nf

theorem expR_up (x : ℚ) : (x : ℝ) - expN up53 x * Real.log 2 ≤ expR up53 x := by
  set n := expN up53 x with hn
  have h1 : x + -n * (if 0 < n then nextOpp up53 log2 else nextRnd up53 log2) ≤ expR up53 x := by
    show _ ≤ R53.up (x + R53.up (-n * (if 0 < n then nextOpp up53 log2 else nextRnd up53 log2)))
    have h2 := R53.le_up (-n * (if 0 < n then nextOpp up53 log2 else nextRnd up53 log2))
    exact (by linarith : _ ≤ _).trans (R53.le_up _)
  have h2 : ((x + -n * (if 0 < n then nextOpp up53 log2 else nextRnd up53 log2) : ℚ) : ℝ) ≤ expR up53 x := by
    exact_mod_cast h1
  refine le_trans ?_ h2
  push_cast
  split_ifs with h0
  · have h3 : (0 : ℝ) ≤ n := by exact_mod_cast h0.le
    have := mul_le_mul_of_nonneg_left log2_up.1 h3
    linarith
  · have h3 : (n : ℝ) ≤ 0 := by exact_mod_cast not_lt.1 h0
    have := mul_le_mul_of_nonpos_left log2_up.2 h3
    linarith

theorem expR_down (x : ℚ) : (expR down53 x : ℝ) ≤ x - expN down53 x * Real.log 2 := by
  set n := expN down53 x with hn
  have h1 : expR down53 x ≤ x + -n * (if 0 < n then nextOpp down53 log2 else nextRnd down53 log2) := by
    show R53.down (x + R53.down (-n * (if 0 < n then nextOpp down53 log2 else nextRnd down53 log2))) ≤ _
    have h2 := R53.down_le (-n * (if 0 < n then nextOpp down53 log2 else nextRnd down53 log2))
    exact (R53.down_le _).trans (by linarith)
  have h2 : (expR down53 x : ℝ) ≤ ((x + -n * (if 0 < n then nextOpp down53 log2 else nextRnd down53 log2) : ℚ) : ℝ) := by
    exact_mod_cast h1
  refine h2.trans ?_
  push_cast
  split_ifs with h0
  · have h3 : (0 : ℝ) ≤ n := by exact_mod_cast h0.le
    have := mul_le_mul_of_nonneg_left log2_down.2 h3
    linarith
  · have h3 : (n : ℝ) ≤ 0 := by exact_mod_cast not_lt.1 h0
    have := mul_le_mul_of_nonpos_left log2_down.1 h3
    linarith

theorem asserted {r : ℚ} (h : -(3602879701896397 / 2 ^ 53) ≤ r ∧ r ≤ 3602879701896397 / 2 ^ 53) :
    |r| ≤ 4001 / 10000 :=
  (abs_le.2 h).trans (by norm_num)

/-- **C87** (exponential, upwards).  The exponential rounded upwards is an upper bound up to a relative error of
`2^(-54)`.  Missing: the rest of the series is not added. -/
theorem C87_exp_up_partial {x r : ℚ} (h : expRnd up53 x = some r) : Real.exp x * (1 - 1 / 2 ^ 54) ≤ r := by
  unfold expRnd at h
  simp only at h
  split_ifs at h with h0 h1
  · obtain rfl := Option.some.inj h
    subst h0
    norm_num
  · obtain rfl := Option.some.inj h
    have h2 := exp_reduced_up R53 (asserted h1)
    have h3 : Real.exp (x - expN up53 x * Real.log 2) ≤ Real.exp (expR up53 x) := Real.exp_le_exp.2 (expR_up x)
    rw [exp_shift x (expN up53 x)]
    push_cast
    have h4 : (0 : ℝ) < 2 ^ expN up53 x := by positivity
    have h5 : Real.exp (x - expN up53 x * Real.log 2) * (1 - 1 / 2 ^ 54) ≤ expY up53 (expR up53 x) :=
      (mul_le_mul_of_nonneg_right h3 (by norm_num)).trans h2
    calc _ = Real.exp (x - expN up53 x * Real.log 2) * (1 - 1 / 2 ^ 54) * 2 ^ expN up53 x := by ring
      _ ≤ _ := mul_le_mul_of_nonneg_right h5 h4.le

/-- **C87** (exponential, downwards).  The exponential rounded downwards is a lower bound up to a relative error of
`2^(-54)`. -/
theorem C87_exp_down_partial {x r : ℚ} (h : expRnd down53 x = some r) : (r : ℝ) ≤ Real.exp x * (1 + 1 / 2 ^ 54) := by
  unfold expRnd at h
  simp only at h
  split_ifs at h with h0 h1
  · obtain rfl := Option.some.inj h
    subst h0
    norm_num
  · obtain rfl := Option.some.inj h
    have h2 := exp_reduced_down R53 (asserted h1)
    have h3 : Real.exp (expR down53 x) ≤ Real.exp (x - expN down53 x * Real.log 2) := Real.exp_le_exp.2 (expR_down x)
    rw [exp_shift x (expN down53 x)]
    push_cast
    have h4 : (0 : ℝ) < 2 ^ expN down53 x := by positivity
    have h5 : expY down53 (expR down53 x) ≤ Real.exp (x - expN down53 x * Real.log 2) * (1 + 1 / 2 ^ 54) :=
      h2.trans (mul_le_mul_of_nonneg_right h3 (by norm_num))
    calc _ ≤ Real.exp (x - expN down53 x * Real.log 2) * (1 + 1 / 2 ^ 54) * 2 ^ expN down53 x :=
        mul_le_mul_of_nonneg_right h5 h4.le
      _ = _ := by ring

/-! ## The assertions hold -/

/-- The relative error of the operations -/
def Accurate (m : Mode) : Prop := ∀ t, |m.rnd t - t| ≤ |t| / 2 ^ 52

theorem accurate_up : Accurate up53 := by
  intro t
  show |R53.up t - t| ≤ _
  rcases eq_or_ne t 0 with rfl | h
  · rw [R53.up_of_rep R53.rep_zero]
    simp
  · rw [abs_of_nonneg (sub_nonneg.2 (R53.le_up t))]
    refine (Ariadne.C45_relative_error 53 t h).2.le.trans (le_of_eq ?_)
    norm_num
    ring

theorem accurate_down : Accurate down53 := by
  intro t
  show |R53.down t - t| ≤ _
  rcases eq_or_ne t 0 with rfl | h
  · rw [R53.down_of_rep R53.rep_zero]
    simp
  · rw [abs_sub_comm, abs_of_nonneg (sub_nonneg.2 (R53.down_le t))]
    refine (Ariadne.C45_relative_error 53 t h).1.le.trans (le_of_eq ?_)
    norm_num
    ring

theorem expR_small {m : Mode} (hm : Accurate m) (h1 : |nextOpp m log2 - log2| ≤ 1 / 2 ^ 52)
    (h2 : |nextRnd m log2 - log2| ≤ 1 / 2 ^ 52) {x : ℚ} (hx : |x| ≤ 1024) : |expR m x| ≤ 2 / 5 := by
  have hl : log2 ≤ 7 / 10 ∧ 69 / 100 ≤ log2 := by norm_num [log2]
  have hl0 : 0 < log2 := by linarith [hl.2]
  -- the integer
  have a0 : |x / log2| ≤ 1500 := by
    rw [abs_div, abs_of_pos hl0, div_le_iff₀ hl0]
    linarith [hl.2]
  have a1 := hm (x / log2)
  have a2 : |m.rnd (x / log2) - x / log2| ≤ 1 / 2 ^ 40 := a1.trans (by
    rw [div_le_div_iff₀ (by norm_num) (by norm_num)]
    linarith)
  have a3 := hm (m.rnd (x / log2) + 1 / 2)
  have a4 : |m.rnd (x / log2) + 1 / 2| ≤ 1600 := by
    have := abs_le.1 a2
    have := abs_le.1 a0
    rw [abs_le]
    constructor <;> linarith
  have a5 : |m.rnd (m.rnd (x / log2) + 1 / 2) - (m.rnd (x / log2) + 1 / 2)| ≤ 1 / 2 ^ 40 := a3.trans (by
    rw [div_le_div_iff₀ (by norm_num) (by norm_num)]
    linarith)
  set n := expN m x with hn
  have f1 : (n : ℚ) ≤ m.rnd (m.rnd (x / log2) + 1 / 2) := Int.floor_le _
  have f2 : m.rnd (m.rnd (x / log2) + 1 / 2) < n + 1 := Int.lt_floor_add_one _
  have b1 : |x / log2 - n| ≤ 1 / 2 + 1 / 2 ^ 39 := by
    have := abs_le.1 a2
    have := abs_le.1 a5
    rw [abs_le]
    constructor <;> linarith
  have b2 : |(n : ℚ)| ≤ 1600 := by
    have := abs_le.1 b1
    have := abs_le.1 a0
    rw [abs_le]
    constructor <;> linarith
  have b3 : |x - n * log2| ≤ 36 / 100 := by
    have e : x - n * log2 = (x / log2 - n) * log2 := by field_simp
    rw [e, abs_mul, abs_of_pos hl0]
    refine (mul_le_mul b1 hl.1 hl0.le (by norm_num)).trans (by norm_num)
  -- the product
  set L := (if 0 < n then nextOpp m log2 else nextRnd m log2) with hL
  have c1 : |L - log2| ≤ 1 / 2 ^ 52 := by
    rw [hL]
    split_ifs
    · exact h1
    · exact h2
  have c2 : |-n * L - -n * log2| ≤ 1600 * (1 / 2 ^ 52) := by
    rw [← mul_sub, abs_mul, abs_neg]
    exact mul_le_mul b2 c1 (abs_nonneg _) (by norm_num)
  have c3 : |-(n : ℚ) * log2| ≤ 1600 := by
    rw [abs_mul, abs_neg, abs_of_pos hl0]
    have := mul_le_mul b2 (show log2 ≤ 1 by linarith [hl.1]) hl0.le (by norm_num)
    linarith
  have c4 : |-(n : ℚ) * L| ≤ 1700 := by
    have := abs_le.1 c2
    have := abs_le.1 c3
    rw [abs_le]
    constructor <;> linarith
  have c5 : |m.rnd (-n * L) - -n * L| ≤ 1 / 2 ^ 40 := (hm _).trans (by
    rw [div_le_div_iff₀ (by norm_num) (by norm_num)]
    linarith)
  have d1 : |x + m.rnd (-n * L)| ≤ 37 / 100 := by
    have := abs_le.1 b3
    have := abs_le.1 c2
    have := abs_le.1 c5
    rw [abs_le]
    constructor <;> linarith
  have d2 := hm (x + m.rnd (-n * L))
  have e : expR m x = m.rnd (x + m.rnd (-n * L)) := rfl
  rw [e]
  have d3 : |m.rnd (x + m.rnd (-n * L)) - (x + m.rnd (-n * L))| ≤ 1 / 2 ^ 52 := d2.trans (by
    rw [div_le_div_iff₀ (by norm_num) (by norm_num)]
    linarith)
  have := abs_le.1 d1
  have := abs_le.1 d3
  rw [abs_le]
  constructor <;> linarith

/-- **C87** (exponential, assertions).  The assertions hold for all numbers up to 1024 in absolute value; the
exponential of larger numbers overflows or underflows. -/
theorem C87_exp_defined {x : ℚ} (hx : |x| ≤ 1024) : (∃ r, expRnd up53 x = some r) ∧ ∃ r, expRnd down53 x = some r := by
  have key : ∀ m, |expR m x| ≤ 2 / 5 → ∃ r, expRnd m x = some r := by
    intro m h
    unfold expRnd
    by_cases h0 : x = 0
    · exact ⟨1, by rw [if_pos h0]⟩
    · have := abs_le.1 h
      refine ⟨expY m (expR m x) * 2 ^ expN m x, ?_⟩
      rw [if_neg h0]
      simp only
      rw [if_pos]
      constructor
      · have : (-(3602879701896397 / 2 ^ 53) : ℚ) ≤ -(2 / 5) := by norm_num
        linarith
      · have : (2 / 5 : ℚ) ≤ 3602879701896397 / 2 ^ 53 := by norm_num
        linarith
  exact ⟨key _ (expR_small accurate_up (by decide +kernel) (by decide +kernel) hx),
    key _ (expR_small accurate_down (by decide +kernel) (by decide +kernel) hx)⟩

/-- The exponential of one is computed in both modes. -/
example : (expRnd up53 1).isSome ∧ (expRnd down53 1).isSome ∧ (expRnd up53 (-7 / 2)).isSome := by decide +kernel

end Verif.Elementary
