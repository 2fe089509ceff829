import Verif.Elementary.Exp
import Mathlib.Analysis.SpecialFunctions.Log.Deriv

/-!
# C87: the rounded logarithm bounds the logarithm up to the rest of its series
-/

namespace Verif.Elementary

open Ariadne (Rounding)

/-! ## The series -/

theorem logPoly_eq (z : ℝ) : 2 * z * poly (z ^ 2) logCoeffs =
    ∑ k ∈ Finset.range 11, (2 : ℝ) * (1 / (2 * k + 1)) * z ^ (2 * k + 1) := by
  simp only [poly, logCoeffs, Finset.sum_range_succ, Finset.sum_range_zero]
  norm_num
  ring

/-- The polynomial is below the logarithm, and the rest is small. -/
theorem log_series {z : ℝ} (h0 : 0 ≤ z) (h1 : z ≤ 9 / 50) :
    2 * z * poly (z ^ 2) logCoeffs ≤ Real.log (1 + z) - Real.log (1 - z) ∧
      Real.log (1 + z) - Real.log (1 - z) ≤ 2 * z * poly (z ^ 2) logCoeffs + 1 / 2 ^ 59 := by
  have hs := Real.hasSum_log_sub_log_of_abs_lt_one (x := z) (by rw [abs_of_nonneg h0]; linarith)
  rw [logPoly_eq]
  constructor
  · exact sum_le_hasSum _ (fun k _ => by positivity) hs
  · have ht := (hasSum_nat_add_iff' 11).2 hs
    have hz2 : z ^ 2 < 1 := by nlinarith
    have hg := (hasSum_geometric_of_lt_one (sq_nonneg z) hz2).mul_left (2 * (1 / 23) * z ^ 23)
    have h2 := hasSum_le (fun k => ?_) ht hg
    · have h3 : 2 * (1 / 23) * z ^ 23 * (1 - z ^ 2)⁻¹ ≤ 1 / 2 ^ 59 := by
        have h4 : z ^ 23 ≤ (9 / 50) ^ 23 := pow_le_pow_left₀ h0 h1 23
        have h5 : (1 - z ^ 2)⁻¹ ≤ 2 := by
          rw [inv_le_comm₀ (by linarith) (by norm_num)]
          nlinarith
        have h6 : 2 * (1 / 23) * z ^ 23 * (1 - z ^ 2)⁻¹ ≤ 2 * (1 / 23) * (9 / 50) ^ 23 * 2 :=
          mul_le_mul (by linarith) h5 (by rw [inv_nonneg]; linarith) (by positivity)
        refine h6.trans ?_
        norm_num
      linarith
    · push_cast
      have e : z ^ (2 * (k + 11) + 1) = z ^ 23 * (z ^ 2) ^ k := by
        rw [← pow_mul, ← pow_add]
        congr 1
        ring
      rw [e, ← mul_assoc]
      have h4 : (1 : ℝ) / (2 * (k + 11) + 1) ≤ 1 / 23 := by
        apply one_div_le_one_div_of_le (by norm_num)
        have : (0 : ℝ) ≤ k := Nat.cast_nonneg k
        linarith
      gcongr

theorem logPoly_mono {s t : ℚ} (s0 : 0 ≤ s) (h : s ≤ t) (cs : List ℤ) (hc : ∀ c ∈ cs, 0 < c) :
    0 ≤ poly s cs ∧ poly s cs ≤ poly t cs := by
  induction cs with
  | nil => exact ⟨le_rfl, le_rfl⟩
  | cons c cs ih =>
    have h1 := ih (fun c h => hc c (List.mem_cons_of_mem _ h))
    have h2 : (0 : ℚ) < c := by exact_mod_cast hc c (by simp)
    rw [poly, poly]
    refine ⟨by have := h1.1; positivity, ?_⟩
    have := mul_le_mul h h1.2 h1.1 (s0.trans h)
    linarith

theorem logCoeffs_pos : ∀ c ∈ logCoeffs, (0 : ℤ) < c := by decide

/-- The polynomial `2 z w` (245-249) without rounding -/
def logPoly (z : ℚ) : ℚ := 2 * z * poly (z * z) logCoeffs

theorem logPoly_neg (z : ℚ) : logPoly (-z) = -logPoly z := by
  unfold logPoly
  rw [neg_mul_neg]
  ring

theorem logPoly_le {z z' : ℚ} (h0 : 0 ≤ z) (h : z ≤ z') : logPoly z ≤ logPoly z' := by
  unfold logPoly
  have h1 := logPoly_mono (mul_nonneg h0 h0) (mul_self_le_mul_self h0 h) logCoeffs logCoeffs_pos
  exact mul_le_mul (by linarith) h1.2 h1.1 (by linarith)

/-- The logarithm and the polynomial, for the argument `z=(y-1)/(y+1)` -/
theorem log_of_z {y : ℚ} (hy : 0 < y) :
    Real.log y = Real.log (1 + ((y - 1) / (y + 1) : ℚ)) - Real.log (1 - ((y - 1) / (y + 1) : ℚ)) := by
  have hy' : (0 : ℝ) < y := by exact_mod_cast hy
  have e1 : (1 : ℝ) + ((y - 1) / (y + 1) : ℚ) = 2 * y / (y + 1) := by
    push_cast
    field_simp
    ring
  have e2 : (1 : ℝ) - ((y - 1) / (y + 1) : ℚ) = 2 / (y + 1) := by
    push_cast
    field_simp
    ring
  rw [e1, e2, ← Real.log_div (by positivity) (by positivity)]
  congr 1
  field_simp

theorem logPoly_cast (z : ℚ) : ((logPoly z : ℚ) : ℝ) = 2 * z * poly ((z : ℝ) ^ 2) logCoeffs := by
  unfold logPoly
  push_cast [poly_cast]
  rw [← sq]

theorem log_pos_bounds {y : ℚ} (h0 : 1 ≤ y) (h1 : y ≤ 1 / (7 / 10)) :
    ((logPoly ((y - 1) / (y + 1)) : ℚ) : ℝ) ≤ Real.log y ∧
      Real.log y ≤ ((logPoly ((y - 1) / (y + 1)) : ℚ) : ℝ) + 1 / 2 ^ 59 := by
  have z0 : 0 ≤ (y - 1) / (y + 1) := div_nonneg (by linarith) (by linarith)
  have z1 : (y - 1) / (y + 1) ≤ 9 / 50 := by
    rw [div_le_iff₀ (by linarith)]
    norm_num at h1
    linarith
  rw [log_of_z (by linarith), logPoly_cast]
  exact log_series (by exact_mod_cast z0) (by
    have : (((y - 1) / (y + 1) : ℚ) : ℝ) ≤ ((9 / 50 : ℚ) : ℝ) := by exact_mod_cast z1
    push_cast at this ⊢
    exact this)

theorem log_neg_bounds {y : ℚ} (h0 : 7 / 10 ≤ y) (h1 : y ≤ 1) :
    Real.log y ≤ ((logPoly ((y - 1) / (y + 1)) : ℚ) : ℝ) ∧
      ((logPoly ((y - 1) / (y + 1)) : ℚ) : ℝ) - 1 / 2 ^ 59 ≤ Real.log y := by
  have e : (y - 1) / (y + 1) = -((1 - y) / (y + 1)) := by ring
  have z0 : 0 ≤ (1 - y) / (y + 1) := div_nonneg (by linarith) (by linarith)
  have z1 : (1 - y) / (y + 1) ≤ 9 / 50 := by
    rw [div_le_iff₀ (by linarith)]
    linarith
  have := log_series (z := (((1 - y) / (y + 1) : ℚ) : ℝ)) (by exact_mod_cast z0) (by
    have : (((1 - y) / (y + 1) : ℚ) : ℝ) ≤ ((9 / 50 : ℚ) : ℝ) := by exact_mod_cast z1
    push_cast at this ⊢
    exact this)
  rw [← logPoly_cast] at this
  rw [log_of_z (by linarith), e, logPoly_neg]
  push_cast at this ⊢
  have e2 : (1 : ℝ) + -((1 - (y : ℝ)) / (y + 1)) = 1 - (1 - (y : ℝ)) / (y + 1) := by ring
  have e3 : (1 : ℝ) - -((1 - (y : ℝ)) / (y + 1)) = 1 + (1 - (y : ℝ)) / (y + 1) := by ring
  rw [e2, e3]
  constructor <;> linarith [this.1, this.2]

/-! ## The rounded polynomial -/

variable (R : Rounding ℚ)

theorem logY_up_pos {y : ℚ} (h : 1 ≤ y) : logPoly ((y - 1) / (y + 1)) ≤ logY (upward R) y := by
  unfold logY
  rw [if_pos h]
  simp only
  have e : (upward R).rnd = R.up := rfl
  rw [e, show -1 - y = -(1 + y) by ring, R.up_neg, neg_neg]
  set z := R.up (R.up (y - 1) / R.down (1 + y)) with hz
  have hd : 1 ≤ R.down (1 + y) := R.down_max _ _ R.rep_one (by linarith)
  have hz1 : (y - 1) / (y + 1) ≤ z := by
    refine le_trans ?_ (R.le_up _)
    refine div_le_div₀ ((by linarith : (0 : ℚ) ≤ y - 1).trans (R.le_up _)) (R.le_up _) (by linarith) ?_
    rw [add_comm y 1]
    exact R.down_le _
  have hz0 : 0 ≤ z := (div_nonneg (by linarith) (by linarith)).trans hz1
  refine (logPoly_le (div_nonneg (by linarith) (by linarith)) hz1).trans ?_
  refine le_trans ?_ (R.le_up _)
  have h1 := poly_le_horner (m := upward R) (fun t => R.le_up t) ((mul_self_nonneg z).trans (R.le_up _)) logCoeffs
  have h2 := logPoly_mono (mul_self_nonneg z) (R.le_up (z * z)) logCoeffs logCoeffs_pos
  exact mul_le_mul (R.le_up _) (h2.2.trans h1) h2.1 ((by linarith : (0 : ℚ) ≤ 2 * z).trans (R.le_up _))

theorem logY_down_pos {y : ℚ} (h : 1 ≤ y) : logY (downward R) y ≤ logPoly ((y - 1) / (y + 1)) := by
  unfold logY
  rw [if_pos h]
  simp only
  have e : (downward R).rnd = R.down := rfl
  rw [e, show -1 - y = -(1 + y) by ring, R.down_neg, neg_neg]
  set z := R.down (R.down (y - 1) / R.up (1 + y)) with hz
  have hn : 0 ≤ R.down (y - 1) := R.down_max _ _ R.rep_zero (by linarith)
  have hu : 1 + y ≤ R.up (1 + y) := R.le_up _
  have hz1 : z ≤ (y - 1) / (y + 1) := by
    refine (R.down_le _).trans ?_
    refine div_le_div₀ (by linarith) (R.down_le _) (by linarith) ?_
    rw [add_comm y 1]
    exact hu
  have hz0 : 0 ≤ z := R.down_max _ _ R.rep_zero (div_nonneg hn (by linarith))
  refine le_trans ?_ (logPoly_le hz0 hz1)
  refine (R.down_le _).trans ?_
  have hs : 0 ≤ R.down (z * z) := R.down_max _ _ R.rep_zero (mul_self_nonneg z)
  have h1 := horner_le_poly (m := downward R) (fun t => R.down_le t) hs logCoeffs
  have h2 := logPoly_mono hs (R.down_le (z * z)) logCoeffs logCoeffs_pos
  have h3 : 0 ≤ R.down (2 * z) := R.down_max _ _ R.rep_zero (by linarith)
  have h4 := mul_le_mul_of_nonneg_left (h1.trans h2.2) h3
  have h5 := mul_le_mul_of_nonneg_right (R.down_le (2 * z)) (h2.1.trans h2.2)
  exact h4.trans h5

theorem logY_up_neg {y : ℚ} (h0 : 0 < y) (h : y < 1) (hr : R.Rep (1 - y)) :
    logPoly ((y - 1) / (y + 1)) ≤ logY (upward R) y := by
  unfold logY
  rw [if_neg (not_le.2 h)]
  simp only
  have e : (upward R).rnd = R.up := rfl
  rw [e, R.up_of_rep hr, neg_sub]
  set z := R.up ((y - 1) / R.up (1 + y)) with hz
  have hu : 1 + y ≤ R.up (1 + y) := R.le_up _
  have hz1 : (y - 1) / (y + 1) ≤ z := by
    refine le_trans ?_ (R.le_up _)
    rw [div_le_div_iff₀ (by linarith) (by linarith)]
    nlinarith
  have hz0 : z ≤ 0 := R.up_min _ _ R.rep_zero (div_nonpos_of_nonpos_of_nonneg (by linarith) (by linarith))
  have hm : logPoly ((y - 1) / (y + 1)) ≤ logPoly z := by
    have := logPoly_le (z := -z) (z' := -((y - 1) / (y + 1))) (by linarith) (by linarith)
    rw [logPoly_neg, logPoly_neg] at this
    linarith
  refine hm.trans ((R.le_up _).trans' ?_)
  have e2 : -R.up (-z * z) = R.down (z * z) := by rw [neg_mul, R.up_neg, neg_neg]
  rw [e2]
  have hs : 0 ≤ R.down (z * z) := R.down_max _ _ R.rep_zero (mul_self_nonneg z)
  have h1 := hornerOpp_le (m := upward R) (fun t => R.le_up t) hs logCoeffs
  have h2 := logPoly_mono hs (R.down_le (z * z)) logCoeffs logCoeffs_pos
  have h3 : R.up (2 * z) ≤ 0 := R.up_min _ _ R.rep_zero (by linarith)
  have h4 := mul_le_mul_of_nonpos_left (h1.trans h2.2) h3
  have h5 := mul_le_mul_of_nonneg_right (R.le_up (2 * z)) (h2.1.trans h2.2)
  exact h5.trans h4

theorem logY_down_neg {y : ℚ} (h0 : 0 < y) (h : y < 1) (hr : R.Rep (1 - y)) :
    logY (downward R) y ≤ logPoly ((y - 1) / (y + 1)) := by
  unfold logY
  rw [if_neg (not_le.2 h)]
  simp only
  have e : (downward R).rnd = R.down := rfl
  rw [e, R.down_of_rep hr, neg_sub]
  set z := R.down ((y - 1) / R.down (1 + y)) with hz
  have hd : 1 ≤ R.down (1 + y) := R.down_max _ _ R.rep_one (by linarith)
  have hd2 : R.down (1 + y) ≤ 1 + y := R.down_le _
  have hz1 : z ≤ (y - 1) / (y + 1) := by
    refine (R.down_le _).trans ?_
    rw [div_le_div_iff₀ (by linarith) (by linarith)]
    nlinarith
  have hzz : (y - 1) / (y + 1) ≤ 0 := div_nonpos_of_nonpos_of_nonneg (by linarith) (by linarith)
  have hm : logPoly z ≤ logPoly ((y - 1) / (y + 1)) := by
    have := logPoly_le (z := -((y - 1) / (y + 1))) (z' := -z) (by linarith) (by linarith)
    rw [logPoly_neg, logPoly_neg] at this
    linarith
  refine ((R.down_le _).trans ?_).trans hm
  have e2 : -R.down (-z * z) = R.up (z * z) := by rw [neg_mul, R.down_neg, neg_neg]
  rw [e2]
  have h1 := le_hornerOpp (m := downward R) (fun t => R.down_le t) ((mul_self_nonneg z).trans (R.le_up _)) logCoeffs
  have h2 := logPoly_mono (mul_self_nonneg z) (R.le_up (z * z)) logCoeffs logCoeffs_pos
  have h3 : R.down (2 * z) ≤ 0 := (R.down_le _).trans (by linarith)
  have h4 := mul_le_mul_of_nonpos_left (h2.2.trans h1) h3
  have h5 := mul_le_mul_of_nonneg_right (R.down_le (2 * z)) h2.1
  exact h4.trans h5

/-! ## The argument -/

theorem rep_one_sub {y : ℚ} (hr : R53.Rep y) (h0 : 1 / 2 ≤ y) (h1 : y < 1) : R53.Rep (1 - y) := by
  obtain ⟨k, e, hy, hk⟩ := hr
  have hk' : |(k : ℚ)| < 2 ^ 53 := by exact_mod_cast hk
  have he : -53 ≤ e := by
    by_contra hc
    have h2 : (2 : ℚ) ^ e ≤ 2 ^ (-54 : ℤ) := zpow_le_zpow_right₀ (by norm_num) (by omega)
    have h4 : (k : ℚ) * 2 ^ e < 1 / 2 := by
      have h5 : (k : ℚ) * 2 ^ e < 2 ^ 53 * 2 ^ e := by
        have : (k : ℚ) < 2 ^ 53 := (le_abs_self _).trans_lt hk'
        have : (0 : ℚ) < 2 ^ e := by positivity
        nlinarith
      have h6 : (2 : ℚ) ^ 53 * 2 ^ e ≤ 2 ^ 53 * 2 ^ (-54 : ℤ) := by linarith
      have h7 : (2 : ℚ) ^ 53 * 2 ^ (-54 : ℤ) = 1 / 2 := by norm_num
      exact (h5.trans_le h6).trans_eq h7
    rw [← hy] at h4
    exact absurd h4 (not_lt.2 h0)
  have e1 : (2 : ℚ) ^ e = 2 ^ (e + 53).toNat * 2 ^ (-53 : ℤ) := by
    rw [← zpow_natCast, ← zpow_add₀ (by norm_num), Int.toNat_of_nonneg (by omega)]
    congr 1
    ring
  refine rep53 (2 ^ 53 - k * 2 ^ (e + 53).toNat) (-53) ?_ ?_
  · rw [hy, e1]
    have : (1 : ℚ) = 2 ^ 53 * 2 ^ (-53 : ℤ) := by norm_num
    nth_rw 1 [this]
    push_cast
    ring
  · have h2 : y = ((k * 2 ^ (e + 53).toNat : ℤ) : ℚ) / 2 ^ 53 := by
      rw [hy, e1]
      push_cast
      rw [zpow_neg, div_eq_mul_inv]
      norm_num
      ring
    rw [h2] at h0 h1
    rw [div_lt_one (by norm_num)] at h1
    rw [le_div_iff₀ (by norm_num)] at h0
    have h3 : k * 2 ^ (e + 53).toNat < (2 : ℤ) ^ 53 := by exact_mod_cast h1
    have h4 : (0 : ℤ) < k * 2 ^ (e + 53).toNat := by
      have : (0 : ℚ) < ((k * 2 ^ (e + 53).toNat : ℤ) : ℚ) := lt_of_lt_of_le (by norm_num) h0
      exact_mod_cast this
    rw [abs_lt]
    constructor <;> linarith

theorem logArg_spec {m : Mode} (hm : ∀ t, R53.Rep t → m.rnd t = t) {x : ℚ} (hx : R53.Rep x) (h0 : 0 < x) :
    x = (logArg m x).1 * 2 ^ (logArg m x).2 ∧ R53.Rep (logArg m x).1 ∧ 7 / 10 ≤ (logArg m x).1 ∧
      (logArg m x).1 ≤ 1 / (7 / 10) := by
  set e := Int.log 2 x + 1 with he
  have hy1 : 1 / 2 ≤ x / 2 ^ e := by
    have := Int.zpow_log_le_self (b := 2) (r := x) (by norm_num) h0
    rw [le_div_iff₀ (by positivity), he, zpow_add₀ (by norm_num)]
    push_cast at this
    linarith
  have hy2 : x / 2 ^ e < 1 := by
    have := Int.lt_zpow_succ_log_self (b := 2) (by norm_num) x
    rw [div_lt_one (by positivity), he]
    exact_mod_cast this
  have hrep : R53.Rep (x / 2 ^ e) := by
    obtain ⟨k, f, hk, hk2⟩ := hx
    refine ⟨k, f - e, ?_, hk2⟩
    rw [hk, zpow_sub₀ (by norm_num)]
    ring
  have hf : frexp x = (x / 2 ^ e, e) := rfl
  unfold logArg
  rw [hf]
  simp only
  split_ifs with hs
  · have hr2 : R53.Rep (x / 2 ^ e * 2) := by
      rw [mul_comm]
      exact R53.rep_two _ hrep
    rw [hm _ hr2]
    refine ⟨?_, hr2, ?_, ?_⟩
    · simp only
      rw [zpow_sub₀ (by norm_num)]
      field_simp
    · simp only
      linarith
    · simp only
      have : sqrtHalf ≤ 71 / 100 := by norm_num [sqrtHalf]
      norm_num
      linarith
  · refine ⟨?_, hrep, ?_, ?_⟩
    · simp only
      field_simp
    · simp only
      have : 7 / 10 ≤ sqrtHalf := by norm_num [sqrtHalf]
      linarith
    · simp only
      norm_num
      linarith

theorem log_split {x y : ℚ} {n : ℤ} (hy : 0 < y) (h : x = y * 2 ^ n) : Real.log x = n * Real.log 2 + Real.log y := by
  have hy' : (0 : ℝ) < y := by exact_mod_cast hy
  rw [h]
  push_cast
  rw [Real.log_mul hy'.ne' (by positivity), Real.log_zpow]
  ring

/-- **C87** (logarithm, upwards).  The logarithm of every positive double, rounded upwards, is an upper bound up to
`2^(-59)`.  Missing: the rest of the series is not added. -/
theorem C87_log_up_partial {x : ℚ} (hx : Ariadne.PBit.Rep 53 x) (h0 : 0 < x) :
    ∃ r : ℚ, logRnd up53 x = .val r ∧ Real.log x ≤ r + 1 / 2 ^ 59 := by
  unfold logRnd
  rw [if_neg (not_lt.2 h0.le), if_neg h0.ne']
  by_cases h1 : x = 1
  · refine ⟨0, by rw [if_pos h1], ?_⟩
    rw [h1]
    norm_num
  rw [if_neg h1]
  simp only
  refine ⟨_, rfl, ?_⟩
  obtain ⟨hxy, hrep, hl, hu⟩ := logArg_spec (m := up53) (fun t h => R53.up_of_rep h) hx h0
  set y := (logArg up53 x).1 with hy
  set n := (logArg up53 x).2 with hn
  have hy0 : 0 < y := by linarith
  rw [log_split hy0 hxy]
  have h2 : Real.log y ≤ (logY up53 y : ℝ) + 1 / 2 ^ 59 := by
    rcases lt_or_ge y 1 with hlt | hge
    · have h3 := (log_neg_bounds hl hlt.le).1
      have h4 := logY_up_neg R53 hy0 hlt (rep_one_sub hrep (by linarith) hlt)
      have h5 : ((logPoly ((y - 1) / (y + 1)) : ℚ) : ℝ) ≤ (logY up53 y : ℝ) := by exact_mod_cast h4
      have h6 : (0 : ℝ) ≤ 1 / 2 ^ 59 := by norm_num
      linarith
    · have h3 := (log_pos_bounds hge hu).2
      have h4 := logY_up_pos R53 hge
      have h5 : ((logPoly ((y - 1) / (y + 1)) : ℚ) : ℝ) ≤ (logY up53 y : ℝ) := by exact_mod_cast h4
      linarith
  set l := (if 0 ≤ n then nextRnd up53 log2 else nextOpp up53 log2) with hldef
  have h3 : (n : ℝ) * Real.log 2 ≤ ((l * n : ℚ) : ℝ) := by
    push_cast
    rw [hldef]
    split_ifs with hn0
    · have : (0 : ℝ) ≤ n := by exact_mod_cast hn0
      have := mul_le_mul_of_nonneg_left log2_up.2 this
      linarith
    · have : (n : ℝ) ≤ 0 := by exact_mod_cast (not_le.1 hn0).le
      have := mul_le_mul_of_nonpos_left log2_up.1 this
      linarith
  have h4 : l * n + logY up53 y ≤ up53.rnd (up53.rnd (l * n) + logY up53 y) := by
    have h5 : l * n ≤ up53.rnd (l * n) := R53.le_up _
    have h6 : up53.rnd (l * n) + logY up53 y ≤ up53.rnd (up53.rnd (l * n) + logY up53 y) := R53.le_up _
    linarith
  have h5 : ((l * n : ℚ) : ℝ) + (logY up53 y : ℝ) ≤ (up53.rnd (up53.rnd (l * n) + logY up53 y) : ℚ) := by
    exact_mod_cast h4
  linarith

/-- **C87** (logarithm, downwards).  The logarithm of every positive double, rounded downwards, is a lower bound up to
`2^(-59)`. -/
theorem C87_log_down_partial {x : ℚ} (hx : Ariadne.PBit.Rep 53 x) (h0 : 0 < x) :
    ∃ r : ℚ, logRnd down53 x = .val r ∧ r ≤ Real.log x + 1 / 2 ^ 59 := by
  unfold logRnd
  rw [if_neg (not_lt.2 h0.le), if_neg h0.ne']
  by_cases h1 : x = 1
  · refine ⟨0, by rw [if_pos h1], ?_⟩
    rw [h1]
    norm_num
  rw [if_neg h1]
  simp only
  refine ⟨_, rfl, ?_⟩
  obtain ⟨hxy, hrep, hl, hu⟩ := logArg_spec (m := down53) (fun t h => R53.down_of_rep h) hx h0
  set y := (logArg down53 x).1 with hy
  set n := (logArg down53 x).2 with hn
  have hy0 : 0 < y := by linarith
  rw [log_split hy0 hxy]
  have h2 : (logY down53 y : ℝ) ≤ Real.log y + 1 / 2 ^ 59 := by
    rcases lt_or_ge y 1 with hlt | hge
    · have h3 := (log_neg_bounds hl hlt.le).2
      have h4 := logY_down_neg R53 hy0 hlt (rep_one_sub hrep (by linarith) hlt)
      have h5 : (logY down53 y : ℝ) ≤ ((logPoly ((y - 1) / (y + 1)) : ℚ) : ℝ) := by exact_mod_cast h4
      linarith
    · have h3 := (log_pos_bounds hge hu).1
      have h4 := logY_down_pos R53 hge
      have h5 : (logY down53 y : ℝ) ≤ ((logPoly ((y - 1) / (y + 1)) : ℚ) : ℝ) := by exact_mod_cast h4
      have h6 : (0 : ℝ) ≤ 1 / 2 ^ 59 := by norm_num
      linarith
  set l := (if 0 ≤ n then nextRnd down53 log2 else nextOpp down53 log2) with hldef
  have h3 : ((l * n : ℚ) : ℝ) ≤ (n : ℝ) * Real.log 2 := by
    push_cast
    rw [hldef]
    split_ifs with hn0
    · have : (0 : ℝ) ≤ n := by exact_mod_cast hn0
      have := mul_le_mul_of_nonneg_left log2_down.1 this
      linarith
    · have : (n : ℝ) ≤ 0 := by exact_mod_cast (not_le.1 hn0).le
      have := mul_le_mul_of_nonpos_left log2_down.2 this
      linarith
  have h4 : down53.rnd (down53.rnd (l * n) + logY down53 y) ≤ l * n + logY down53 y := by
    have h5 : down53.rnd (l * n) ≤ l * n := R53.down_le _
    have h6 : down53.rnd (down53.rnd (l * n) + logY down53 y) ≤ down53.rnd (l * n) + logY down53 y := R53.down_le _
    linarith
  have h5 : ((down53.rnd (down53.rnd (l * n) + logY down53 y) : ℚ) : ℝ) ≤ ((l * n : ℚ) : ℝ) + (logY down53 y : ℝ) := by
    exact_mod_cast h4
  linarith

/-- The logarithm of three in both modes -/
example : Ariadne.PBit.Rep 53 (3 : ℚ) ∧ ∃ a b, logRnd down53 3 = .val a ∧ logRnd up53 3 = .val b ∧ a < b ∧
    b - a ≤ 1 / 2 ^ 50 := by
  refine ⟨⟨3, 0, by norm_num, by norm_num⟩, ?_⟩
  refine ⟨4947709893870344 / 2 ^ 52, 4947709893870348 / 2 ^ 52, ?_⟩
  decide +kernel

end Verif.Elementary
