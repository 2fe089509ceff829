import Verif.Elementary.Cos
import Mathlib.Analysis.SpecialFunctions.Trigonometric.Bounds

/-!
# C86: the cosine of numbers between 12/5 and 3, in double precision

Here the argument of the series is rounded in the wrong direction, so that the results are bounds only up to an error of
two units in the last place (`C86_cos_up` and `C86_cos_down` show that they are not bounds).
-/

namespace Verif.Elementary

open Ariadne (Rounding)

theorem quarter_three {x : ℚ} (h0 : 12 / 5 ≤ x) (h1 : x ≤ 3) : 3 ≤ x / quarterPi ∧ x / quarterPi ≤ 31 / 8 := by
  have hq : (0 : ℚ) < quarterPi := by norm_num [quarterPi]
  constructor
  · rw [le_div_iff₀ hq]
    refine le_trans ?_ h0
    norm_num [quarterPi]
  · rw [div_le_iff₀ hq]
    refine h1.trans ?_
    norm_num [quarterPi]

theorem octant_three {t : ℚ} (h0 : 3 ≤ t) (h1 : t ≤ 31 / 8) : Int.tmod ⌊t⌋ 8 = 3 := by
  have : ⌊t⌋ = 3 := by
    rw [Int.floor_eq_iff]
    constructor
    · exact_mod_cast h0
    · push_cast
      linarith
  rw [this]
  rfl

theorem div_pi_large {x p : ℚ} (h0 : 12 / 5 ≤ x) (h1 : x ≤ 3) (hp : 3141 / 1000 < p) :
    0 ≤ x / p ∧ x / p ≤ 31 / 32 := by
  have hp0 : 0 < p := by linarith
  refine ⟨div_nonneg (by linarith) hp0.le, ?_⟩
  rw [div_le_iff₀ hp0]
  linarith

theorem floor_zero' {t : ℚ} (h0 : 0 ≤ t) (h1 : t ≤ 31 / 32) : ⌊t⌋ = 0 := by
  rw [Int.floor_eq_iff]
  constructor
  · exact_mod_cast h0
  · push_cast
    linarith

theorem cosRnd_up_large {x : ℚ} (hx : R53.Rep x) (h0 : 12 / 5 ≤ x) (h1 : x ≤ 3) :
    cosRnd up53 x = negCos up53 (R53.down (piDown - x)) := by
  have e1 : ⌊up53.rnd (x / up53.piOpp)⌋ = 0 := by
    have h := div_pi_large (p := piDown) h0 h1 (by norm_num [piDown])
    exact floor_zero' (h.1.trans (R53.le_up _)) (R53.up_min _ _ (rep53 31 (-5) (by norm_num) (by norm_num)) h.2)
  have e2 : ⌊up53.opp (x / up53.piRnd)⌋ = 0 := by
    have h := div_pi_large (p := piUp) h0 h1 (by norm_num [piUp])
    have e : up53.opp (x / up53.piRnd) = R53.down (x / piUp) := by
      show -R53.up (-(x / piUp)) = _
      rw [R53.up_neg, neg_neg]
    rw [e]
    exact floor_zero' (R53.down_max _ _ R53.rep_zero h.1) ((R53.down_le _).trans h.2)
  have e3 : cosY up53 0 x = x := by
    unfold cosY
    rw [if_pos (by norm_num)]
    show -R53.up (-(x - R53.up ((0 : ℤ) * up53.piRnd))) = x
    rw [Int.cast_zero, zero_mul, R53.up_of_rep R53.rep_zero, sub_zero, R53.up_neg, R53.down_of_rep hx, neg_neg]
  have h2 := quarter_three h0 h1
  have e4 : Int.tmod ⌊up53.rnd (x / quarterPi)⌋ 8 = 3 :=
    octant_three (h2.1.trans (R53.le_up _)) (R53.up_min _ _ (rep53 31 (-3) (by norm_num) (by norm_num)) h2.2)
  have e5 : up53.opp (up53.piOpp - x) = R53.down (piDown - x) := by
    show -R53.up (-(piDown - x)) = _
    rw [R53.up_neg, neg_neg]
  unfold cosRnd
  rw [if_neg (by linarith)]
  simp only
  rw [e1, e2, if_pos rfl, e3]
  unfold cosReduced
  simp only
  rw [e4, e5]
  rfl

theorem cosRnd_down_large {x : ℚ} (hx : R53.Rep x) (h0 : 12 / 5 ≤ x) (h1 : x ≤ 3) :
    cosRnd down53 x = negCos down53 (R53.up (piUp - x)) := by
  have e1 : ⌊down53.rnd (x / down53.piOpp)⌋ = 0 := by
    have h := div_pi_large (p := piUp) h0 h1 (by norm_num [piUp])
    exact floor_zero' (R53.down_max _ _ R53.rep_zero h.1) ((R53.down_le _).trans h.2)
  have e2 : ⌊down53.opp (x / down53.piRnd)⌋ = 0 := by
    have h := div_pi_large (p := piDown) h0 h1 (by norm_num [piDown])
    have e : down53.opp (x / down53.piRnd) = R53.up (x / piDown) := by
      show -R53.down (-(x / piDown)) = _
      rw [R53.down_neg, neg_neg]
    rw [e]
    exact floor_zero' (h.1.trans (R53.le_up _)) (R53.up_min _ _ (rep53 31 (-5) (by norm_num) (by norm_num)) h.2)
  have e3 : cosY down53 0 x = x := by
    unfold cosY
    rw [if_pos (by norm_num)]
    show -R53.down (-(x - R53.down ((0 : ℤ) * down53.piRnd))) = x
    rw [Int.cast_zero, zero_mul, R53.down_of_rep R53.rep_zero, sub_zero, R53.down_neg, R53.up_of_rep hx, neg_neg]
  have h2 := quarter_three h0 h1
  have e4 : Int.tmod ⌊down53.rnd (x / quarterPi)⌋ 8 = 3 :=
    octant_three (R53.down_max _ _ (rep53 3 0 (by norm_num) (by norm_num)) h2.1) ((R53.down_le _).trans h2.2)
  have e5 : down53.opp (down53.piOpp - x) = R53.up (piUp - x) := by
    show -R53.down (-(piUp - x)) = _
    rw [R53.down_neg, neg_neg]
  unfold cosRnd
  rw [if_neg (by linarith)]
  simp only
  rw [e1, e2, if_pos rfl, e3]
  unfold cosReduced
  simp only
  rw [e4, e5]
  rfl

/-- **C86** (cosine).  For doubles between 12/5 and 3, the cosine rounded upwards is defined, and an upper bound up to
`2^(-50)`.  Missing: the error of the reduction. -/
theorem C86_cos_up_large_partial {x : ℚ} (hx : Ariadne.PBit.Rep 53 x) (h0 : 12 / 5 ≤ x) (h1 : x ≤ 3) :
    ∃ r, cosRnd up53 x = some r ∧ Real.cos x ≤ r + 1 / 2 ^ 50 := by
  rw [cosRnd_up_large hx h0 h1]
  have ht0 : 0 ≤ piDown - x := by
    have : (3 : ℚ) ≤ piDown := by norm_num [piDown]
    linarith
  have ht1 : piDown - x ≤ 3 / 4 := by
    have : piDown ≤ 3 / 4 + 12 / 5 := by norm_num [piDown]
    linarith
  have hz0 : 0 ≤ R53.down (piDown - x) := R53.down_max _ _ R53.rep_zero ht0
  have hz1 : R53.down (piDown - x) ≤ piDown - x := R53.down_le _
  have hz2 := down_error ht0
  have hd : SeriesDom (R53.down (piDown - x)) :=
    ⟨hz0, hz1.trans (ht1.trans (by norm_num [seriesMax]))⟩
  obtain ⟨r, hr⟩ : ∃ r, negCos up53 (R53.down (piDown - x)) = some r := ⟨_, if_pos hd⟩
  refine ⟨r, hr, ?_⟩
  have h2 := C86_neg_cos_up_partial R53 hr
  have h3 := (series_small hd).2
  have h3' : (((R53.down (piDown - x)) ^ 18 / (18).factorial : ℚ) : ℝ) ≤ ((1 / 2 ^ 58 : ℚ) : ℝ) := by
    exact_mod_cast h3
  push_cast at h3'
  have h4 := Real.abs_cos_sub_cos_le (R53.down (piDown - x) : ℝ) (Real.pi - x)
  rw [Real.cos_pi_sub] at h4
  have hz2' : ((piDown - x - R53.down (piDown - x) : ℚ) : ℝ) ≤ ((3 / 4 / 2 ^ 52 : ℚ) : ℝ) := by
    have : piDown - x - R53.down (piDown - x) ≤ 3 / 4 / 2 ^ 52 := by
      have : (piDown - x) / 2 ^ 52 ≤ 3 / 4 / 2 ^ 52 := by gcongr
      linarith
    exact_mod_cast this
  have hz1' : ((R53.down (piDown - x) : ℚ) : ℝ) ≤ ((piDown - x : ℚ) : ℝ) := by exact_mod_cast hz1
  push_cast at hz2' hz1'
  have hpi := lt_pi
  have hpi2 : Real.pi ≤ (piDown : ℝ) + 1 / 2 ^ 51 := by
    have := Real.pi_lt_d20
    refine this.le.trans ?_
    norm_num [piDown]
  have h5 : |(R53.down (piDown - x) : ℝ) - (Real.pi - x)| ≤ 3 / 4 / 2 ^ 52 + 1 / 2 ^ 51 := by
    rw [abs_le]
    constructor <;> linarith
  have h6 := (abs_le.1 (h4.trans h5)).2
  have h7 : (3 : ℝ) / 4 / 2 ^ 52 + 1 / 2 ^ 51 + 1 / 2 ^ 58 ≤ 1 / 2 ^ 50 := by norm_num
  linarith

/-- **C86** (cosine).  For doubles between 12/5 and 3, the cosine rounded downwards is defined, and a lower bound up to
`2^(-50)`. -/
theorem C86_cos_down_large_partial {x : ℚ} (hx : Ariadne.PBit.Rep 53 x) (h0 : 12 / 5 ≤ x) (h1 : x ≤ 3) :
    ∃ r : ℚ, cosRnd down53 x = some r ∧ r ≤ Real.cos x + 1 / 2 ^ 50 := by
  rw [cosRnd_down_large hx h0 h1]
  have ht0 : 0 ≤ piUp - x := by
    have : (3 : ℚ) ≤ piUp := by norm_num [piUp]
    linarith
  have ht1 : piUp - x ≤ 3 / 4 := by
    have : piUp ≤ 3 / 4 + 12 / 5 := by norm_num [piUp]
    linarith
  have hz1 : piUp - x ≤ R53.up (piUp - x) := R53.le_up _
  have hz0 : 0 ≤ R53.up (piUp - x) := ht0.trans hz1
  have hz2 := up_error ht0
  have hd : SeriesDom (R53.up (piUp - x)) :=
    ⟨hz0, (R53.up_min _ _ (rep53 3 (-2) (by norm_num) (by norm_num)) ht1).trans (by norm_num [seriesMax])⟩
  obtain ⟨r, hr⟩ : ∃ r, negCos down53 (R53.up (piUp - x)) = some r := ⟨_, if_pos hd⟩
  refine ⟨r, hr, ?_⟩
  have h2 := C86_neg_cos_down R53 hr
  have h4 := Real.abs_cos_sub_cos_le (R53.up (piUp - x) : ℝ) (Real.pi - x)
  rw [Real.cos_pi_sub] at h4
  have hz2' : ((R53.up (piUp - x) - (piUp - x) : ℚ) : ℝ) ≤ ((3 / 4 / 2 ^ 52 : ℚ) : ℝ) := by
    have : R53.up (piUp - x) - (piUp - x) ≤ 3 / 4 / 2 ^ 52 := by
      have : (piUp - x) / 2 ^ 52 ≤ 3 / 4 / 2 ^ 52 := by gcongr
      linarith
    exact_mod_cast this
  have hz1' : ((piUp - x : ℚ) : ℝ) ≤ ((R53.up (piUp - x) : ℚ) : ℝ) := by exact_mod_cast hz1
  push_cast at hz2' hz1'
  have hpi := pi_lt
  have hpi2 : (piUp : ℝ) - 1 / 2 ^ 51 ≤ Real.pi := by
    have := Real.pi_gt_d20
    refine le_trans ?_ this.le
    norm_num [piUp]
  have h5 : |(R53.up (piUp - x) : ℝ) - (Real.pi - x)| ≤ 3 / 4 / 2 ^ 52 + 1 / 2 ^ 51 := by
    rw [abs_le]
    constructor <;> linarith
  have h6 := (abs_le.1 (h4.trans h5)).1
  have h7 : (3 : ℝ) / 4 / 2 ^ 52 + 1 / 2 ^ 51 ≤ 1 / 2 ^ 50 := by norm_num
  linarith

/-- The number 5/2 is such a double. -/
example : Ariadne.PBit.Rep 53 (5 / 2 : ℚ) ∧ (12 / 5 : ℚ) ≤ 5 / 2 ∧ (5 / 2 : ℚ) ≤ 3 :=
  ⟨⟨5, -1, by norm_num, by norm_num⟩, by norm_num, by norm_num⟩

end Verif.Elementary
