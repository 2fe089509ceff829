import Verif.Elementary.Trig
import Mathlib.Analysis.Real.Pi.Bounds
import Mathlib.Analysis.SpecialFunctions.Trigonometric.Basic

/-!
# C86: the cosine of numbers between 0 and 9/4, in double precision
-/

namespace Verif.Elementary

open Ariadne (Rounding)

theorem rep53 {x : ℚ} (k e : ℤ) (hx : x = k * 2 ^ e) (h : |k| < 2 ^ 53) : R53.Rep x := ⟨k, e, hx, by exact_mod_cast h⟩

theorem pi_lt : Real.pi < (piUp : ℝ) := by
  have := Real.pi_lt_d20
  norm_num [piUp]
  linarith

theorem lt_pi : (piDown : ℝ) < Real.pi := by
  have := Real.pi_gt_d20
  norm_num [piDown]
  linarith

theorem up_error {t : ℚ} (h : 0 ≤ t) : R53.up t - t ≤ t / 2 ^ 52 := by
  rcases eq_or_lt_of_le h with rfl | h
  · rw [R53.up_of_rep R53.rep_zero]
    simp
  · have := (Ariadne.C45_relative_error 53 t h.ne').2
    rw [abs_of_pos h] at this
    have e : (2 : ℚ) ^ (1 - ((53 : ℕ) : ℤ)) * t = t / 2 ^ 52 := by
      norm_num
      ring
    rw [e] at this
    exact this.le

theorem down_error {t : ℚ} (h : 0 ≤ t) : t - R53.down t ≤ t / 2 ^ 52 := by
  rcases eq_or_lt_of_le h with rfl | h
  · rw [R53.down_of_rep R53.rep_zero]
    simp
  · have := (Ariadne.C45_relative_error 53 t h.ne').1
    rw [abs_of_pos h] at this
    have e : (2 : ℚ) ^ (1 - ((53 : ℕ) : ℤ)) * t = t / 2 ^ 52 := by
      norm_num
      ring
    rw [e] at this
    exact this.le

/-- The accuracy of the series for sine and cosine -/
theorem series_small {x : ℚ} (h : SeriesDom x) :
    x * (x * x / 2 ^ 52 / 5) + x ^ 19 / (19).factorial ≤ 1 / 2 ^ 55 ∧ x ^ 18 / (18).factorial ≤ 1 / 2 ^ 58 := by
  have h1 : x ^ 3 ≤ seriesMax ^ 3 := pow_le_pow_left₀ h.1 h.2 3
  have h2 : x ^ 19 ≤ seriesMax ^ 19 := pow_le_pow_left₀ h.1 h.2 19
  have h3 : x ^ 18 ≤ seriesMax ^ 18 := pow_le_pow_left₀ h.1 h.2 18
  constructor
  · have e : x * (x * x / 2 ^ 52 / 5) = x ^ 3 / (5 * 2 ^ 52) := by ring
    rw [e]
    have h4 : x ^ 3 / (5 * 2 ^ 52) ≤ seriesMax ^ 3 / (5 * 2 ^ 52) := by gcongr
    have h5 : x ^ 19 / (19).factorial ≤ seriesMax ^ 19 / (19).factorial := by gcongr
    have h6 : seriesMax ^ 3 / (5 * 2 ^ 52) + seriesMax ^ 19 / (19).factorial ≤ 1 / 2 ^ 55 := by
      unfold seriesMax
      norm_num [Nat.factorial]
    linarith
  · have h5 : x ^ 18 / (18).factorial ≤ seriesMax ^ 18 / (18).factorial := by gcongr
    have h6 : seriesMax ^ 18 / (18).factorial ≤ 1 / 2 ^ 58 := by
      unfold seriesMax
      norm_num [Nat.factorial]
    linarith

theorem sin_series_up {w r : ℚ} (h : (if 0 ≤ w then posSin up53 w else negSin up53 (-w)) = some r) :
    Real.sin w ≤ r + 1 / 2 ^ 55 := by
  split_ifs at h with hw
  · have hd : SeriesDom w := by
      unfold posSin at h
      split_ifs at h with hd
      exact hd
    have h1 := C86_pos_sin_up_partial R53 h
    have h2 := mul_le_mul_of_nonneg_left (up_error (square_le hd).1) hd.1
    have h3 : w * ((R53.up (w * w) - w * w) / 5) ≤ 1 / 2 ^ 55 := by
      have := (series_small hd).1
      have : 0 ≤ w ^ 19 / (19).factorial := by have := hd.1; positivity
      linarith
    have h4 : ((w * ((R53.up (w * w) - w * w) / 5) : ℚ) : ℝ) ≤ ((1 / 2 ^ 55 : ℚ) : ℝ) := by exact_mod_cast h3
    push_cast at h1 h4 ⊢
    linarith
  · have hd : SeriesDom (-w) := by
      unfold negSin at h
      split_ifs at h with hd
      exact hd
    have h1 := C86_neg_sin_up_partial R53 h
    have h2 := mul_le_mul_of_nonneg_left (down_error (square_le hd).1) hd.1
    have h3 : (-w) ^ 19 / (19).factorial + -w * ((-w * -w - R53.down (-w * -w)) / 5) ≤ 1 / 2 ^ 55 := by
      have := (series_small hd).1
      linarith
    have h4 : (((-w) ^ 19 / (19).factorial + -w * ((-w * -w - R53.down (-w * -w)) / 5) : ℚ) : ℝ) ≤
      ((1 / 2 ^ 55 : ℚ) : ℝ) := by exact_mod_cast h3
    push_cast [Real.sin_neg] at h1 h4 ⊢
    linarith

theorem sin_series_down {w r : ℚ} (h : (if 0 ≤ w then posSin down53 w else negSin down53 (-w)) = some r) :
    r ≤ Real.sin w + 1 / 2 ^ 55 := by
  split_ifs at h with hw
  · have hd : SeriesDom w := by
      unfold posSin at h
      split_ifs at h with hd
      exact hd
    have h1 := C86_pos_sin_down_partial R53 h
    have h2 := mul_le_mul_of_nonneg_left (down_error (square_le hd).1) hd.1
    have h3 : w ^ 19 / (19).factorial + w * ((w * w - R53.down (w * w)) / 5) ≤ 1 / 2 ^ 55 := by
      have := (series_small hd).1
      linarith
    have h4 : ((w ^ 19 / (19).factorial + w * ((w * w - R53.down (w * w)) / 5) : ℚ) : ℝ) ≤
      ((1 / 2 ^ 55 : ℚ) : ℝ) := by exact_mod_cast h3
    push_cast at h1 h4 ⊢
    linarith
  · have hd : SeriesDom (-w) := by
      unfold negSin at h
      split_ifs at h with hd
      exact hd
    have h1 := C86_neg_sin_down_partial R53 h
    have h2 := mul_le_mul_of_nonneg_left (up_error (square_le hd).1) hd.1
    have h3 : -w * ((R53.up (-w * -w) - -w * -w) / 5) ≤ 1 / 2 ^ 55 := by
      have := (series_small hd).1
      have : 0 ≤ (-w) ^ 19 / (19).factorial := by have := hd.1; positivity
      linarith
    have h4 : ((-w * ((R53.up (-w * -w) - -w * -w) / 5) : ℚ) : ℝ) ≤ ((1 / 2 ^ 55 : ℚ) : ℝ) := by exact_mod_cast h3
    push_cast [Real.sin_neg] at h1 h4 ⊢
    linarith

/-! ## The reduction -/

theorem up_lt_three {x : ℚ} (h0 : 0 ≤ x) (h1 : x ≤ 9 / 4) : 0 ≤ R53.up (x / quarterPi) ∧ R53.up (x / quarterPi) < 3 := by
  have hq : (0 : ℚ) < quarterPi := by norm_num [quarterPi]
  refine ⟨(div_nonneg h0 hq.le).trans (R53.le_up _), ?_⟩
  have h2 : R53.up (x / quarterPi) ≤ 23 / 8 := by
    apply R53.up_min
    · exact rep53 23 (-3) (by norm_num) (by norm_num)
    · rw [div_le_iff₀ hq]
      refine h1.trans ?_
      norm_num [quarterPi]
  linarith

theorem down_lt_three {x : ℚ} (h0 : 0 ≤ x) (h1 : x ≤ 9 / 4) :
    0 ≤ R53.down (x / quarterPi) ∧ R53.down (x / quarterPi) < 3 := by
  have hq : (0 : ℚ) < quarterPi := by norm_num [quarterPi]
  exact ⟨R53.down_max _ _ R53.rep_zero (div_nonneg h0 hq.le),
    ((R53.down_le _).trans (R53.le_up _)).trans_lt (up_lt_three h0 h1).2⟩

theorem octant {t : ℚ} (h0 : 0 ≤ t) (h1 : t < 3) :
    Int.tmod ⌊t⌋ 8 = 0 ∧ t < 1 ∨ (Int.tmod ⌊t⌋ 8 = 1 ∨ Int.tmod ⌊t⌋ 8 = 2) ∧ 1 ≤ t := by
  have h2 : 0 ≤ ⌊t⌋ := Int.floor_nonneg.2 h0
  have h3 : ⌊t⌋ < 3 := Int.floor_lt.2 (by exact_mod_cast h1)
  rcases lt_or_ge t 1 with h | h
  · left
    have h4 : ⌊t⌋ < 1 := Int.floor_lt.2 (by exact_mod_cast h)
    have : ⌊t⌋ = 0 := by omega
    exact ⟨by rw [this]; rfl, h⟩
  · right
    have h4 : 1 ≤ ⌊t⌋ := Int.le_floor.2 (by exact_mod_cast h)
    have : ⌊t⌋ = 1 ∨ ⌊t⌋ = 2 := by omega
    refine ⟨?_, h⟩
    rcases this with h | h
    · left; rw [h]; rfl
    · right; rw [h]; rfl

theorem floor_zero {t : ℚ} (h0 : 0 ≤ t) (h1 : t ≤ 3 / 4) : ⌊t⌋ = 0 := by
  rw [Int.floor_eq_iff]
  constructor
  · exact_mod_cast h0
  · push_cast
    linarith

theorem div_pi {x p : ℚ} (h0 : 0 ≤ x) (h1 : x ≤ 9 / 4) (hp : 3 < p) : 0 ≤ x / p ∧ x / p ≤ 3 / 4 := by
  refine ⟨by positivity, ?_⟩
  rw [div_le_iff₀ (by linarith)]
  linarith

theorem rep_three_quarters : R53.Rep (3 / 4) := rep53 3 (-2) (by norm_num) (by norm_num)

theorem cosRnd_up {x : ℚ} (hx : R53.Rep x) (h0 : 0 < x) (h1 : x ≤ 9 / 4) : cosRnd up53 x = cosReduced up53 x := by
  have e1 : ⌊up53.rnd (x / up53.piOpp)⌋ = 0 := by
    have h := div_pi (p := piDown) h0.le h1 (by norm_num [piDown])
    exact floor_zero (h.1.trans (R53.le_up _)) (R53.up_min _ _ rep_three_quarters h.2)
  have e2 : ⌊up53.opp (x / up53.piRnd)⌋ = 0 := by
    have h := div_pi (p := piUp) h0.le h1 (by norm_num [piUp])
    have e : up53.opp (x / up53.piRnd) = R53.down (x / piUp) := by
      show -R53.up (-(x / piUp)) = _
      rw [R53.up_neg, neg_neg]
    rw [e]
    exact floor_zero (R53.down_max _ _ R53.rep_zero h.1) ((R53.down_le _).trans h.2)
  have e3 : cosY up53 0 x = x := by
    unfold cosY
    rw [if_pos (by norm_num)]
    show -R53.up (-(x - R53.up ((0 : ℤ) * up53.piRnd))) = x
    rw [Int.cast_zero, zero_mul, R53.up_of_rep R53.rep_zero, sub_zero, R53.up_neg, R53.down_of_rep hx, neg_neg]
  unfold cosRnd
  rw [if_neg h0.ne']
  simp only
  rw [e1, e2, if_pos rfl, e3]

theorem cosRnd_down {x : ℚ} (hx : R53.Rep x) (h0 : 0 < x) (h1 : x ≤ 9 / 4) :
    cosRnd down53 x = cosReduced down53 x := by
  have e1 : ⌊down53.rnd (x / down53.piOpp)⌋ = 0 := by
    have h := div_pi (p := piUp) h0.le h1 (by norm_num [piUp])
    exact floor_zero (R53.down_max _ _ R53.rep_zero h.1) ((R53.down_le _).trans h.2)
  have e2 : ⌊down53.opp (x / down53.piRnd)⌋ = 0 := by
    have h := div_pi (p := piDown) h0.le h1 (by norm_num [piDown])
    have e : down53.opp (x / down53.piRnd) = R53.up (x / piDown) := by
      show -R53.down (-(x / piDown)) = _
      rw [R53.down_neg, neg_neg]
    rw [e]
    exact floor_zero (h.1.trans (R53.le_up _)) (R53.up_min _ _ rep_three_quarters h.2)
  have e3 : cosY down53 0 x = x := by
    unfold cosY
    rw [if_pos (by norm_num)]
    show -R53.down (-(x - R53.down ((0 : ℤ) * down53.piRnd))) = x
    rw [Int.cast_zero, zero_mul, R53.down_of_rep R53.rep_zero, sub_zero, R53.down_neg, R53.up_of_rep hx, neg_neg]
  unfold cosRnd
  rw [if_neg h0.ne']
  simp only
  rw [e1, e2, if_pos rfl, e3]

theorem defined_sin (m : Mode) {w : ℚ} (h1 : -seriesMax ≤ w) (h2 : w ≤ seriesMax) :
    ∃ r, (if 0 ≤ w then posSin m w else negSin m (-w)) = some r := by
  split_ifs with h
  · exact ⟨_, if_pos ⟨h, h2⟩⟩
  · exact ⟨_, if_pos ⟨by linarith, by linarith⟩⟩

/-- **C86** (cosine).  For doubles between 0 and 9/4, the cosine rounded upwards is defined, and an upper bound up to
`2^(-55)`.  Missing: the error of the series for the sine; other numbers, for which larger errors are made
(`C86_cos_up`, `C86_cos_inverted`). -/
theorem C86_cos_up_partial {x : ℚ} (hx : Ariadne.PBit.Rep 53 x) (h0 : 0 ≤ x) (h1 : x ≤ 9 / 4) :
    ∃ r, cosRnd up53 x = some r ∧ Real.cos x ≤ r + 1 / 2 ^ 55 := by
  rcases eq_or_lt_of_le h0 with rfl | hpos
  · exact ⟨1, by simp [cosRnd], by norm_num⟩
  have hq : (0 : ℚ) < quarterPi := by norm_num [quarterPi]
  rw [cosRnd_up hx hpos h1]
  unfold cosReduced
  simp only
  have h2 := up_lt_three h0 h1
  rcases octant h2.1 h2.2 with ⟨hq0, ht⟩ | ⟨hq1, ht⟩
  · rw [if_pos (show Int.tmod ⌊up53.rnd (x / quarterPi)⌋ 8 = 0 from hq0)]
    have hd : SeriesDom x := by
      refine ⟨h0, ?_⟩
      have := ((R53.le_up _).trans_lt ht)
      rw [div_lt_one hq] at this
      refine this.le.trans ?_
      norm_num [quarterPi, seriesMax]
    refine ⟨_, if_pos hd, ?_⟩
    have := C86_pos_cos_up R53 (x := x) (if_pos hd)
    refine this.trans ?_
    have : (0 : ℝ) ≤ 1 / 2 ^ 55 := by positivity
    exact le_add_of_nonneg_right this
  · have hq0 : ¬Int.tmod ⌊up53.rnd (x / quarterPi)⌋ 8 = 0 := by
      rcases hq1 with h | h
      · exact fun h' => by
          have := h.symm.trans h'
          omega
      · exact fun h' => by
          have := h.symm.trans h'
          omega
    rw [if_neg hq0, if_pos (show Int.tmod ⌊up53.rnd (x / quarterPi)⌋ 8 = 1 ∨ Int.tmod ⌊up53.rnd (x / quarterPi)⌋ 8 = 2 from hq1)]
    -- the argument of the sine
    have hlow : quarterPi * (1 - 1 / 2 ^ 52) ≤ x := by
      have h3 := up_error (t := x / quarterPi) (by positivity)
      have h4 : 1 ≤ x / quarterPi * (1 + 1 / 2 ^ 52) := by linarith
      have h5 : quarterPi ≤ x * (1 + 1 / 2 ^ 52) := by
        rw [div_mul_eq_mul_div, one_le_div hq] at h4
        exact h4
      nlinarith
    set w := up53.rnd (up53.piRnd / 2 - x) with hw
    have hw1 : up53.piRnd / 2 - x ≤ w := R53.le_up _
    have hwu : w ≤ seriesMax := by
      refine R53.up_min _ _ (rep53 221069929751607 (-48) (by norm_num [seriesMax]) (by norm_num)) ?_
      have : up53.piRnd = piUp := rfl
      rw [this]
      have : piUp / 2 - quarterPi * (1 - 1 / 2 ^ 52) ≤ seriesMax := by norm_num [piUp, quarterPi, seriesMax]
      linarith
    have hwl : -seriesMax ≤ w := by
      refine le_trans ?_ hw1
      have : up53.piRnd = piUp := rfl
      rw [this]
      have : -seriesMax ≤ piUp / 2 - 9 / 4 := by norm_num [piUp, seriesMax]
      linarith
    obtain ⟨r, hr⟩ := defined_sin up53 hwl hwu
    refine ⟨r, hr, ?_⟩
    refine le_trans ?_ (sin_series_up hr)
    rw [← Real.sin_pi_div_two_sub]
    have hpi := pi_lt
    have hpi3 := Real.pi_gt_three
    have hx0 : (0 : ℝ) ≤ x := by exact_mod_cast h0
    have hx1 : (x : ℝ) ≤ 9 / 4 := by
      have : ((x : ℚ) : ℝ) ≤ ((9 / 4 : ℚ) : ℝ) := by exact_mod_cast h1
      push_cast at this
      exact this
    have hwu' : (w : ℝ) ≤ 1 := by
      have : (w : ℚ) ≤ 1 := hwu.trans (by norm_num [seriesMax])
      exact_mod_cast this
    have hw1' : (piUp : ℝ) / 2 - x ≤ w := by
      have : ((piUp / 2 - x : ℚ) : ℝ) ≤ w := by exact_mod_cast hw1
      push_cast at this
      exact this
    exact Real.sin_le_sin_of_le_of_le_pi_div_two (by linarith) (by linarith) (by linarith)

/-- **C86** (cosine).  For doubles between 0 and 9/4, the cosine rounded downwards is defined, and a lower bound up to
`2^(-55)`. -/
theorem C86_cos_down_partial {x : ℚ} (hx : Ariadne.PBit.Rep 53 x) (h0 : 0 ≤ x) (h1 : x ≤ 9 / 4) :
    ∃ r : ℚ, cosRnd down53 x = some r ∧ r ≤ Real.cos x + 1 / 2 ^ 55 := by
  rcases eq_or_lt_of_le h0 with rfl | hpos
  · exact ⟨1, by simp [cosRnd], by norm_num⟩
  have hq : (0 : ℚ) < quarterPi := by norm_num [quarterPi]
  rw [cosRnd_down hx hpos h1]
  unfold cosReduced
  simp only
  have h2 := down_lt_three h0 h1
  rcases octant h2.1 h2.2 with ⟨hq0, ht⟩ | ⟨hq1, ht⟩
  · rw [if_pos (show Int.tmod ⌊down53.rnd (x / quarterPi)⌋ 8 = 0 from hq0)]
    have hd : SeriesDom x := by
      refine ⟨h0, ?_⟩
      by_contra hc
      have h3 : R53.down (x / quarterPi) < 1 := ht
      have h4 : (1 : ℚ) ≤ x / quarterPi := by
        rw [one_le_div hq]
        exact (show quarterPi ≤ seriesMax by norm_num [quarterPi, seriesMax]).trans (not_le.1 hc).le
      exact absurd (R53.down_max _ _ R53.rep_one h4) (not_le.2 h3)
    refine ⟨_, if_pos hd, ?_⟩
    have := C86_pos_cos_down_partial R53 (x := x) (if_pos hd)
    refine this.trans ?_
    have h5 := (series_small hd).2
    have h6 : ((x ^ 18 / (18).factorial : ℚ) : ℝ) ≤ ((1 / 2 ^ 58 : ℚ) : ℝ) := by exact_mod_cast h5
    push_cast at h6 ⊢
    have : (1 : ℝ) / 2 ^ 58 ≤ 1 / 2 ^ 55 := by norm_num
    linarith
  · have hq0 : ¬Int.tmod ⌊down53.rnd (x / quarterPi)⌋ 8 = 0 := by
      rcases hq1 with h | h
      · exact fun h' => by
          have := h.symm.trans h'
          omega
      · exact fun h' => by
          have := h.symm.trans h'
          omega
    rw [if_neg hq0, if_pos (show Int.tmod ⌊down53.rnd (x / quarterPi)⌋ 8 = 1 ∨ Int.tmod ⌊down53.rnd (x / quarterPi)⌋ 8 = 2 from hq1)]
    have hlow : quarterPi ≤ x := by
      have h3 := ht.trans (R53.down_le _)
      rwa [one_le_div hq] at h3
    set w := down53.rnd (down53.piRnd / 2 - x) with hw
    have hw1 : w ≤ down53.piRnd / 2 - x := R53.down_le _
    have e : down53.piRnd = piDown := rfl
    have hwu : w ≤ seriesMax := by
      refine hw1.trans ?_
      rw [e]
      have : piDown / 2 - quarterPi ≤ seriesMax := by norm_num [piDown, quarterPi, seriesMax]
      linarith
    have hwl : -1 ≤ w := by
      refine R53.down_max _ _ (R53.rep_neg _ R53.rep_one) ?_
      rw [e]
      have : -1 ≤ piDown / 2 - 9 / 4 := by norm_num [piDown]
      linarith
    have hwl' : -seriesMax ≤ w := by
      refine R53.down_max _ _ (R53.rep_neg _
        (rep53 221069929751607 (-48) (by norm_num [seriesMax]) (by norm_num))) ?_
      rw [e]
      have : -seriesMax ≤ piDown / 2 - 9 / 4 := by norm_num [piDown, seriesMax]
      linarith
    obtain ⟨r, hr⟩ := defined_sin down53 hwl' hwu
    refine ⟨r, hr, ?_⟩
    refine (sin_series_down hr).trans ?_
    rw [← Real.sin_pi_div_two_sub]
    have hpi := lt_pi
    have hpi3 := Real.pi_gt_three
    have hx0 : (0 : ℝ) ≤ x := by exact_mod_cast h0
    have hwl1 : (-1 : ℝ) ≤ w := by exact_mod_cast hwl
    have hw1' : (w : ℝ) ≤ (piDown : ℝ) / 2 - x := by
      have : (w : ℝ) ≤ ((piDown / 2 - x : ℚ) : ℝ) := by exact_mod_cast hw1
      push_cast at this
      exact this
    have := Real.sin_le_sin_of_le_of_le_pi_div_two (x := (w : ℝ)) (y := Real.pi / 2 - x) (by linarith) (by linarith)
      (by linarith)
    linarith

/-- The numbers 1/2 and 2 are such doubles. -/
example : Ariadne.PBit.Rep 53 (2 : ℚ) ∧ (0 : ℚ) ≤ 2 ∧ (2 : ℚ) ≤ 9 / 4 :=
  ⟨⟨2, 0, by norm_num, by norm_num⟩, by norm_num, by norm_num⟩

end Verif.Elementary
