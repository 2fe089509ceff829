import Verif.Elementary.Series

/-!
# C86: soundness of the series for sine and cosine up to their rest
-/

namespace Verif.Elementary

open Ariadne (Rounding)

variable (R : Rounding ℚ) {x r : ℚ}

theorem seriesDom_le (h : SeriesDom x) : x ≤ 1 := h.2.trans (by norm_num [seriesMax])

theorem square_le (h : SeriesDom x) : 0 ≤ x * x ∧ x * x ≤ 1 :=
  ⟨mul_nonneg h.1 h.1, mul_le_one₀ (seriesDom_le h) h.1 (seriesDom_le h)⟩

theorem down_square (h : SeriesDom x) : 0 ≤ R.down (x * x) ∧ R.down (x * x) ≤ 1 :=
  ⟨R.down_max _ _ R.rep_zero (square_le h).1, (R.down_le _).trans (square_le h).2⟩

theorem up_square (h : SeriesDom x) : 0 ≤ R.up (x * x) ∧ R.up (x * x) ≤ 1 :=
  ⟨(square_le h).1.trans (R.le_up _), R.up_min _ _ R.rep_one (square_le h).2⟩

theorem neg_up_neg_square : -R.up (-x * x) = R.down (x * x) := by
  rw [neg_mul, R.up_neg, neg_neg]

theorem neg_down_neg_square : -R.down (-x * x) = R.up (x * x) := by
  rw [neg_mul, R.down_neg, neg_neg]

theorem cast_square (h : SeriesDom x) : Real.cos x ≤ ((poly (x * x) cosCoeffs : ℚ) : ℝ) ∧
    ((poly (x * x) cosCoeffs : ℚ) : ℝ) ≤ Real.cos x + (x : ℝ) ^ 18 / (18).factorial := by
  have := cos_poly_bounds (x := (x : ℝ)) (by exact_mod_cast h.1) (by exact_mod_cast seriesDom_le h)
  rw [poly_cast]
  push_cast
  rwa [← sq]

theorem cast_square_sin (h : SeriesDom x) : Real.sin x ≤ ((x * poly (x * x) sinCoeffs : ℚ) : ℝ) ∧
    ((x * poly (x * x) sinCoeffs : ℚ) : ℝ) ≤ Real.sin x + (x : ℝ) ^ 19 / (19).factorial := by
  have := sin_poly_bounds (x := (x : ℝ)) (by exact_mod_cast h.1) (by exact_mod_cast seriesDom_le h)
  push_cast [poly_cast]
  rwa [← sq]

/-- **C86** (series of the cosine).  Rounded upwards, the series gives an upper bound for the cosine, for all
numbers in its domain and all formats. -/
theorem C86_pos_cos_up (h : posCos (upward R) x = some r) : Real.cos x ≤ r := by
  unfold posCos at h
  split_ifs at h with hd
  obtain rfl := Option.some.inj h
  refine (cast_square hd).1.trans ?_
  have h1 : (upward R).rnd (-x * x) = R.up (-x * x) := rfl
  rw [h1, neg_up_neg_square]
  have h2 := poly_le_horner (m := upward R) (fun t => R.le_up t) (down_square R hd).1 cosCoeffs
  have h3 := cosPoly_anti (down_square R hd).1 (square_le hd).2 (R.down_le (x * x))
  exact_mod_cast h3.trans h2

/-- **C86** (series of the cosine).  Rounded downwards, the series gives a lower bound up to the first term that is
left out.  Missing: the rest of the series is not subtracted. -/
theorem C86_pos_cos_down_partial (h : posCos (downward R) x = some r) :
    (r : ℝ) ≤ Real.cos x + (x : ℝ) ^ 18 / (18).factorial := by
  unfold posCos at h
  split_ifs at h with hd
  obtain rfl := Option.some.inj h
  refine le_trans ?_ (cast_square hd).2
  have h1 : (downward R).rnd (-x * x) = R.down (-x * x) := rfl
  rw [h1, neg_down_neg_square]
  have h2 := horner_le_poly (m := downward R) (fun t => R.down_le t) (up_square R hd).1 cosCoeffs
  have h3 := cosPoly_anti (square_le hd).1 (up_square R hd).2 (R.le_up (x * x))
  exact_mod_cast h2.trans h3

/-- **C86** (series of the negated cosine).  Rounded upwards, the result is an upper bound up to the first term that
is left out. -/
theorem C86_neg_cos_up_partial (h : negCos (upward R) x = some r) :
    -Real.cos x ≤ r + (x : ℝ) ^ 18 / (18).factorial := by
  unfold negCos at h
  split_ifs at h with hd
  obtain rfl := Option.some.inj h
  have h0 := (cast_square hd).2
  have h1 : (upward R).rnd (x * x) = R.up (x * x) := rfl
  rw [h1]
  have h2 := hornerOpp_le (m := upward R) (fun t => R.le_up t) (up_square R hd).1 cosCoeffs
  have h3 := cosPoly_anti (square_le hd).1 (up_square R hd).2 (R.le_up (x * x))
  have h4 : ((hornerOpp (upward R) (R.up (x * x)) cosCoeffs : ℚ) : ℝ) ≤ ((poly (x * x) cosCoeffs : ℚ) : ℝ) := by
    exact_mod_cast h2.trans h3
  push_cast
  linarith

/-- **C86** (series of the negated cosine).  Rounded downwards, the result is a lower bound. -/
theorem C86_neg_cos_down (h : negCos (downward R) x = some r) : (r : ℝ) ≤ -Real.cos x := by
  unfold negCos at h
  split_ifs at h with hd
  obtain rfl := Option.some.inj h
  have h0 := (cast_square hd).1
  have h1 : (downward R).rnd (x * x) = R.down (x * x) := rfl
  rw [h1]
  have h2 := le_hornerOpp (m := downward R) (fun t => R.down_le t) (down_square R hd).1 cosCoeffs
  have h3 := cosPoly_anti (down_square R hd).1 (square_le hd).2 (R.down_le (x * x))
  have h4 : ((poly (x * x) cosCoeffs : ℚ) : ℝ) ≤ ((hornerOpp (downward R) (R.down (x * x)) cosCoeffs : ℚ) : ℝ) := by
    exact_mod_cast h3.trans h2
  push_cast
  linarith

/-! ## Sine -/

theorem sinPoly_near {s : ℚ} (h : SeriesDom x) (s0 : 0 ≤ s) (s1 : s ≤ 1) :
    |poly s sinCoeffs - poly (x * x) sinCoeffs| ≤ |s - x * x| / 5 := by
  refine (poly_lipschitz (square_le h).1 (square_le h).2 s0 s1 sinCoeffs).trans ?_
  have := mul_le_mul_of_nonneg_right sinSlope (abs_nonneg (s - x * x))
  linarith

/-- **C86** (series of the sine).  Rounded upwards, the result is an upper bound up to the error of the square, which
is rounded in the wrong direction. -/
theorem C86_pos_sin_up_partial (h : posSin (upward R) x = some r) :
    Real.sin x ≤ r + (x * ((R.up (x * x) - x * x) / 5) : ℚ) := by
  unfold posSin at h
  split_ifs at h with hd
  obtain rfl := Option.some.inj h
  refine (cast_square_sin hd).1.trans ?_
  have h1 : (upward R).rnd (x * x) = R.up (x * x) := rfl
  rw [h1]
  have h2 := poly_le_horner (m := upward R) (fun t => R.le_up t) (up_square R hd).1 sinCoeffs
  have h3 := (abs_le.1 (sinPoly_near hd (up_square R hd).1 (up_square R hd).2)).1
  rw [abs_of_nonneg (sub_nonneg.2 (R.le_up (x * x)))] at h3
  have h4 : x * hornerRnd (upward R) (R.up (x * x)) sinCoeffs ≤
      (upward R).rnd (x * hornerRnd (upward R) (R.up (x * x)) sinCoeffs) := R.le_up _
  have h5 := mul_le_mul_of_nonneg_left
    (show poly (x * x) sinCoeffs ≤ hornerRnd (upward R) (R.up (x * x)) sinCoeffs + (R.up (x * x) - x * x) / 5 by
      linarith) hd.1
  have h6 : x * poly (x * x) sinCoeffs ≤ (upward R).rnd (x * hornerRnd (upward R) (R.up (x * x)) sinCoeffs) +
      x * ((R.up (x * x) - x * x) / 5) := by linarith
  exact_mod_cast h6

/-- **C86** (series of the sine).  Rounded downwards, the result is a lower bound up to the error of the square and the
first term that is left out. -/
theorem C86_pos_sin_down_partial (h : posSin (downward R) x = some r) :
    (r : ℝ) ≤ Real.sin x + (x : ℝ) ^ 19 / (19).factorial + (x * ((x * x - R.down (x * x)) / 5) : ℚ) := by
  unfold posSin at h
  split_ifs at h with hd
  obtain rfl := Option.some.inj h
  have h0 := (cast_square_sin hd).2
  have h1 : (downward R).rnd (x * x) = R.down (x * x) := rfl
  rw [h1]
  have h2 := horner_le_poly (m := downward R) (fun t => R.down_le t) (down_square R hd).1 sinCoeffs
  have h3 := (abs_le.1 (sinPoly_near hd (down_square R hd).1 (down_square R hd).2)).2
  rw [abs_of_nonpos (sub_nonpos.2 (R.down_le (x * x)))] at h3
  have h4 : (downward R).rnd (x * hornerRnd (downward R) (R.down (x * x)) sinCoeffs) ≤
      x * hornerRnd (downward R) (R.down (x * x)) sinCoeffs := R.down_le _
  have h5 := mul_le_mul_of_nonneg_left
    (show hornerRnd (downward R) (R.down (x * x)) sinCoeffs ≤ poly (x * x) sinCoeffs + (x * x - R.down (x * x)) / 5 by
      linarith) hd.1
  have h6 : (downward R).rnd (x * hornerRnd (downward R) (R.down (x * x)) sinCoeffs) ≤ x * poly (x * x) sinCoeffs +
      x * ((x * x - R.down (x * x)) / 5) := by linarith
  have h7 : (((downward R).rnd (x * hornerRnd (downward R) (R.down (x * x)) sinCoeffs) : ℚ) : ℝ) ≤
      ((x * poly (x * x) sinCoeffs : ℚ) : ℝ) + ((x * ((x * x - R.down (x * x)) / 5) : ℚ) : ℝ) := by exact_mod_cast h6
  linarith

/-- **C86** (series of the negated sine).  Rounded upwards, the result is an upper bound up to the error of the square
and the first term that is left out. -/
theorem C86_neg_sin_up_partial (h : negSin (upward R) x = some r) :
    -Real.sin x ≤ r + (x : ℝ) ^ 19 / (19).factorial + (x * ((x * x - R.down (x * x)) / 5) : ℚ) := by
  unfold negSin at h
  split_ifs at h with hd
  obtain rfl := Option.some.inj h
  have h0 := (cast_square_sin hd).2
  have h1 : (upward R).rnd (-x * x) = R.up (-x * x) := rfl
  rw [h1, neg_up_neg_square]
  have h2 := hornerOpp_le (m := upward R) (fun t => R.le_up t) (down_square R hd).1 sinCoeffs
  have h3 := (abs_le.1 (sinPoly_near hd (down_square R hd).1 (down_square R hd).2)).2
  rw [abs_of_nonpos (sub_nonpos.2 (R.down_le (x * x)))] at h3
  have h4 : x * -hornerOpp (upward R) (R.down (x * x)) sinCoeffs ≤
      (upward R).rnd (x * -hornerOpp (upward R) (R.down (x * x)) sinCoeffs) := R.le_up _
  have h5 := mul_le_mul_of_nonneg_left
    (show hornerOpp (upward R) (R.down (x * x)) sinCoeffs ≤ poly (x * x) sinCoeffs + (x * x - R.down (x * x)) / 5 by
      linarith) hd.1
  have h6 : -(x * poly (x * x) sinCoeffs) ≤ (upward R).rnd (x * -hornerOpp (upward R) (R.down (x * x)) sinCoeffs) +
      x * ((x * x - R.down (x * x)) / 5) := by linarith
  have h7 : -((x * poly (x * x) sinCoeffs : ℚ) : ℝ) ≤
      (((upward R).rnd (x * -hornerOpp (upward R) (R.down (x * x)) sinCoeffs) : ℚ) : ℝ) +
      ((x * ((x * x - R.down (x * x)) / 5) : ℚ) : ℝ) := by exact_mod_cast h6
  linarith

/-- **C86** (series of the negated sine).  Rounded downwards, the result is a lower bound up to the error of the square. -/
theorem C86_neg_sin_down_partial (h : negSin (downward R) x = some r) :
    (r : ℝ) ≤ -Real.sin x + (x * ((R.up (x * x) - x * x) / 5) : ℚ) := by
  unfold negSin at h
  split_ifs at h with hd
  obtain rfl := Option.some.inj h
  have h0 := (cast_square_sin hd).1
  have h1 : (downward R).rnd (-x * x) = R.down (-x * x) := rfl
  rw [h1, neg_down_neg_square]
  have h2 := le_hornerOpp (m := downward R) (fun t => R.down_le t) (up_square R hd).1 sinCoeffs
  have h3 := (abs_le.1 (sinPoly_near hd (up_square R hd).1 (up_square R hd).2)).1
  rw [abs_of_nonneg (sub_nonneg.2 (R.le_up (x * x)))] at h3
  have h4 : (downward R).rnd (x * -hornerOpp (downward R) (R.up (x * x)) sinCoeffs) ≤
      x * -hornerOpp (downward R) (R.up (x * x)) sinCoeffs := R.down_le _
  have h5 := mul_le_mul_of_nonneg_left
    (show poly (x * x) sinCoeffs ≤ hornerOpp (downward R) (R.up (x * x)) sinCoeffs + (R.up (x * x) - x * x) / 5 by
      linarith) hd.1
  have h6 : (downward R).rnd (x * -hornerOpp (downward R) (R.up (x * x)) sinCoeffs) ≤ -(x * poly (x * x) sinCoeffs) +
      x * ((R.up (x * x) - x * x) / 5) := by linarith
  have h7 : (((downward R).rnd (x * -hornerOpp (downward R) (R.up (x * x)) sinCoeffs) : ℚ) : ℝ) ≤
      -((x * poly (x * x) sinCoeffs : ℚ) : ℝ) + ((x * ((R.up (x * x) - x * x) / 5) : ℚ) : ℝ) := by exact_mod_cast h6
  linarith

end Verif.Elementary
