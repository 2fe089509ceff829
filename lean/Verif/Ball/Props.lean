import Verif.Ball.Model

/-!
# C09: floating-point balls
-/

namespace Ariadne

namespace Ball

variable {K : Type*} [Field K] [LinearOrder K] [IsStrictOrderedRing K]

/-- The number `x` lies in the ball `X`. -/
def Contains (X : Ball K) (x : K) : Prop := |x - X.v| ≤ X.e

variable (V E : Rounding K)

/-- Half the gap between the directed roundings bounds the error of rounding to nearest. -/
theorem near_gap (t : K) : |V.near t - t| ≤ V.up (V.up t - V.down t) / 2 := by
  have h1 := V.near_down t
  have h2 := V.near_up t
  have h3 := V.le_up (V.up t - V.down t)
  linarith

/-- C09: exact numbers. -/
theorem C09_ofExact (y : K) : (ofExact V E y).Contains y := by
  unfold ofExact Contains
  simp only
  rw [abs_sub_comm]
  exact E.le_up _

/-- C09: change of precision loses no points. -/
theorem C09_reprecision {X : Ball K} {x : K} (h : X.Contains x) :
    (reprecision V E X).Contains x := by
  unfold Contains reprecision at *
  simp only
  set v := V.near X.v
  have hd : |X.v - v| ≤ (if X.v ≤ v then V.up (v - X.v) else V.up (X.v - v)) := by
    split_ifs with i
    · rw [abs_sub_comm, abs_of_nonneg (by linarith)]; exact V.le_up _
    · rw [abs_of_nonneg (by linarith)]; exact V.le_up _
  have h1 := E.le_up (if X.v ≤ v then V.up (v - X.v) else V.up (X.v - v))
  have h2 := E.le_up X.e
  have h3 := E.le_up (E.up X.e + E.up (if X.v ≤ v then V.up (v - X.v) else V.up (X.v - v)))
  have h4 := abs_sub_le x X.v v
  linarith

/-- C09: the bounds of a ball contain its points. -/
theorem C09_toBounds {X : Ball K} {x : K} (h : X.Contains x) :
    lower V X ≤ x ∧ x ≤ upper V X := by
  unfold Contains at h
  rw [abs_le] at h
  exact ⟨V.down_le_of_le (by linarith), V.le_up_of_le (by linarith)⟩

/-- C09: the ball of bounds contains their points. -/
theorem C09_ofBounds {l u x : K} (h1 : l ≤ x) (h2 : x ≤ u) : (ofBounds V E l u).Contains x := by
  unfold Contains ofBounds
  simp only
  set v := V.near (l + u) / 2
  have a1 := V.le_up (u - v)
  have a2 := V.le_up (v - l)
  have a3 := E.le_up (max (V.up (u - v)) (V.up (v - l)))
  have a4 := le_max_left (V.up (u - v)) (V.up (v - l))
  have a5 := le_max_right (V.up (u - v)) (V.up (v - l))
  rw [abs_le]; constructor <;> linarith

/-- C09: negation and halving. -/
theorem C09_neg {X : Ball K} {x : K} (h : X.Contains x) : (neg X).Contains (-x) := by
  unfold Contains neg at *
  rwa [show -x - -X.v = -(x - X.v) by ring, abs_neg]

theorem C09_hlf {X : Ball K} {x : K} (h : X.Contains x) : (hlf X).Contains (x / 2) := by
  unfold Contains hlf at *
  simp only
  rw [show x / 2 - X.v / 2 = (x - X.v) / 2 by ring, abs_div, abs_of_pos (by norm_num : (0 : K) < 2)]
  linarith

/-- C09: addition. -/
theorem C09_add {X Y : Ball K} {x y : K} (hx : X.Contains x) (hy : Y.Contains y) :
    (add V E X Y).Contains (x + y) := by
  unfold Contains add at *
  simp only
  have h1 := near_gap V (X.v + Y.v)
  have h2 := E.le_up (V.up (V.up (X.v + Y.v) - V.down (X.v + Y.v)))
  have h3 := E.le_up (X.e + Y.e)
  have h4 := E.le_up (E.up (V.up (V.up (X.v + Y.v) - V.down (X.v + Y.v))) / 2 + E.up (X.e + Y.e))
  have h5 := abs_le.1 h1
  rw [abs_le] at hx hy ⊢
  constructor <;> linarith

/-- C09: subtraction. -/
theorem C09_sub {X Y : Ball K} {x y : K} (hx : X.Contains x) (hy : Y.Contains y) :
    (sub V E X Y).Contains (x - y) := by
  unfold Contains sub at *
  simp only
  have h1 := near_gap V (X.v - Y.v)
  have h2 := E.le_up (V.up (V.up (X.v - Y.v) - V.down (X.v - Y.v)) / 2)
  have h3 := E.le_up (X.e + Y.e)
  have h4 := E.le_up (E.up (V.up (V.up (X.v - Y.v) - V.down (X.v - Y.v)) / 2) + E.up (X.e + Y.e))
  have h5 := abs_le.1 h1
  rw [abs_le] at hx hy ⊢
  constructor <;> linarith

/-- C09: multiplication. -/
theorem C09_mul {X Y : Ball K} {x y : K} (hx : X.Contains x) (hy : Y.Contains y) :
    (mul V E X Y).Contains (x * y) := by
  unfold Contains mul at *
  simp only
  have hxe := (abs_nonneg _).trans hx
  have hye := (abs_nonneg _).trans hy
  have h1 := near_gap V (X.v * Y.v)
  have h2 := E.le_up (V.up (V.up (X.v * Y.v) - V.down (X.v * Y.v)) / 2)
  have h3 := E.le_up (X.e * Y.e)
  have a1 := E.le_up |X.v|
  have a2 := E.le_up |Y.v|
  have h4 := E.le_up (E.up |X.v| * Y.e)
  have h5 := E.le_up (X.e * E.up |Y.v|)
  have h6 := E.le_up (E.up (E.up |X.v| * Y.e) + E.up (X.e * E.up |Y.v|))
  have h7 := E.le_up (E.up (V.up (V.up (X.v * Y.v) - V.down (X.v * Y.v)) / 2) + E.up (X.e * Y.e))
  have h8 := E.le_up (E.up (E.up (V.up (V.up (X.v * Y.v) - V.down (X.v * Y.v)) / 2) +
    E.up (X.e * Y.e)) + E.up (E.up (E.up |X.v| * Y.e) + E.up (X.e * E.up |Y.v|)))
  have b1 : |X.v| * Y.e ≤ E.up |X.v| * Y.e := by gcongr
  have b2 : X.e * |Y.v| ≤ X.e * E.up |Y.v| := by gcongr
  have e : x * y - V.near (X.v * Y.v) = (x - X.v) * (y - Y.v) + X.v * (y - Y.v) +
      (x - X.v) * Y.v - (V.near (X.v * Y.v) - X.v * Y.v) := by ring
  have c1 : |(x - X.v) * (y - Y.v)| ≤ X.e * Y.e := by rw [abs_mul]; gcongr
  have c2 : |X.v * (y - Y.v)| ≤ |X.v| * Y.e := by rw [abs_mul]; gcongr
  have c3 : |(x - X.v) * Y.v| ≤ X.e * |Y.v| := by rw [abs_mul]; gcongr
  rw [e]
  rw [abs_le] at h1 c1 c2 c3 ⊢
  constructor <;> linarith

/-- C09, reciprocal: sound when the rounded ball excludes zero. -/
theorem C09_rec_partial {Y : Ball K} {y : K} (hy : Y.Contains y)
    (h0 : 0 < V.down (Y.v - Y.e) ∨ V.up (Y.v + Y.e) < 0) :
    (recip V E Y).Contains (1 / y) := by
  unfold Contains at *
  have hb := abs_le.1 hy
  have d1 := V.down_le (Y.v - Y.e)
  have d2 := V.le_up (Y.v + Y.e)
  have hu : 1 / y ≤ 1 / V.down (Y.v - Y.e) := by
    rcases h0 with h | h
    · exact one_div_le_one_div_of_le h (by linarith)
    · exact one_div_le_one_div_of_neg_of_le (by linarith) (by linarith)
  have hl : 1 / V.up (Y.v + Y.e) ≤ 1 / y := by
    rcases h0 with h | h
    · exact one_div_le_one_div_of_le (by linarith) (by linarith)
    · exact one_div_le_one_div_of_neg_of_le h (by linarith)
  unfold recip
  simp only
  set rv := V.near (1 / Y.v)
  set ru := V.up (1 / V.down (Y.v - Y.e)) with hru
  set rl := V.down (1 / V.up (Y.v + Y.e)) with hrl
  have a1 := V.le_up (1 / V.down (Y.v - Y.e))
  have a2 := V.down_le (1 / V.up (Y.v + Y.e))
  have b1 := V.le_up (ru - rv)
  have b2 := V.le_up (rv - rl)
  have b3 := E.le_up (max (V.up (ru - rv)) (V.up (rv - rl)))
  have b4 := le_max_left (V.up (ru - rv)) (V.up (rv - rl))
  have b5 := le_max_right (V.up (ru - rv)) (V.up (rv - rl))
  rw [abs_le]; constructor <;> linarith

/-- C09, division: sound when the rounded divisor excludes zero. -/
theorem C09_div_partial {X Y : Ball K} {x y : K} (hx : X.Contains x) (hy : Y.Contains y)
    (h0 : 0 < V.down (Y.v - Y.e) ∨ V.up (Y.v + Y.e) < 0) :
    (div V E X Y).Contains (x / y) := by
  have := C09_mul V E hx (C09_rec_partial V E hy h0)
  rwa [mul_one_div] at this

/-- C09 fails for the reciprocal of a ball that contains zero, even with exact
arithmetic: `1 ± 2` contains `1/10`, but its computed reciprocal `1 ± 2/3` does
not contain `10`. -/
theorem C09_rec_counterexample :
    ∃ (Y : Ball ℚ) (y : ℚ), y ≠ 0 ∧ Y.Contains y ∧
      ¬ (recip (Sqrt.exactRounding ℚ) (Sqrt.exactRounding ℚ) Y).Contains (1 / y) := by
  refine ⟨⟨1, 2⟩, 1 / 10, by norm_num, ?_, ?_⟩
  · unfold Contains; rw [abs_le]; constructor <;> norm_num
  · intro h
    unfold Contains recip Sqrt.exactRounding at h
    simp only at h
    have h' := (abs_le.1 h).2
    norm_num at h'

/-- C09: squaring, when every error value is exactly representable as a centre
value (`F` is at least as precise as `FE`). -/
theorem C09_sqr (hVE : ∀ t, E.Rep t → V.Rep t) {X : Ball K} {x : K} (hx : X.Contains x) :
    (sqr V E X).Contains (x ^ 2) := by
  have h := C09_mul V E hx hx
  rw [← pow_two] at h
  unfold sqr
  simp only
  set r := mul V E X X with hr
  split_ifs with i
  · unfold Contains at *
    have h1 := E.le_up r.v
    have h2 := E.le_up (r.e + E.up r.v)
    have hrep : V.Rep (E.up (r.e + E.up r.v) / 2) := hVE _ (E.rep_half _ (E.rep_up _))
    rw [V.up_of_rep hrep]
    have := sq_nonneg x
    rw [abs_le] at h ⊢
    constructor <;> linarith
  · exact h

/-- C09, absolute value: sound unless the ball lies strictly below zero. -/
theorem C09_abs_partial {X : Ball K} {x : K} (hx : X.Contains x)
    (hn : X.e < |X.v| → 0 ≤ X.v) : (abs V E X).Contains |x| := by
  unfold abs
  split_ifs with i
  · have h0 := hn i
    rw [abs_of_nonneg h0] at i
    unfold Contains at *
    have := abs_le.1 hx
    rw [abs_of_nonneg (by linarith : 0 ≤ x)]
    exact hx
  · unfold Contains at *
    simp only
    have h1 := V.le_up (|X.v| + X.e)
    have h2 := E.le_up (V.up (|X.v| + X.e) / 2)
    have h3 : |x| ≤ |X.v| + X.e := by
      have := abs_sub_abs_le_abs_sub x X.v; linarith
    have h4 := abs_nonneg x
    rw [abs_le]; constructor <;> linarith

/-- C09 fails for the absolute value of a negative ball, even with exact
arithmetic: `abs(-5 ± 1)` is returned as `-5 ± 1` (float_ball.hpp 612-615). -/
theorem C09_abs_counterexample :
    ∃ (X : Ball ℚ) (x : ℚ), X.Contains x ∧
      ¬ (abs (Sqrt.exactRounding ℚ) (Sqrt.exactRounding ℚ) X).Contains |x| := by
  refine ⟨⟨-5, 1⟩, -5, by unfold Contains; norm_num, ?_⟩
  unfold Contains abs
  norm_num

/-- C09 fails for the maximum, which uses `abs`: `max(1,5)` is computed as `1`. -/
theorem C09_max_counterexample :
    let E := Sqrt.exactRounding ℚ
    (⟨1, 0⟩ : Ball ℚ).Contains 1 ∧ (⟨5, 0⟩ : Ball ℚ).Contains 5 ∧
      max_ E E ⟨1, 0⟩ ⟨5, 0⟩ = ⟨1, 0⟩ ∧ min_ E E ⟨1, 0⟩ ⟨5, 0⟩ = ⟨5, 0⟩ := by
  refine ⟨by norm_num [Contains], by norm_num [Contains], ?_, ?_⟩ <;> decide +kernel

/-- C09, maximum and minimum: sound when the difference does not lie strictly below zero. -/
theorem C09_max_min_partial {X Y : Ball K} {x y : K}
    (hx : X.Contains x) (hy : Y.Contains y)
    (hn : (sub V E X Y).e < |(sub V E X Y).v| → 0 ≤ (sub V E X Y).v) :
    (max_ V E X Y).Contains (max x y) ∧ (min_ V E X Y).Contains (min x y) := by
  have h1 := C09_add V E hx hy
  have h2 := C09_abs_partial V E (C09_sub V E hx hy) hn
  constructor
  · have h3 := C09_hlf (C09_add V E h1 h2)
    have e : (x + y + |x - y|) / 2 = max x y := by
      rcases le_total x y with h | h
      · rw [max_eq_right h, abs_of_nonpos (by linarith)]; ring
      · rw [max_eq_left h, abs_of_nonneg (by linarith)]; ring
    rwa [e] at h3
  · have h3 := C09_hlf (C09_sub V E h1 h2)
    have e : (x + y - |x - y|) / 2 = min x y := by
      rcases le_total x y with h | h
      · rw [min_eq_left h, abs_of_nonpos (by linarith)]; ring
      · rw [min_eq_right h, abs_of_nonneg (by linarith)]; ring
    rwa [e] at h3

/-- C09: operations on two exact values return a ball around the rounded result. -/
theorem C09_roundedValue (t : K) : (roundedValue V E t).Contains t := by
  unfold Contains roundedValue
  simp only
  rw [abs_sub_comm]
  exact (near_gap V t).trans (E.le_up _)

/-- C09: magnitude and mignitude. -/
theorem C09_mag_mig {X : Ball K} {x : K} (hx : X.Contains x) :
    mig V X ≤ |x| ∧ |x| ≤ mag V X := by
  unfold Contains at hx
  constructor
  · apply max_le (abs_nonneg x)
    apply V.down_le_of_le
    have := abs_sub_abs_le_abs_sub X.v x
    rw [abs_sub_comm] at this
    linarith
  · apply V.le_up_of_le
    have := abs_sub_abs_le_abs_sub x X.v
    linarith

/-- C09: the sign and the predicates `consistent`, `inconsistent`, `refines` never
answer wrongly. -/
theorem C09_predicates {X Y : Ball K} (hX : 0 ≤ X.e) (hY : 0 ≤ Y.e) :
    (∀ x, X.Contains x → Describes (sgn X) (0 < x)) ∧
    (consistent V E X Y = true → ∃ x, X.Contains x ∧ Y.Contains x) ∧
    (inconsistent V E X Y = true → ¬ ∃ x, X.Contains x ∧ Y.Contains x) ∧
    (refines V X Y = true → ∀ x, X.Contains x → Y.Contains x) := by
  refine ⟨?_, ?_, ?_, ?_⟩
  · intro x hx
    unfold Contains at hx
    rw [abs_le] at hx
    unfold sgn Describes
    split_ifs with h1 h2
    · exact ⟨fun _ => by linarith, by simp⟩
    · exact ⟨by simp, fun _ => by linarith⟩
    · simp
  · unfold consistent Contains
    intro h
    rw [decide_eq_true_eq] at h
    have hd := E.down_le (X.e + Y.e)
    by_cases hv : Y.v ≤ X.v
    · rw [if_pos hv] at h
      have := V.le_up (X.v - Y.v)
      refine ⟨max Y.v (X.v - X.e), ?_, ?_⟩ <;> rw [abs_le] <;> constructor <;>
        rcases le_total Y.v (X.v - X.e) with i | i <;> simp only [i, max_eq_right, max_eq_left] <;> linarith
    · rw [if_neg hv] at h
      push Not at hv
      have := V.le_up (Y.v - X.v)
      refine ⟨min Y.v (X.v + X.e), ?_, ?_⟩ <;> rw [abs_le] <;> constructor <;>
        rcases le_total Y.v (X.v + X.e) with i | i <;> simp only [i, min_eq_right, min_eq_left] <;> linarith
  · unfold inconsistent Contains
    rintro h ⟨x, hx, hy⟩
    rw [decide_eq_true_eq] at h
    rw [abs_le] at hx hy
    have hu := E.le_up (X.e + Y.e)
    have d1 := V.down_le (X.v - Y.v)
    have d2 := V.down_le (Y.v - X.v)
    split_ifs at h <;> linarith
  · unfold refines Contains
    intro h x hx
    rw [decide_eq_true_eq] at h
    rw [abs_le] at hx ⊢
    have d1 := V.le_up (X.v - Y.v)
    have d2 := V.le_up (Y.v - X.v)
    split_ifs at h with i
    · have := V.le_up (V.up (X.v - Y.v) + X.e)
      constructor <;> linarith
    · have := V.le_up (V.up (Y.v - X.v) + X.e)
      constructor <;> linarith

/-- C09 fails for `Ball(Decimal,Decimal,PR)` (float_ball.tpl.hpp 79-80): a value
that is not representable is lost when the given error is zero. -/
theorem C09_ofValueError_counterexample (v : K) (h : V.near v ≠ v) :
    ¬ (ofValueError V E v 0).Contains v := by
  unfold Contains ofValueError
  simp only
  rw [E.up_of_rep E.rep_zero, abs_nonpos_iff, sub_eq_zero]
  exact fun e => h e.symm

/-- Non-vacuity: a product of balls in 53-bit arithmetic, and a divisor excluding zero. -/
example : (⟨2, 1⟩ : Ball ℚ).Contains (5 / 2) ∧
    0 < (Sqrt.exactRounding ℚ).down ((⟨2, 1⟩ : Ball ℚ).v - (⟨2, 1⟩ : Ball ℚ).e) := by
  constructor
  · unfold Contains; norm_num
  · norm_num [Sqrt.exactRounding]

example : (mul (PBit.rounding 53 (by norm_num)) (PBit.rounding 24 (by norm_num))
    (⟨2, 1⟩ : Ball ℚ) ⟨3, 1⟩).Contains (5 / 2 * 4) :=
  C09_mul _ _ (by unfold Contains; norm_num) (by unfold Contains; norm_num)

end Ball
end Ariadne
