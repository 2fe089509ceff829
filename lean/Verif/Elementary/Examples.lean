import Verif.Elementary.Model
import Verif.Elementary.Taylor
import Mathlib.Analysis.SpecialFunctions.Trigonometric.Arctan
import Mathlib.Analysis.Real.Pi.Bounds

/-!
# C86: elementary functions of doubles that are rounded in the wrong direction

All numbers are doubles, and are given as fractions.  The values of the functions are bounded by partial sums of their
series.
-/

namespace Verif.Elementary

theorem cos_lt {x r : ℚ} (n : ℕ) (h : |x| ≤ n) (h' : cosSum n x + trigErr n x < r) : Real.cos x < r :=
  (cos_enclosed x n h).2.trans_lt (by exact_mod_cast h')

theorem lt_cos {x r : ℚ} (n : ℕ) (h : |x| ≤ n) (h' : r < cosSum n x - trigErr n x) : (r : ℝ) < Real.cos x :=
  lt_of_lt_of_le (by exact_mod_cast h') (cos_enclosed x n h).1

theorem sin_lt {x r : ℚ} (n : ℕ) (h : |x| ≤ n) (h' : sinSum n x + trigErr n x < r) : Real.sin x < r :=
  (sin_enclosed x n h).2.trans_lt (by exact_mod_cast h')

theorem lt_sin {x r : ℚ} (n : ℕ) (h : |x| ≤ n) (h' : r < sinSum n x - trigErr n x) : (r : ℝ) < Real.sin x :=
  lt_of_lt_of_le (by exact_mod_cast h') (sin_enclosed x n h).1

/-- **C86** fails for the cosine near minus three halves of pi: rounded upwards it is below the value, rounded downwards
it is above the value. -/
theorem C86_cos_inverted : ∃ x a b : ℚ, Ariadne.PBit.Rep 53 x ∧ cosRnd down53 x = some a ∧ cosRnd up53 x = some b ∧
    (b : ℝ) < Real.cos x ∧ Real.cos x < a := by
  refine ⟨-5305982493112639 / 2 ^ 50, 4983670171380895 / 2 ^ 64, 4983670171368609 / 2 ^ 64,
    ⟨-5305982493112639, -50, by norm_num, by norm_num⟩, ?_, ?_, ?_, ?_⟩
  · decide +kernel
  · decide +kernel
  · exact lt_cos 20 (by norm_num [abs_of_neg]) (by decide +kernel)
  · exact cos_lt 20 (by norm_num [abs_of_neg]) (by decide +kernel)

/-- **C86** fails for the cosine between three quarters of pi and pi, rounded upwards. -/
theorem C86_cos_up : ∃ x b : ℚ, Ariadne.PBit.Rep 53 x ∧ 2 < x ∧ x < 3 ∧ cosRnd up53 x = some b ∧
    (b : ℝ) < Real.cos x := by
  refine ⟨2785541295901467 / 2 ^ 50, -7073804126202809 / 2 ^ 53,
    ⟨2785541295901467, -50, by norm_num, by norm_num⟩, by norm_num, by norm_num, ?_, ?_⟩
  · decide +kernel
  · exact lt_cos 20 (by norm_num) (by decide +kernel)

/-- **C86** fails for the cosine between three quarters of pi and pi, rounded downwards. -/
theorem C86_cos_down : ∃ x a : ℚ, Ariadne.PBit.Rep 53 x ∧ 2 < x ∧ x < 3 ∧ cosRnd down53 x = some a ∧
    Real.cos x < a := by
  refine ⟨2710102255024463 / 2 ^ 50, -6684605323136645 / 2 ^ 53,
    ⟨2710102255024463, -50, by norm_num, by norm_num⟩, by norm_num, by norm_num, ?_, ?_⟩
  · decide +kernel
  · exact cos_lt 20 (by norm_num) (by decide +kernel)

/-- **C86** fails for the sine of small numbers, rounded upwards. -/
theorem C86_sin_up : ∃ x b : ℚ, Ariadne.PBit.Rep 53 x ∧ 0 < x ∧ x < 3 / 4 ∧ sinRnd up53 x = some b ∧
    (b : ℝ) < Real.sin x := by
  refine ⟨206032794125511 / 2 ^ 48, 6019875550321239 / 2 ^ 53,
    ⟨206032794125511, -48, by norm_num, by norm_num⟩, by norm_num, by norm_num, ?_, ?_⟩
  · decide +kernel
  · exact lt_sin 20 (by norm_num) (by decide +kernel)

/-- **C86** fails for the sine of small negative numbers, rounded downwards. -/
theorem C86_sin_down : ∃ x a : ℚ, Ariadne.PBit.Rep 53 x ∧ -(3 / 4) < x ∧ x < 0 ∧ sinRnd down53 x = some a ∧
    Real.sin x < a := by
  refine ⟨-6643205248688539 / 2 ^ 53, -3028545362169209 / 2 ^ 52,
    ⟨-6643205248688539, -53, by norm_num, by norm_num⟩, by norm_num, by norm_num, ?_, ?_⟩
  · decide +kernel
  · exact sin_lt 20 (by norm_num [abs_of_neg]) (by decide +kernel)

/-- **C86** fails for the sine of the double nearest to half of pi: rounded downwards it is too large, and rounded
upwards an assertion fails. -/
theorem C86_sin_half_pi : ∃ x a : ℚ, Ariadne.PBit.Rep 53 x ∧ sinRnd down53 x = some a ∧ Real.sin x < a ∧
    sinRnd up53 x = none := by
  refine ⟨884279719003555 / 2 ^ 49, 1, ⟨884279719003555, -49, by norm_num, by norm_num⟩, ?_, ?_, ?_⟩
  · decide +kernel
  · exact sin_lt 20 (by norm_num) (by decide +kernel)
  · decide +kernel

/-- **C86** fails for the tangent near minus half of pi, rounded upwards. -/
theorem C86_tan_up : ∃ x b : ℚ, Ariadne.PBit.Rep 53 x ∧ -2 < x ∧ x < -1 ∧ tanRnd up53 x = some b ∧
    (b : ℝ) < Real.tan x := by
  refine ⟨-883812133703869 / 2 ^ 49, -5295032822607455 / 2 ^ 42,
    ⟨-883812133703869, -49, by norm_num, by norm_num⟩, by norm_num, by norm_num, ?_, ?_⟩
  · decide +kernel
  · have hc := lt_cos (x := -883812133703869 / 2 ^ 49) (r := 0) 20 (by norm_num [abs_of_neg]) (by decide +kernel)
    have h1 := cos_enclosed (-883812133703869 / 2 ^ 49) 20 (by norm_num [abs_of_neg])
    have h2 := sin_enclosed (-883812133703869 / 2 ^ 49) 20 (by norm_num [abs_of_neg])
    rw [Real.tan_eq_sin_div_cos, lt_div_iff₀ (by exact_mod_cast hc)]
    refine lt_of_le_of_lt (mul_le_mul_of_nonpos_left h1.1 (by norm_num)) (lt_of_lt_of_le ?_ h2.1)
    exact_mod_cast (by decide +kernel : (-5295032822607455 / 2 ^ 42 : ℚ) *
      (cosSum 20 (-883812133703869 / 2 ^ 49) - trigErr 20 (-883812133703869 / 2 ^ 49)) <
      sinSum 20 (-883812133703869 / 2 ^ 49) - trigErr 20 (-883812133703869 / 2 ^ 49))

/-- **C86** fails for the tangent beyond half of pi, rounded downwards. -/
theorem C86_tan_down : ∃ x a : ℚ, Ariadne.PBit.Rep 53 x ∧ 9 < x ∧ x < 10 ∧ tanRnd down53 x = some a ∧
    Real.tan x < a := by
  refine ⟨5288875653764991 / 2 ^ 49, -8605517681723363 / 2 ^ 58,
    ⟨5288875653764991, -49, by norm_num, by norm_num⟩, by norm_num, by norm_num, ?_, ?_⟩
  · decide +kernel
  · have hc := cos_lt (x := 5288875653764991 / 2 ^ 49) (r := 0) 30 (by norm_num) (by decide +kernel)
    have h1 := cos_enclosed (5288875653764991 / 2 ^ 49) 30 (by norm_num)
    have h2 := sin_enclosed (5288875653764991 / 2 ^ 49) 30 (by norm_num)
    rw [Real.tan_eq_sin_div_cos, div_lt_iff_of_neg (by exact_mod_cast hc)]
    refine lt_of_le_of_lt (mul_le_mul_of_nonpos_left h1.1 (by norm_num)) (lt_of_lt_of_le ?_ h2.1)
    exact_mod_cast (by decide +kernel : (-8605517681723363 / 2 ^ 58 : ℚ) *
      (cosSum 30 (5288875653764991 / 2 ^ 49) - trigErr 30 (5288875653764991 / 2 ^ 49)) <
      sinSum 30 (5288875653764991 / 2 ^ 49) - trigErr 30 (5288875653764991 / 2 ^ 49))

/-- **C86** fails for the arc tangent between the constants `d` and `c`, rounded downwards. -/
theorem C86_atan_down : ∃ x a : ℚ, Ariadne.PBit.Rep 53 x ∧ atanD < x ∧ x < atanC ∧ atanRnd down53 x = some a ∧
    Real.arctan x < a := by
  refine ⟨1210680596099573 / 2 ^ 52, 1182719286016067 / 2 ^ 52,
    ⟨1210680596099573, -52, by norm_num, by norm_num⟩, by norm_num [atanD], by norm_num [atanC], ?_, ?_⟩
  · decide +kernel
  · have hp := Real.pi_gt_three
    have h1 := cos_enclosed (1182719286016067 / 2 ^ 52) 20 (by norm_num)
    have h2 := sin_enclosed (1182719286016067 / 2 ^ 52) 20 (by norm_num)
    have hc := lt_cos (x := 1182719286016067 / 2 ^ 52) (r := 0) 20 (by norm_num) (by decide +kernel)
    rw [← Real.arctan_tan (x := ((1182719286016067 / 2 ^ 52 : ℚ) : ℝ)) (by push_cast; linarith)
      (by push_cast; linarith)]
    apply Real.arctan_strictMono
    rw [Real.tan_eq_sin_div_cos, lt_div_iff₀ (by exact_mod_cast hc)]
    refine lt_of_le_of_lt (mul_le_mul_of_nonneg_left h1.2 (by norm_num)) (lt_of_lt_of_le ?_ h2.1)
    exact_mod_cast (by decide +kernel : (1210680596099573 / 2 ^ 52 : ℚ) *
      (cosSum 20 (1182719286016067 / 2 ^ 52) + trigErr 20 (1182719286016067 / 2 ^ 52)) <
      sinSum 20 (1182719286016067 / 2 ^ 52) - trigErr 20 (1182719286016067 / 2 ^ 52))

/-- **C87** fails for the logarithm of zero: in both modes the result is plus infinity, which is no lower bound for the
logarithms of small numbers. -/
theorem C87_log_zero (m : Mode) : logRnd m 0 = .inf := by
  simp [logRnd]

end Verif.Elementary
