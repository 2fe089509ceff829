import Verif.Elementary.BoundsTrig
import Verif.Elementary.Examples

/-!
# C88: bounds for which the trigonometric functions fail

The functions of single numbers are arbitrary, except that they are accurate.
-/

namespace Verif.Elementary

open Ariadne (Rounding)

section
variable {R : Rounding ℚ} {P Q : Point}

theorem cosN_congr (h1 : P.piDown = Q.piDown) (h2 : P.piUp = Q.piUp) (x : Iv) : cosN R P x = cosN R Q x := by
  simp only [cosN, piB, h1, h2]

theorem cosArg_congr (h1 : P.piDown = Q.piDown) (h2 : P.piUp = Q.piUp) (x : Iv) : cosArg R P x = cosArg R Q x := by
  simp only [cosArg, piTimes, cosN_congr h1 h2, h1, h2]

theorem tanN_congr (h1 : P.piDown = Q.piDown) (h2 : P.piUp = Q.piUp) (x : Iv) : tanN R P x = tanN R Q x := by
  simp only [tanN, piB, h1, h2]

theorem tanArg_congr (h1 : P.piDown = Q.piDown) (h2 : P.piUp = Q.piUp) (x : Iv) : tanArg R P x = tanArg R Q x := by
  simp only [tanArg, piTimes, tanN_congr h1 h2, h1, h2]

end

/-- Coarse functions of single numbers, with the bounds for `π` in double precision -/
def coarse (pd pu : ℚ) : Point := ⟨fun _ => -1, fun _ => 1, fun _ => 0, fun _ => 0, pd, pu⟩

/-- **C88** fails for the cosine: the midpoint is rounded to a number above `π`, so that a period is subtracted, and the
bounds extend more to the left than to the right of `-π`.  The upper bound is the cosine of the right end, but the cosine
of the left end is larger.  This holds for all functions of single numbers that are accurate up to `2^(-52)`. -/
theorem C88_cos_unsound (P : Point) (hd : P.piDown = piDown) (hu : P.piUp = piUp)
    (hP : ∀ x, R53.Rep x → (P.cosUp x : ℝ) ≤ Real.cos x + 1 / 2 ^ 52) :
    ∃ (x r : Iv) (t : ℝ), R53.Rep x.l ∧ R53.Rep x.u ∧ cosB R53 P x = some r ∧ x.Has t ∧ ¬r.Has (Real.cos t) := by
  have hy : cosArg R53 P ⟨7074237752028438 / 2 ^ 52, 5305678314021330 / 2 ^ 50⟩ =
      ⟨-21222713256085328 / 2 ^ 52, -7074237752028440 / 2 ^ 52⟩ := by
    rw [cosArg_congr (Q := coarse piDown piUp) hd hu]
    decide +kernel
  refine ⟨⟨7074237752028438 / 2 ^ 52, 5305678314021330 / 2 ^ 50⟩, ⟨-1, P.cosUp (-7074237752028440 / 2 ^ 52)⟩,
    ((7074237752028438 / 2 ^ 52 : ℚ) : ℝ), ⟨7074237752028438, -52, by norm_num, by norm_num⟩,
    ⟨5305678314021330, -50, by norm_num, by norm_num⟩, ?_, ⟨le_rfl, ?_⟩, ?_⟩
  · unfold cosB
    rw [if_pos (by norm_num), if_neg, if_pos, hy]
    · unfold cosCases
      rw [hd]
      rw [if_pos (by norm_num [piDown]), if_pos (by norm_num)]
    · rw [hy, hu]
      norm_num [piUp]
    · rw [show ((piB P).twice R53).l = R53.down (2 * piDown) by rw [← hd]; rfl]
      decide +kernel
  · exact_mod_cast (by norm_num : (7074237752028438 / 2 ^ 52 : ℚ) ≤ 5305678314021330 / 2 ^ 50)
  · rintro ⟨-, h⟩
    have h1 := hP (-7074237752028440 / 2 ^ 52) (rep53 (-7074237752028440) (-52) (by norm_num) (by norm_num))
    have h2 := cos_lt (x := -7074237752028440 / 2 ^ 52) (r := 1 / 2 ^ 53) 30 (by norm_num [abs_of_neg]) (by decide +kernel)
    have h3 := lt_cos (x := 7074237752028438 / 2 ^ 52) (r := 1 / 2 ^ 53 + 1 / 2 ^ 52) 30 (by norm_num) (by decide +kernel)
    push_cast at h h1 h2 h3
    linarith

/-- The cosine of double precision numbers is accurate enough where it is needed. -/
example : (cosRnd up53 (-7074237752028440 / 2 ^ 52)) = some (1 / 2 ^ 52) := by decide +kernel

/-- **C88** fails for the cosine of a number near `31π`: the number of periods is rounded to `16` and the argument is below
the lower bound of `-π`, so that an assertion fails. -/
theorem C88_cos_assertion (P : Point) (hd : P.piDown = piDown) (hu : P.piUp = piUp) :
    ∃ x : ℚ, R53.Rep x ∧ 97 < x ∧ x < 98 ∧ cosB R53 P ⟨x, x⟩ = none := by
  refine ⟨6853167822277551 / 70368744177664, rep53 6853167822277551 (-46) (by norm_num) (by norm_num), by norm_num,
    by norm_num, ?_⟩
  unfold cosB
  rw [if_pos le_rfl, if_neg, if_neg]
  · rw [cosArg_congr (Q := coarse piDown piUp) hd hu, hu]
    decide +kernel
  · rw [show ((piB P).twice R53).l = R53.down (2 * piDown) by rw [← hd]; rfl]
    decide +kernel

/-- Rounding to 55 bits -/
def R55 : Rounding ℚ := Ariadne.PBit.rounding 55 (by norm_num)
/-- `π` with 55 bits, rounded downwards -/
def piDown55 : ℚ := 28296951008113761 / 2 ^ 53
/-- `π` with 55 bits, rounded upwards -/
def piUp55 : ℚ := 28296951008113762 / 2 ^ 53

theorem lt_pi55 : (piDown55 : ℝ) < Real.pi := by
  have := Real.pi_gt_d20
  norm_num [piDown55]
  linarith

theorem pi55_lt : Real.pi < (piUp55 : ℝ) := by
  have := Real.pi_lt_d20
  norm_num [piUp55]
  linarith

/-- **C88** fails for the tangent with a precision of 55 bits: the value of `π` is rounded upwards, so that bounds that
contain the pole pass the assertions, and the lower bound is positive. -/
theorem C88_tan_pole (P : Point) (hd : P.piDown = piDown55) (hu : P.piUp = piUp55)
    (hP : ∀ x, R55.Rep x → Real.cos x ≠ 0 → Real.tan x - 1 ≤ (P.tanDown x : ℝ)) :
    ∃ (x r : Iv) (t : ℝ), R55.Rep x.l ∧ R55.Rep x.u ∧ tanB R55 P true x = some r ∧ x.Has t ∧ ¬r.Has (Real.tan t) := by
  have hy : tanArg R55 P ⟨-piUp55 / 2, 0⟩ = ⟨-piUp55 / 2, 0⟩ := by
    rw [tanArg_congr (Q := coarse piDown55 piUp55) hd hu]
    decide +kernel
  have hr : R55.Rep (-piUp55 / 2) := ⟨-14148475504056881, -53, by norm_num [piUp55], by norm_num⟩
  have hv : (piB P).value R55 = piUp55 := by
    rw [show piB P = ⟨piDown55, piUp55⟩ by rw [← hd, ← hu]; rfl]
    decide +kernel
  have hlt := pi55_lt
  have h3 := Real.pi_gt_three
  have hu4 : (piUp55 : ℝ) < 4 := by norm_num [piUp55]
  refine ⟨⟨-piUp55 / 2, 0⟩, ⟨P.tanDown (-piUp55 / 2), P.tanUp 0⟩, -1, hr, R55.rep_zero, ?_, ⟨?_, ?_⟩, ?_⟩
  · unfold tanB
    simp only
    rw [hy, hv, if_pos (by norm_num [piUp55]), if_neg]
    rw [Bool.true_and, Bool.not_eq_true', Bool.not_eq_false, Bool.and_eq_true, decide_eq_true_eq, decide_eq_true_eq]
    norm_num [piUp55]
  · push_cast
    linarith
  · push_cast
    norm_num
  · rintro ⟨h, -⟩
    have ht : 1 < Real.tan ((-piUp55 / 2 : ℚ) : ℝ) := by
      rw [← Real.tan_pi_div_four, ← Real.tan_add_pi ((-piUp55 / 2 : ℚ) : ℝ)]
      push_cast
      apply Real.tan_lt_tan_of_lt_of_lt_pi_div_two <;> linarith
    have hc : Real.cos ((-piUp55 / 2 : ℚ) : ℝ) ≠ 0 := by
      have : 0 < Real.cos (((-piUp55 / 2 : ℚ) : ℝ) + Real.pi) := by
        push_cast
        exact Real.cos_pos_of_mem_Ioo ⟨by linarith, by linarith⟩
      rw [Real.cos_add_pi] at this
      intro h0
      rw [h0] at this
      norm_num at this
    have h1 := hP _ hr hc
    have h2 : Real.tan (-1) < 0 := by
      rw [← Real.tan_zero]
      exact Real.tan_lt_tan_of_lt_of_lt_pi_div_two (by linarith) (by linarith) (by norm_num)
    linarith

/-- **C88** fails for the tangent if assertions are not compiled: the upper bound for the tangent of numbers between one and
two is negative. -/
theorem C88_tan_unchecked (P : Point) (hd : P.piDown = piDown) (hu : P.piUp = piUp)
    (hP : ∀ x, R53.Rep x → Real.cos x ≠ 0 → (P.tanUp x : ℝ) ≤ Real.tan x + 1) :
    tanB R53 P true ⟨1, 2⟩ = none ∧ ∃ (r : Iv) (t : ℝ), tanB R53 P false ⟨1, 2⟩ = some r ∧ (⟨1, 2⟩ : Iv).Has t ∧
      ¬r.Has (Real.tan t) := by
  have hy : tanArg R53 P ⟨1, 2⟩ = ⟨1, 2⟩ := by
    rw [tanArg_congr (Q := coarse piDown piUp) hd hu]
    decide +kernel
  have hv : (piB P).value R53 = piDown := by
    rw [show piB P = ⟨piDown, piUp⟩ by rw [← hd, ← hu]; rfl]
    decide +kernel
  have h3 := Real.pi_gt_three
  have h4 := Real.pi_lt_four
  constructor
  · unfold tanB
    simp only
    rw [hy, hv, if_pos (by norm_num), if_pos]
    rw [Bool.true_and, Bool.not_eq_true', Bool.and_eq_false_iff, decide_eq_false_iff_not, decide_eq_false_iff_not]
    right
    norm_num [piDown]
  · refine ⟨⟨P.tanDown 1, P.tanUp 2⟩, 1, ?_, ⟨?_, ?_⟩, ?_⟩
    · unfold tanB
      simp only
      rw [hy, if_pos (by norm_num), if_neg (by simp)]
    · norm_num
    · norm_num
    · rintro ⟨-, h⟩
      have ht : Real.tan ((2 : ℚ) : ℝ) < -1 := by
        rw [← Real.tan_pi_div_four, ← Real.tan_neg, ← Real.tan_sub_pi ((2 : ℚ) : ℝ)]
        push_cast
        apply Real.tan_lt_tan_of_lt_of_lt_pi_div_two <;> linarith
      have hc : Real.cos ((2 : ℚ) : ℝ) ≠ 0 := by
        have : 0 < Real.cos (((2 : ℚ) : ℝ) - Real.pi) := by
          push_cast
          exact Real.cos_pos_of_mem_Ioo ⟨by linarith, by linarith⟩
        rw [Real.cos_sub_pi] at this
        intro h0
        rw [h0] at this
        norm_num at this
      have h1 := hP 2 ⟨2, 0, by norm_num, by norm_num⟩ hc
      have h2 : 0 < Real.tan 1 := by
        rw [← Real.tan_zero]
        exact Real.tan_lt_tan_of_lt_of_lt_pi_div_two (by linarith) (by linarith) (by norm_num)
      linarith

/-- There are functions of single numbers that give bounds and are accurate. -/
theorem exists_sound : ∃ P : Point, P.Sound R53 ∧ P.piDown = piDown ∧ P.piUp = piUp ∧
    (∀ x, (P.cosUp x : ℝ) ≤ Real.cos x + 1 / 2 ^ 52) ∧ ∀ x, (P.tanUp x : ℝ) ≤ Real.tan x + 1 := by
  have h1 : ∀ r : ℝ, ∃ q : ℚ, r - 1 / 2 ^ 52 < q ∧ (q : ℝ) < r := fun r => exists_rat_btwn (by norm_num)
  have h2 : ∀ r : ℝ, ∃ q : ℚ, r < q ∧ (q : ℝ) < r + 1 / 2 ^ 52 := fun r => exists_rat_btwn (by norm_num)
  choose d hd using h1
  choose u hu using h2
  refine ⟨⟨fun x => d (Real.cos x), fun x => u (Real.cos x), fun x => d (Real.tan x), fun x => u (Real.tan x), piDown, piUp⟩,
    ⟨fun x _ => (hd _).2.le, fun x _ => (hu _).1.le, fun x _ _ => (hd _).2.le, fun x _ _ => (hu _).1.le, lt_pi.le, pi_lt.le⟩,
    rfl, rfl, fun x => (hu _).2.le, fun x => (hu _).2.le.trans ?_⟩
  have : (1 : ℝ) / 2 ^ 52 ≤ 1 := by norm_num
  linarith

/-- The hypotheses of the soundness of the cosine are met: bounds around three, with zero periods. -/
example (P : Point) (hd : P.piDown = piDown) (hu : P.piUp = piUp) :
    (∃ r, cosB R53 P ⟨5 / 2, 3⟩ = some r) ∧ (2 * cosN R53 P ⟨5 / 2, 3⟩ - 1) * Real.pi ≤ (((5 / 2 : ℚ) : ℝ) + (3 : ℚ)) / 2 := by
  have hn : cosN R53 P ⟨5 / 2, 3⟩ = 0 := by
    rw [cosN_congr (Q := coarse piDown piUp) hd hu]
    decide +kernel
  have hy : cosArg R53 P ⟨5 / 2, 3⟩ = ⟨5 / 2, 3⟩ := by
    rw [cosArg_congr (Q := coarse piDown piUp) hd hu]
    decide +kernel
  constructor
  · refine ⟨⟨P.cosDown 3, P.cosUp (5 / 2)⟩, ?_⟩
    unfold cosB
    rw [if_pos (by norm_num), if_neg, if_pos, hy]
    · unfold cosCases
      rw [hd, hu]
      rw [if_neg (by norm_num [piDown]), if_neg (by norm_num), if_pos (by norm_num [piUp]), if_pos (by norm_num [piDown])]
    · rw [hy, hu]
      norm_num [piUp]
    · rw [show ((piB P).twice R53).l = R53.down (2 * piDown) by rw [← hd]; rfl]
      decide +kernel
  · rw [hn]
    have := Real.pi_pos
    push_cast
    norm_num
    linarith

end Verif.Elementary
