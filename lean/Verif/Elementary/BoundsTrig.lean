import Verif.Elementary.Cos
import Mathlib.Analysis.SpecialFunctions.Trigonometric.Bounds
import Mathlib.Topology.Algebra.Order.Floor
import Mathlib.Analysis.SpecialFunctions.Trigonometric.Arctan

/-!
# C88: trigonometric functions of intervals

Model of `Operations<Bounds<F>>::_sin`, `_cos`, `_tan` (source/numeric/float_bounds.tpl.hpp 70-126) for finite bounds.  The
functions of single numbers are parameters, since they differ between the classes of floating-point numbers.
-/

namespace Verif.Elementary

open Ariadne (Rounding)

/-- `Bounds<F>` with finite end points -/
structure Iv where
  l : ℚ
  u : ℚ
deriving DecidableEq

/-- The real numbers in the bounds -/
def Iv.Has (x : Iv) (t : ℝ) : Prop := (x.l : ℝ) ≤ t ∧ t ≤ (x.u : ℝ)

/-- The functions of single numbers: `cos(down,x)`, `cos(up,x)`, `tan(down,x)`, `tan(up,x)`, `F::pi(down,pr)` and
`F::pi(up,pr)` -/
structure Point where
  cosDown : ℚ → ℚ
  cosUp : ℚ → ℚ
  tanDown : ℚ → ℚ
  tanUp : ℚ → ℚ
  piDown : ℚ
  piUp : ℚ

/-- The functions are correctly rounded in the sense that they give bounds. -/
structure Point.Sound (P : Point) (R : Rounding ℚ) : Prop where
  cosDown : ∀ x, R.Rep x → (P.cosDown x : ℝ) ≤ Real.cos x
  cosUp : ∀ x, R.Rep x → Real.cos x ≤ P.cosUp x
  tanDown : ∀ x, R.Rep x → Real.cos x ≠ 0 → (P.tanDown x : ℝ) ≤ Real.tan x
  tanUp : ∀ x, R.Rep x → Real.cos x ≠ 0 → Real.tan x ≤ P.tanUp x
  piDown : (P.piDown : ℝ) ≤ Real.pi
  piUp : Real.pi ≤ P.piUp

variable (R : Rounding ℚ) (P : Point)

/-- `value_raw()` (float_bounds.tpl.hpp 61-62): the midpoint, rounded to nearest -/
def Iv.value (x : Iv) : ℚ := R.near (x.l + x.u) / 2

/-- `error()` (63-64) -/
def Iv.error (x : Iv) : ℚ := max (R.up (x.u - x.value R)) (R.up (x.value R - x.l))

/-- `std::round` and `mpfr_round`: halves are rounded away from zero. -/
def roundHalf (q : ℚ) : ℤ := if 0 ≤ q then ⌊q + 1 / 2⌋ else -⌊-q + 1 / 2⌋

/-- `n*pi_val`, the product of a number and positive bounds -/
def piTimes (n : ℤ) : Iv :=
  if 0 ≤ n then ⟨R.down (n * P.piDown), R.up (n * P.piUp)⟩ else ⟨R.down (n * P.piUp), R.up (n * P.piDown)⟩

/-- `2*x` -/
def Iv.twice (x : Iv) : Iv := ⟨R.down (2 * x.l), R.up (2 * x.u)⟩

/-- `x-y` -/
def Iv.sub (x y : Iv) : Iv := ⟨R.down (x.l - y.u), R.up (x.u - y.l)⟩

/-- `_pi` (70-72) -/
def piB : Iv := ⟨P.piDown, P.piUp⟩

/-- `n` (88) -/
def cosN (x : Iv) : ℤ := roundHalf (R.near (x.value R / (((piB P).twice R).value R)))

/-- `y` (89) -/
def cosArg (x : Iv) : Iv := x.sub R ((piTimes R P (cosN R P x)).twice R)

/-- The case distinction (94-108); `none` for `assert(false)` -/
def cosCases (y : Iv) : Option Iv :=
  let tpl := ((piB P).twice R).l
  if y.l ≤ -P.piDown then
    if y.u ≤ 0 then some ⟨-1, P.cosUp y.u⟩ else some ⟨-1, 1⟩
  else if y.l ≤ 0 then
    if y.u ≤ 0 then some ⟨P.cosDown y.l, P.cosUp y.u⟩
    else if y.u ≤ P.piDown then some ⟨P.cosDown (max (-y.l) y.u), 1⟩
    else some ⟨-1, 1⟩
  else if y.l ≤ P.piUp then
    if y.u ≤ P.piDown then some ⟨P.cosDown y.u, P.cosUp y.l⟩
    else if y.u ≤ tpl then some ⟨-1, P.cosUp (min y.l (R.down (tpl - y.u)))⟩
    else some ⟨-1, 1⟩
  else none

/-- `_cos` (78-112); `none` if an assertion fails -/
def cosB (x : Iv) : Option Iv :=
  if x.l ≤ x.u then
    if ((piB P).twice R).l < x.error R then some ⟨-1, 1⟩
    else if (cosArg R P x).l ≤ P.piUp ∧ -P.piUp ≤ (cosArg R P x).u then cosCases R P (cosArg R P x)
    else none
  else none

/-- `x-hlf(_pi(x.precision()))` (75) -/
def sinArg (x : Iv) : Iv := ⟨R.down (x.l - P.piUp / 2), R.up (x.u - P.piDown / 2)⟩

/-- `_sin` (74-76) -/
def sinB (x : Iv) : Option Iv := cosB R P (sinArg R P x)

/-- `n` (119) -/
def tanN (x : Iv) : ℤ := roundHalf (R.near (x.value R / ((piB P).value R)))

/-- `y` (121) -/
def tanArg (x : Iv) : Iv := x.sub R (piTimes R P (tanN R P x))

/-- `_tan` (114-126); `none` if `ARIADNE_ASSERT` fails, or if `assert` fails, which is compiled only if `chk` is true -/
def tanB (chk : Bool) (x : Iv) : Option Iv :=
  let y := tanArg R P x
  if x.l ≤ x.u then
    if chk && !(decide (-((piB P).value R / 2) ≤ y.l) && decide (y.u ≤ (piB P).value R / 2)) then none
    else some ⟨P.tanDown y.l, P.tanUp y.u⟩
  else none

/-! ## Arguments -/

variable {R P}

theorem piTimes_has (hP : P.Sound R) (n : ℤ) : (piTimes R P n).Has (n * Real.pi) := by
  unfold piTimes
  have h1 := hP.piDown
  have h2 := hP.piUp
  split_ifs with h
  · have hn : (0 : ℝ) ≤ n := by exact_mod_cast h
    have h3 : ((R.down (n * P.piDown) : ℚ) : ℝ) ≤ ((n * P.piDown : ℚ) : ℝ) := Rat.cast_le.2 (R.down_le _)
    have h4 : ((n * P.piUp : ℚ) : ℝ) ≤ ((R.up (n * P.piUp) : ℚ) : ℝ) := Rat.cast_le.2 (R.le_up _)
    push_cast at h3 h4
    exact ⟨h3.trans (mul_le_mul_of_nonneg_left h1 hn), (mul_le_mul_of_nonneg_left h2 hn).trans h4⟩
  · have hn : (n : ℝ) ≤ 0 := by exact_mod_cast (not_le.1 h).le
    have h3 : ((R.down (n * P.piUp) : ℚ) : ℝ) ≤ ((n * P.piUp : ℚ) : ℝ) := Rat.cast_le.2 (R.down_le _)
    have h4 : ((n * P.piDown : ℚ) : ℝ) ≤ ((R.up (n * P.piDown) : ℚ) : ℝ) := Rat.cast_le.2 (R.le_up _)
    push_cast at h3 h4
    exact ⟨h3.trans (mul_le_mul_of_nonpos_left h2 hn), (mul_le_mul_of_nonpos_left h1 hn).trans h4⟩

theorem twice_has {x : Iv} {t : ℝ} (h : x.Has t) : (x.twice R).Has (2 * t) := by
  have h3 : ((R.down (2 * x.l) : ℚ) : ℝ) ≤ ((2 * x.l : ℚ) : ℝ) := Rat.cast_le.2 (R.down_le _)
  have h4 : ((2 * x.u : ℚ) : ℝ) ≤ ((R.up (2 * x.u) : ℚ) : ℝ) := Rat.cast_le.2 (R.le_up _)
  push_cast at h3 h4
  exact ⟨h3.trans (by linarith [h.1]), h4.trans' (by linarith [h.2])⟩

theorem sub_has {x y : Iv} {s t : ℝ} (hs : x.Has s) (ht : y.Has t) : (x.sub R y).Has (s - t) := by
  have h3 : ((R.down (x.l - y.u) : ℚ) : ℝ) ≤ ((x.l - y.u : ℚ) : ℝ) := Rat.cast_le.2 (R.down_le _)
  have h4 : ((x.u - y.l : ℚ) : ℝ) ≤ ((R.up (x.u - y.l) : ℚ) : ℝ) := Rat.cast_le.2 (R.le_up _)
  push_cast at h3 h4
  exact ⟨h3.trans (by linarith [hs.1, ht.2]), h4.trans' (by linarith [hs.2, ht.1])⟩

theorem cosArg_has (hP : P.Sound R) {x : Iv} {t : ℝ} (h : x.Has t) :
    (cosArg R P x).Has (t - cosN R P x * (2 * Real.pi)) := by
  have := sub_has (R := R) h (twice_has (R := R) (piTimes_has hP (cosN R P x)))
  rw [show (cosN R P x : ℝ) * (2 * Real.pi) = 2 * (cosN R P x * Real.pi) by ring]
  exact this

theorem tanArg_has (hP : P.Sound R) {x : Iv} {t : ℝ} (h : x.Has t) :
    (tanArg R P x).Has (t - tanN R P x * Real.pi) := sub_has h (piTimes_has hP _)

/-! ## Cosine -/

theorem cos_le_of_between {m t : ℝ} (h0 : 0 ≤ m) (h1 : m ≤ t) (h2 : t ≤ 2 * Real.pi - m) : Real.cos t ≤ Real.cos m := by
  rcases le_total t Real.pi with h | h
  · exact Real.cos_le_cos_of_nonneg_of_le_pi h0 h h1
  · have := Real.cos_le_cos_of_nonneg_of_le_pi h0 (y := 2 * Real.pi - t) (by linarith) (by linarith)
    rwa [Real.cos_two_pi_sub] at this

/-- The case distinction encloses the cosine, if the bounds do not extend more to the left than to the right of `-π`. -/
theorem cosCases_has (hP : P.Sound R) {y r : Iv} {t s : ℝ} (hyl : R.Rep y.l) (hyu : R.Rep y.u)
    (hr : cosCases R P y = some r) (ht : y.Has t) (hs : t + s ≥ -(2 * Real.pi)) (hs2 : s ≤ y.u) : r.Has (Real.cos t) := by
  unfold cosCases at hr
  simp only at hr
  obtain ⟨t1, t2⟩ := ht
  have hpi := Real.pi_pos
  have c1 := Real.neg_one_le_cos t
  have c2 := Real.cos_le_one t
  have hpd := hP.piDown
  have hpu := hP.piUp
  have tpl : ((((piB P).twice R).l : ℚ) : ℝ) ≤ 2 * Real.pi := by
    have h3 : ((R.down (2 * P.piDown) : ℚ) : ℝ) ≤ ((2 * P.piDown : ℚ) : ℝ) := Rat.cast_le.2 (R.down_le _)
    push_cast at h3
    exact h3.trans (by linarith)
  have full : (⟨-1, 1⟩ : Iv).Has (Real.cos t) := by
    constructor <;> push_cast <;> assumption
  have neg1 : (((-1 : ℚ)) : ℝ) ≤ Real.cos t := by push_cast; assumption
  have one1 : Real.cos t ≤ ((1 : ℚ) : ℝ) := by push_cast; assumption
  by_cases h1 : y.l ≤ -P.piDown
  · rw [if_pos h1] at hr
    by_cases h2 : y.u ≤ 0
    · rw [if_pos h2] at hr
      obtain rfl := Option.some.inj hr
      refine ⟨neg1, le_trans ?_ (hP.cosUp _ hyu)⟩
      have h2' : (y.u : ℝ) ≤ 0 := by exact_mod_cast h2
      have := cos_le_of_between (m := -(y.u : ℝ)) (t := -t) (by linarith) (by linarith) (by linarith)
      rwa [Real.cos_neg, Real.cos_neg] at this
    · rw [if_neg h2] at hr
      obtain rfl := Option.some.inj hr
      exact full
  rw [if_neg h1] at hr
  have h1' : -Real.pi < (y.l : ℝ) := by
    have : ((-P.piDown : ℚ) : ℝ) < y.l := Rat.cast_lt.2 (not_le.1 h1)
    push_cast at this
    linarith
  by_cases h2 : y.l ≤ 0
  · rw [if_pos h2] at hr
    by_cases h3 : y.u ≤ 0
    · rw [if_pos h3] at hr
      obtain rfl := Option.some.inj hr
      have h3' : (y.u : ℝ) ≤ 0 := by exact_mod_cast h3
      refine ⟨(hP.cosDown _ hyl).trans ?_, le_trans ?_ (hP.cosUp _ hyu)⟩
      · have := Real.cos_le_cos_of_nonneg_of_le_pi (x := -t) (y := -(y.l : ℝ)) (by linarith) (by linarith) (by linarith)
        rwa [Real.cos_neg, Real.cos_neg] at this
      · have := Real.cos_le_cos_of_nonneg_of_le_pi (x := -(y.u : ℝ)) (y := -t) (by linarith) (by linarith) (by linarith)
        rwa [Real.cos_neg, Real.cos_neg] at this
    rw [if_neg h3] at hr
    by_cases h4 : y.u ≤ P.piDown
    · rw [if_pos h4] at hr
      obtain rfl := Option.some.inj hr
      have h4' : (y.u : ℝ) ≤ Real.pi := (Rat.cast_le.2 h4 : (y.u : ℝ) ≤ P.piDown).trans hpd
      have hm : R.Rep (max (-y.l) y.u) := by
        rcases max_choice (-y.l) y.u with h | h <;> rw [h]
        · exact R.rep_neg _ hyl
        · exact hyu
      refine ⟨(hP.cosDown _ hm).trans ?_, one1⟩
      push_cast
      have hab : |t| ≤ max (-(y.l : ℝ)) y.u := by
        rw [abs_le]
        constructor
        · have := le_max_left (-(y.l : ℝ)) (y.u : ℝ)
          linarith
        · exact t2.trans (le_max_right _ _)
      have := Real.cos_le_cos_of_nonneg_of_le_pi (abs_nonneg t) (max_le (by linarith) h4') hab
      rwa [Real.cos_abs] at this
    · rw [if_neg h4] at hr
      obtain rfl := Option.some.inj hr
      exact full
  rw [if_neg h2] at hr
  have h2' : (0 : ℝ) < y.l := by exact_mod_cast not_le.1 h2
  by_cases h3 : y.l ≤ P.piUp
  · rw [if_pos h3] at hr
    by_cases h4 : y.u ≤ P.piDown
    · rw [if_pos h4] at hr
      obtain rfl := Option.some.inj hr
      have h4' : (y.u : ℝ) ≤ Real.pi := (Rat.cast_le.2 h4 : (y.u : ℝ) ≤ P.piDown).trans hpd
      exact ⟨(hP.cosDown _ hyu).trans (Real.cos_le_cos_of_nonneg_of_le_pi (by linarith) h4' t2),
        (Real.cos_le_cos_of_nonneg_of_le_pi h2'.le (by linarith) t1).trans (hP.cosUp _ hyl)⟩
    rw [if_neg h4] at hr
    by_cases h5 : y.u ≤ ((piB P).twice R).l
    · rw [if_pos h5] at hr
      obtain rfl := Option.some.inj hr
      set m := min y.l (R.down (((piB P).twice R).l - y.u)) with hm
      have hmr : R.Rep m := by
        rcases min_choice y.l (R.down (((piB P).twice R).l - y.u)) with h | h <;> rw [hm, h]
        · exact hyl
        · exact R.rep_down _
      have hm0 : 0 ≤ m := le_min (not_le.1 h2).le (R.down_max _ _ R.rep_zero (by linarith))
      have hm1 : m ≤ ((piB P).twice R).l - y.u := (min_le_right _ _).trans (R.down_le _)
      have hm2 : (m : ℝ) ≤ ((((piB P).twice R).l : ℚ) : ℝ) - y.u := by exact_mod_cast hm1
      have hm3 : (m : ℝ) ≤ y.l := by exact_mod_cast min_le_left y.l (R.down (((piB P).twice R).l - y.u))
      exact ⟨neg1, (cos_le_of_between (by exact_mod_cast hm0) (hm3.trans t1) (by linarith)).trans (hP.cosUp _ hmr)⟩
    · rw [if_neg h5] at hr
      obtain rfl := Option.some.inj hr
      exact full
  · rw [if_neg h3] at hr
    cases hr

/-- **C88** (cosine).  If the functions of single numbers give bounds, then the cosine of bounds contains the cosine of every
number in the bounds.  Missing: the midpoint must not be below `(2n-1)π` for the number `n` of periods that is subtracted
(`C88_cos_unsound`), and no assertion may fail (`C88_cos_assertion`). -/
theorem C88_cos_partial (hP : P.Sound R) {x r : Iv} {t : ℝ} (hr : cosB R P x = some r) (ht : x.Has t)
    (hn : (2 * cosN R P x - 1) * Real.pi ≤ ((x.l : ℝ) + x.u) / 2) : r.Has (Real.cos t) := by
  unfold cosB at hr
  by_cases h1 : x.l ≤ x.u
  · rw [if_pos h1] at hr
    by_cases h2 : ((piB P).twice R).l < x.error R
    · rw [if_pos h2] at hr
      obtain rfl := Option.some.inj hr
      constructor <;> push_cast
      · exact Real.neg_one_le_cos t
      · exact Real.cos_le_one t
    · rw [if_neg h2] at hr
      by_cases h3 : (cosArg R P x).l ≤ P.piUp ∧ -P.piUp ≤ (cosArg R P x).u
      · rw [if_pos h3] at hr
        have hu : x.Has x.u := ⟨by exact_mod_cast h1, le_rfl⟩
        have h4 := cosCases_has hP (s := x.u - cosN R P x * (2 * Real.pi)) (R.rep_down _) (R.rep_up _) hr
          (cosArg_has hP ht) (by nlinarith [ht.1]) (cosArg_has hP hu).2
        rwa [Real.cos_sub_int_mul_two_pi] at h4
      · rw [if_neg h3] at hr
        cases hr
  · rw [if_neg h1] at hr
    cases hr

/-- **C88** (sine): as for the cosine. -/
theorem C88_sin_partial (hP : P.Sound R) {x r : Iv} {t : ℝ} (hr : sinB R P x = some r) (ht : x.Has t)
    (hn : (2 * cosN R P (sinArg R P x) - 1) * Real.pi ≤ (((sinArg R P x).l : ℝ) + (sinArg R P x).u) / 2) :
    r.Has (Real.sin t) := by
  have h1 : (sinArg R P x).Has (t - Real.pi / 2) := by
    have h3 : ((R.down (x.l - P.piUp / 2) : ℚ) : ℝ) ≤ ((x.l - P.piUp / 2 : ℚ) : ℝ) := Rat.cast_le.2 (R.down_le _)
    have h4 : ((x.u - P.piDown / 2 : ℚ) : ℝ) ≤ ((R.up (x.u - P.piDown / 2) : ℚ) : ℝ) := Rat.cast_le.2 (R.le_up _)
    push_cast at h3 h4
    have h5 := hP.piDown
    have h6 := hP.piUp
    exact ⟨h3.trans (by linarith [ht.1]), h4.trans' (by linarith [ht.2])⟩
  have h2 := C88_cos_partial hP hr h1 hn
  rwa [Real.cos_sub_pi_div_two] at h2

/-! ## Tangent -/

theorem tan_mono {s t : ℝ} (h0 : -(Real.pi / 2) < s) (h1 : t < Real.pi / 2) (h : s ≤ t) : Real.tan s ≤ Real.tan t := by
  rcases h.eq_or_lt with h | h
  · rw [h]
  · exact (Real.tan_lt_tan_of_lt_of_lt_pi_div_two h0 h1 h).le

/-- **C88** (tangent).  If assertions are compiled, the tangent of bounds contains the tangent of every number in the
bounds.  Missing: the rounded value of `π` must be below `π` (`C88_tan_pole`). -/
theorem C88_tan_partial (hP : P.Sound R) {x r : Iv} {t : ℝ} (hv : (((piB P).value R : ℚ) : ℝ) < Real.pi)
    (hr : tanB R P true x = some r) (ht : x.Has t) : r.Has (Real.tan t) := by
  unfold tanB at hr
  simp only [Bool.true_and] at hr
  by_cases h1 : x.l ≤ x.u
  · rw [if_pos h1] at hr
    by_cases h2 : -((piB P).value R / 2) ≤ (tanArg R P x).l ∧ (tanArg R P x).u ≤ (piB P).value R / 2
    · rw [if_neg (by simp [h2.1, h2.2])] at hr
      obtain rfl := Option.some.inj hr
      obtain ⟨t1, t2⟩ := tanArg_has hP ht
      have a1 : -(Real.pi / 2) < ((tanArg R P x).l : ℝ) := by
        have : ((-((piB P).value R / 2) : ℚ) : ℝ) ≤ (tanArg R P x).l := Rat.cast_le.2 h2.1
        push_cast at this
        linarith
      have a2 : ((tanArg R P x).u : ℝ) < Real.pi / 2 := by
        have : ((tanArg R P x).u : ℝ) ≤ (((piB P).value R / 2 : ℚ) : ℝ) := Rat.cast_le.2 h2.2
        push_cast at this
        linarith
      have k1 : Real.cos ((tanArg R P x).l : ℝ) ≠ 0 := (Real.cos_pos_of_mem_Ioo ⟨by linarith, by linarith⟩).ne'
      have k2 : Real.cos ((tanArg R P x).u : ℝ) ≠ 0 := (Real.cos_pos_of_mem_Ioo ⟨by linarith, by linarith⟩).ne'
      rw [← Real.tan_sub_int_mul_pi t (tanN R P x)]
      exact ⟨(hP.tanDown _ (R.rep_down _) k1).trans (tan_mono a1 (by linarith) t1),
        (tan_mono (by linarith) a2 t2).trans (hP.tanUp _ (R.rep_up _) k2)⟩
    · rw [if_pos (by
        simp only [Bool.not_eq_true', Bool.and_eq_false_iff, decide_eq_false_iff_not]
        tauto)] at hr
      cases hr
  · rw [if_neg h1] at hr
    cases hr

end Verif.Elementary
