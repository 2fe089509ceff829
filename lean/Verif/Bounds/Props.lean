import Verif.Bounds.Lemmas

/-!
# C05 - C08: floating-point bounds
-/

namespace Ariadne

variable {K : Type*} [Field K] [LinearOrder K] [IsStrictOrderedRing K]

/-! ## Instances of the rounding contract -/

/-- Rounding without overflow. -/
def XRounding.ofRounding (R : Rounding K) : XRounding K where
  Rep := R.Rep
  down x := .fin (R.down x)
  up x := .fin (R.up x)
  near x := .fin (R.near x)
  down_le x := by simpa using R.down_le x
  le_up x := by simpa using R.le_up x
  down_max x y hy h := by simpa using R.down_max x y hy h
  up_min x y hy h := by simpa using R.up_min x y hy h
  near_cases x := by rcases R.near_cases x with h | h <;> simp [h]
  rep_zero := R.rep_zero
  rep_one := R.rep_one

/-- Rounding with overflow beyond a largest finite number `M`, as in IEEE-754. -/
def XRounding.overflow (R : Rounding K) (M : K) (hM : R.Rep M) (h1 : 1 ≤ M) : XRounding K where
  Rep y := R.Rep y ∧ |y| ≤ M
  down x := if M < R.down x then .fin M else if R.down x < -M then .ninf else .fin (R.down x)
  up x := if R.up x < -M then .fin (-M) else if M < R.up x then .pinf else .fin (R.up x)
  near x := if M < R.near x then .pinf else if R.near x < -M then .ninf else .fin (R.near x)
  down_le x := by
    have := R.down_le x
    split_ifs <;> simp [Ext.le] <;> linarith
  le_up x := by
    have := R.le_up x
    split_ifs <;> simp [Ext.le] <;> linarith
  down_max x y hy h := by
    have h2 := R.down_max x y hy.1 h
    have h3 := abs_le.1 hy.2
    split_ifs <;> simp [Ext.le] <;> linarith
  up_min x y hy h := by
    have h2 := R.up_min x y hy.1 h
    have h3 := abs_le.1 hy.2
    split_ifs <;> simp [Ext.le] <;> linarith
  near_cases x := by
    have h2 := (R.down_le x).trans (R.le_up x)
    rcases R.near_cases x with h | h <;> rw [h] <;> split_ifs <;>
      first | (left; rfl) | (right; rfl) | (exfalso; linarith)
  rep_zero := ⟨R.rep_zero, by simp; linarith⟩
  rep_one := ⟨R.rep_one, by simpa using h1⟩

namespace Bounds

variable (R : XRounding K)

/-! ## C05: arithmetic -/

/-- C05: conversion of an exact number. -/
theorem C05_ofExact (x : K) : (ofExact R x).Contains x := ⟨R.down_lower x, R.up_upper x⟩

/-- C05: addition, for all bounds (infinite ones included). -/
theorem C05_add {X Y : Bounds K} {x y : K} (hx : X.Contains x) (hy : Y.Contains y) :
    (add R X Y).Contains (x + y) := ⟨add_down R hx.1 hy.1, add_up R hx.2 hy.2⟩

/-- C05: subtraction, for all bounds. -/
theorem C05_sub {X Y : Bounds K} {x y : K} (hx : X.Contains x) (hy : Y.Contains y) :
    (sub R X Y).Contains (x - y) := ⟨sub_down R hx.1 hy.2, sub_up R hx.2 hy.1⟩

/-- C05: negation. -/
theorem C05_neg {X : Bounds K} {x : K} (hx : X.Contains x) : (neg X).Contains (-x) :=
  ⟨Ext.isLower_neg hx.2, Ext.isUpper_neg hx.1⟩

theorem C05_pos {X : Bounds K} {x : K} (hx : X.Contains x) : (pos X).Contains x := hx

/-- C05: halving. -/
theorem C05_hlf {X : Bounds K} {x : K} (hx : X.Contains x) : (hlf X).Contains (x / 2) := by
  obtain ⟨l, u⟩ := X
  obtain ⟨h1, h2⟩ := hx
  constructor
  · cases l <;> simp [IsLower, hlf, Ext.hlf] at *; linarith
  · cases u <;> simp [IsUpper, hlf, Ext.hlf] at *; linarith

private theorem not_le_zero {a : Ext K} {x : K} (ha : IsLower a x) (h : ¬ Ext.le (.fin 0) a = true) :
    IsLower a 0 := by
  cases a <;> simp [IsLower, Ext.le] at *; linarith

private theorem not_zero_le {b : Ext K} {x : K} (hb : IsUpper b x) (h : ¬ Ext.le b (.fin 0) = true) :
    IsUpper b 0 := by
  cases b <;> simp [IsUpper, Ext.le] at *; linarith

private theorem down_ne_nan (x : K) : R.down x ≠ .nan := by
  intro h; have := R.down_lower x; rw [h] at this; exact this

private theorem up_ne_nan (x : K) : R.up x ≠ .nan := by
  intro h; have := R.up_upper x; rw [h] at this; exact this

/-- Straddling endpoints never give `0 * inf`. -/
private theorem mul_ne_nan_of_pos {a b : Ext K} {rnd : K → Ext K} (hr : ∀ x, rnd x ≠ .nan)
    (ha : a ≠ .nan) (hb : b ≠ .nan) (ha0 : a ≠ .fin 0) (hb0 : b ≠ .fin 0) :
    Ext.mul rnd a b ≠ .nan := by
  cases a <;> cases b <;> simp [Ext.mul, Ext.infSign] at * <;> try exact hr _
  all_goals
    rename_i t
    rcases lt_trichotomy t 0 with h | h | h
    · simp [h, h.not_gt]
    · contradiction
    · simp [h, h.not_gt]

private theorem mul_core {X Y : Bounds K} {x y : K} (hx : X.Contains x) (hy : Y.Contains y)
    (hn : (mul R X Y).NoNaN) : (mul R X Y).Contains (x * y) := by
  obtain ⟨a, b⟩ := X
  obtain ⟨c, d⟩ := Y
  obtain ⟨hx1, hx2⟩ := hx
  obtain ⟨hy1, hy2⟩ := hy
  unfold mul at hn ⊢
  simp only at *
  split_ifs at hn ⊢ with h1 h2 h3 h4 h5 h6 h7 h8
  · rw [Ext.fin_le_iff] at h1 h2
    have hx0 : 0 ≤ x := by
      cases a <;> simp [IsLower, IsUpper] at * <;> linarith
    exact ⟨mul_down_pp R hx1 hy1 h1 h2,
      mul_up_pp R hx2 hy2 (Ext.isUpper_mono hx2 hx0) (by
        cases c <;> cases d <;> simp [IsLower, IsUpper] at * <;> linarith) (Or.inl hx0) hn.2⟩
  · rw [Ext.fin_le_iff] at h1
    rw [Ext.le_fin_iff] at h3
    have hx0 : 0 ≤ x := by
      cases a <;> simp [IsLower, IsUpper] at * <;> linarith
    exact ⟨mul_down_pn R hx2 hy1 (Ext.isUpper_mono hx2 hx0) (not_le_zero hy1 h2) (Or.inl hx0) hn.1,
      mul_up_pn R hx1 hy2 h1 h3⟩
  · rw [Ext.fin_le_iff] at h1
    have hx0 : 0 ≤ x := by
      cases a <;> simp [IsLower, IsUpper] at * <;> linarith
    exact ⟨mul_down_pn R hx2 hy1 (Ext.isUpper_mono hx2 hx0) (not_le_zero hy1 h2) (Or.inl hx0) hn.1,
      mul_up_pp R hx2 hy2 (Ext.isUpper_mono hx2 hx0) (not_zero_le hy2 h3) (Or.inl hx0) hn.2⟩
  · rw [Ext.fin_le_iff] at h5
    rw [Ext.le_fin_iff] at h4
    have hx0 : x ≤ 0 := by
      cases b <;> simp [IsLower, IsUpper] at * <;> linarith
    have hd : IsUpper d 0 := by
      cases c <;> cases d <;> simp [IsLower, IsUpper] at * <;> linarith
    exact ⟨mul_down_np R hx1 hy2 (not_le_zero hx1 h1) hd (Or.inr hx0) hn.1,
      mul_up_np R hx2 hy1 h4 h5⟩
  · rw [Ext.le_fin_iff] at h4 h6
    have hx0 : x ≤ 0 := by
      cases b <;> simp [IsLower, IsUpper] at * <;> linarith
    exact ⟨mul_down_nn R hx2 hy2 h4 h6,
      mul_up_nn R hx1 hy1 (not_le_zero hx1 h1) (not_le_zero hy1 h5) (Or.inl hx0) hn.2⟩
  · rw [Ext.le_fin_iff] at h4
    have hx0 : x ≤ 0 := by
      cases b <;> simp [IsLower, IsUpper] at * <;> linarith
    exact ⟨mul_down_np R hx1 hy2 (not_le_zero hx1 h1) (not_zero_le hy2 h6) (Or.inr hx0) hn.1,
      mul_up_nn R hx1 hy1 (not_le_zero hx1 h1) (not_le_zero hy1 h5) (Or.inl hx0) hn.2⟩
  · rw [Ext.fin_le_iff] at h7
    have hy0 : 0 ≤ y := by
      cases c <;> simp [IsLower, IsUpper] at * <;> linarith
    exact ⟨mul_down_np R hx1 hy2 (not_le_zero hx1 h1) (Ext.isUpper_mono hy2 hy0) (Or.inl hy0) hn.1,
      mul_up_pp R hx2 hy2 (not_zero_le hx2 h4) (Ext.isUpper_mono hy2 hy0) (Or.inr hy0) hn.2⟩
  · rw [Ext.le_fin_iff] at h8
    have hy0 : y ≤ 0 := by
      cases d <;> simp [IsLower, IsUpper] at * <;> linarith
    exact ⟨mul_down_pn R hx2 hy1 (not_zero_le hx2 h4) (not_le_zero hy1 h7) (Or.inr hy0) hn.1,
      mul_up_nn R hx1 hy1 (not_le_zero hx1 h1) (not_le_zero hy1 h7) (Or.inr hy0) hn.2⟩
  · have ha0 := not_le_zero hx1 h1
    have hb0 := not_zero_le hx2 h4
    have hc0 := not_le_zero hy1 h7
    have hd0 := not_zero_le hy2 h8
    have nz : a ≠ .nan ∧ b ≠ .nan ∧ c ≠ .nan ∧ d ≠ .nan ∧
        a ≠ .fin 0 ∧ b ≠ .fin 0 ∧ c ≠ .fin 0 ∧ d ≠ .fin 0 := by
      refine ⟨?_, ?_, ?_, ?_, ?_, ?_, ?_, ?_⟩ <;> rintro rfl <;> simp_all [IsLower, IsUpper]
    obtain ⟨na, nb, nc, nd, za, zb, zc, zd⟩ := nz
    have n1 := mul_ne_nan_of_pos (down_ne_nan R) nb nc zb zc
    have n2 := mul_ne_nan_of_pos (down_ne_nan R) na nd za zd
    have n3 := mul_ne_nan_of_pos (up_ne_nan R) na nc za zc
    have n4 := mul_ne_nan_of_pos (up_ne_nan R) nb nd zb zd
    constructor
    · rcases le_total 0 x with h | h
      · exact Ext.isLower_min_left (mul_down_pn R hx2 hy1 hb0 hc0 (Or.inl h) n1)
      · exact Ext.isLower_min_right (mul_down_np R hx1 hy2 ha0 hd0 (Or.inr h) n2) n1
    · rcases le_total 0 x with h | h
      · exact Ext.isUpper_max_right (mul_up_pp R hx2 hy2 hb0 hd0 (Or.inl h) n4) n3
      · exact Ext.isUpper_max_left (mul_up_nn R hx1 hy1 ha0 hc0 (Or.inl h) n3)

/-- C05: multiplication, for finite bounds; the product may overflow. -/
theorem C05_mul {X Y : Bounds K} {x y : K} (hX : X.Finite) (hY : Y.Finite)
    (hx : X.Contains x) (hy : Y.Contains y) : (mul R X Y).Contains (x * y) := by
  refine mul_core R hx hy ?_
  obtain ⟨⟨a, ha⟩, b, hb⟩ := hX
  obtain ⟨⟨c, hc⟩, d, hd⟩ := hY
  have h1 := down_ne_nan R
  have h2 := up_ne_nan R
  unfold mul NoNaN
  rw [ha, hb, hc, hd]
  simp only [Ext.mul]
  split_ifs <;> refine ⟨?_, ?_⟩ <;> first | exact h1 _ | exact h2 _ | skip
  · unfold Ext.min; split_ifs <;> exact h1 _
  · unfold Ext.max; split_ifs <;> exact h2 _

/-- C05: multiplication, for infinite bounds as well, as long as no endpoint of
the result is NaN. -/
theorem C05_mul_extended {X Y : Bounds K} {x y : K} (hx : X.Contains x) (hy : Y.Contains y)
    (hn : (mul R X Y).NoNaN) : (mul R X Y).Contains (x * y) := mul_core R hx hy hn

/-- The restriction in `C05_mul_extended` is needed: `[0,0] * [0,+inf]` has NaN
as upper endpoint, so it encloses nothing (0 * inf in float_bounds.hpp 603). -/
theorem C05_mul_extended_nan :
    ∃ (X Y : Bounds K), X.Contains 0 ∧ Y.Contains 0 ∧ ∀ z, ¬ (mul R X Y).Contains z := by
  refine ⟨⟨.fin 0, .fin 0⟩, ⟨.fin 0, .pinf⟩, ⟨le_refl _, le_refl _⟩, ⟨le_refl _, trivial⟩, ?_⟩
  intro z hz
  have := hz.2
  simp [mul, Ext.le, Ext.mul, Ext.infSign, IsUpper] at this

/-- C05: squaring, for all bounds. -/
theorem C05_sqr {X : Bounds K} {x : K} (hx : X.Contains x) : (sqr R X).Contains (x ^ 2) := by
  obtain ⟨a, b⟩ := X
  obtain ⟨h1, h2⟩ := hx
  simp only at h1 h2
  have hd := R.down_lower
  have hu := R.up_upper
  rw [pow_two]
  unfold sqr
  simp only
  split_ifs with ha hb
  · cases a <;> simp [IsLower, Ext.lt] at *
    have hx0 := lt_of_lt_of_le ha h1
    exact ⟨R.down_of_le (by nlinarith), mul_up_pos R h2 h2 hx0 hx0⟩
  · cases b <;> simp [IsUpper, Ext.lt] at *
    have hx0 := lt_of_le_of_lt h2 hb
    refine ⟨R.down_of_le (by nlinarith), ?_⟩
    cases a <;> simp [IsLower] at *
    · simp [Ext.mul, IsUpper]
    · exact R.up_of_le (by nlinarith)
  · refine ⟨mul_self_nonneg x, ?_⟩
    rcases le_total 0 x with h | h
    · apply Ext.isUpper_max_right
      · cases b <;> simp [IsUpper] at *
        · exact R.up_of_le (by nlinarith)
        · simp [Ext.mul, IsUpper]
      · cases a <;> simp [IsLower, Ext.mul] at *
        exact up_ne_nan R _
    · apply Ext.isUpper_max_left
      cases a <;> simp [IsLower] at *
      · simp [Ext.mul, IsUpper]
      · exact R.up_of_le (by nlinarith)

/-- C05: absolute value, for all bounds. -/
theorem C05_abs {X : Bounds K} {x : K} (hx : X.Contains x) : (abs X).Contains |x| := by
  obtain ⟨a, b⟩ := X
  obtain ⟨h1, h2⟩ := hx
  simp only at h1 h2
  unfold abs
  simp only
  split_ifs with ha hb
  · rw [Ext.fin_le_iff] at ha
    have : 0 ≤ x := by cases a <;> simp [IsLower, IsUpper] at * <;> linarith
    rw [abs_of_nonneg this]; exact ⟨h1, h2⟩
  · rw [Ext.le_fin_iff] at hb
    have : x ≤ 0 := by cases b <;> simp [IsLower, IsUpper] at * <;> linarith
    rw [abs_of_nonpos this]; exact ⟨Ext.isLower_neg h2, Ext.isUpper_neg h1⟩
  · refine ⟨abs_nonneg x, ?_⟩
    rcases le_total 0 x with h | h
    · rw [abs_of_nonneg h]
      exact Ext.isUpper_max_right h2 (by cases a <;> simp_all [IsLower, Ext.neg])
    · rw [abs_of_nonpos h]
      exact Ext.isUpper_max_left (Ext.isUpper_neg h1)

/-- The lower endpoint of `abs X` is nonnegative. -/
private theorem abs_l_nonneg {X : Bounds K} {x : K} (hx : X.Contains x) : IsUpper (abs X).l 0 := by
  unfold abs
  split_ifs with ha hb
  · exact (Ext.fin_le_iff _ _).1 ha
  · have := (Ext.le_fin_iff _ _).1 hb
    simpa using Ext.isUpper_neg this
  · exact le_refl _

/-- C05: powers with a natural exponent, for all bounds. -/
theorem C05_pow {X : Bounds K} {x : K} (m : ℕ) (hx : X.Contains x) :
    (pow R X m).Contains (x ^ m) := by
  unfold pow
  by_cases hm : m % 2 = 0
  · simp only [hm, if_true]
    have h := C05_abs hx
    rw [← (Nat.even_iff.2 hm).pow_abs x]
    exact ⟨pow_pos_down R h.1 (abs_l_nonneg hx), pow_pos_up R (abs_nonneg x) h.2⟩
  · have hm' : m % 2 = 1 := by omega
    simp only [hm, if_false]
    exact ⟨pow_odd_down R hm' hx.1, pow_odd_up R hm' hx.2⟩

/-- C05: maximum. -/
theorem C05_max {X Y : Bounds K} {x y : K} (hx : X.Contains x) (hy : Y.Contains y) :
    (max X Y).Contains (Max.max x y) := by
  refine ⟨Ext.isLower_max (Ext.isLower_mono hx.1 (le_max_left _ _))
    (Ext.isLower_mono hy.1 (le_max_right _ _)), ?_⟩
  rcases le_total x y with h | h
  · rw [max_eq_right h]
    exact Ext.isUpper_max_right hy.2 (by intro e; have := hx.2; rw [e] at this; exact this)
  · rw [max_eq_left h]; exact Ext.isUpper_max_left hx.2

/-- C05: minimum. -/
theorem C05_min {X Y : Bounds K} {x y : K} (hx : X.Contains x) (hy : Y.Contains y) :
    (min X Y).Contains (Min.min x y) := by
  refine ⟨?_, Ext.isUpper_min (Ext.isUpper_mono hx.2 (min_le_left _ _))
    (Ext.isUpper_mono hy.2 (min_le_right _ _))⟩
  rcases le_total x y with h | h
  · rw [min_eq_left h]; exact Ext.isLower_min_left hx.1
  · rw [min_eq_right h]
    exact Ext.isLower_min_right hy.1 (by intro e; have := hx.1; rw [e] at this; exact this)

/-- C05: fused multiply-add, for finite bounds. -/
theorem C05_fma {X Y Z : Bounds K} {x y z : K} (hX : X.Finite) (hY : Y.Finite)
    (hx : X.Contains x) (hy : Y.Contains y) (hz : Z.Contains z) :
    (fma R X Y Z).Contains (x * y + z) := C05_add R (C05_mul R hX hY hx hy) hz

/-- C05: the mignitude is a lower and the magnitude an upper bound for `|x|`. -/
theorem C05_mig_mag {X : Bounds K} {x : K} (hx : X.Contains x) :
    IsLower (mig X) |x| ∧ IsUpper (mag X) |x| := by
  constructor
  · refine Ext.isLower_max (abs_nonneg x) (Ext.isLower_max ?_ ?_)
    · exact Ext.isLower_mono hx.1 (le_abs_self x)
    · exact Ext.isLower_mono (Ext.isLower_neg hx.2) (neg_le_abs x)
  · rcases le_total 0 x with h | h
    · rw [abs_of_nonneg h]
      refine Ext.isUpper_max_right hx.2 ?_
      have := hx.1
      intro e; cases hX : X.l <;> rw [hX] at e this <;> simp_all [Ext.neg, IsLower]
    · rw [abs_of_nonpos h]; exact Ext.isUpper_max_left (Ext.isUpper_neg hx.1)

/-- C05: exact arguments (`FloatDP+FloatDP` and so on return bounds). -/
theorem C05_exact_arguments (x y : K) :
    (addF R (.fin x) (.fin y)).Contains (x + y) ∧ (subF R (.fin x) (.fin y)).Contains (x - y) ∧
    (mulF R (.fin x) (.fin y)).Contains (x * y) ∧
    (y ≠ 0 → (divF R (.fin x) (.fin y)).Contains (x / y)) := by
  refine ⟨⟨R.down_lower _, R.up_upper _⟩, ?_, ⟨R.down_lower _, R.up_upper _⟩, ?_⟩
  · rw [sub_eq_add_neg]; exact ⟨R.down_lower _, R.up_upper _⟩
  · intro h
    simp only [divF, Ext.div, h, if_false]
    exact ⟨R.down_lower _, R.up_upper _⟩

/-- C05: one exact argument, through the operators a user calls. -/
theorem C05_mixed {X : Bounds K} {x : K} (hx : X.Contains x) (b : K) :
    (addBF R X (.fin b)).Contains (x + b) ∧ (subBF R X (.fin b)).Contains (x - b) ∧
    (addFB R (.fin b) X).Contains (b + x) ∧ (subFB R (.fin b) X).Contains (b - x) := by
  have hl : IsLower (.fin b) b := le_refl b
  have hu : IsUpper (.fin b) b := le_refl b
  exact ⟨⟨add_down R hx.1 hl, add_up R hx.2 hu⟩, ⟨sub_down R hx.1 hu, sub_up R hx.2 hl⟩,
    ⟨add_down R hl hx.1, add_up R hu hx.2⟩, ⟨sub_down R hl hx.2, sub_up R hu hx.1⟩⟩

/-- C05: `Operations<Bounds<F>>::_mul` with one exact argument, for finite bounds. -/
theorem C05_op_mul_mixed {X : Bounds K} {x : K} (hX : X.Finite) (hx : X.Contains x) (b : K) :
    (opMulBF R X (.fin b)).Contains (x * b) ∧ (opMulFB R (.fin b) X).Contains (b * x) := by
  obtain ⟨l, u⟩ := X
  obtain ⟨⟨a, ha⟩, c, hc⟩ := hX
  simp only at ha hc
  subst ha hc
  obtain ⟨h1, h2⟩ := hx
  simp only [IsLower, IsUpper] at h1 h2
  unfold opMulBF opMulFB
  by_cases hb : 0 ≤ b
  · simp only [Ext.le, hb, decide_true, if_true, Ext.mul]
    exact ⟨⟨R.down_of_le (by nlinarith), R.up_of_le (by nlinarith)⟩,
      ⟨R.down_of_le (by nlinarith), R.up_of_le (by nlinarith)⟩⟩
  · simp only [Ext.le, hb, decide_false, Ext.mul]
    push Not at hb
    exact ⟨⟨R.down_of_le (by nlinarith), R.up_of_le (by nlinarith)⟩,
      ⟨R.down_of_le (by nlinarith), R.up_of_le (by nlinarith)⟩⟩

/-- C05 fails for `Operations<Bounds<F>>::_add(F,Bounds)` (float_bounds.inl.hpp
37-39), which rounds the upper endpoint down: whenever a sum is not
representable, the exact sum is lost. -/
theorem C05_op_add_counterexample (x y s : K) (h : R.down (x + y) = .fin s) (hs : s ≠ x + y) :
    (ofExt (.fin y)).Contains y ∧ ¬ (opAddFB R (.fin x) (ofExt (.fin y))).Contains (x + y) := by
  refine ⟨⟨le_refl _, le_refl _⟩, ?_⟩
  intro hc
  have h1 := R.down_lower (x + y)
  have h2 := hc.2
  simp only [opAddFB, ofExt, Ext.add, h, IsUpper, IsLower] at h1 h2
  exact hs (le_antisymm h1 h2)

/-- C05 for `PositiveBounds`: products, squares and quotients. -/
theorem C05_positive {X Y : Bounds K} {x y : K} (hX : X.Finite) (hY : Y.Finite)
    (hx0 : IsUpper X.l 0) (hy0 : IsUpper Y.l 0) (hx : X.Contains x) (hy : Y.Contains y) :
    (posMul R X Y).Contains (x * y) ∧ (posSqr R X).Contains (x ^ 2) ∧
    (Ext.lt (.fin 0) Y.l = true → (posDiv R X Y).Contains (x / y) ∧
      (posRecip R Y).Contains (1 / y)) := by
  obtain ⟨l, u⟩ := X
  obtain ⟨l', u'⟩ := Y
  obtain ⟨⟨a, ha⟩, b, hb⟩ := hX
  obtain ⟨⟨c, hc⟩, d, hd⟩ := hY
  simp only at ha hb hc hd hx0 hy0
  subst ha hb hc hd
  obtain ⟨h1, h2⟩ := hx
  obtain ⟨h3, h4⟩ := hy
  simp only at h1 h2 h3 h4
  refine ⟨⟨mul_down_pp R h1 h3 hx0 hy0, ?_⟩, ⟨?_, ?_⟩, ?_⟩
  · simp only [IsLower, IsUpper, posMul, Ext.mul] at *
    exact R.up_of_le (by nlinarith)
  · rw [pow_two]; exact mul_down_pp R h1 h1 hx0 hx0
  · simp only [IsLower, IsUpper, posSqr, Ext.mul] at *
    exact R.up_of_le (by nlinarith)
  · intro hpos
    have hy1 : 0 < y := by simp [Ext.lt, IsLower] at *; linarith
    have one0 : IsUpper (Ext.fin (1 : K)) 0 := zero_le_one
    have oneL : IsLower (Ext.fin (1 : K)) 1 := le_refl _
    have oneU : IsUpper (Ext.fin (1 : K)) 1 := le_refl _
    refine ⟨⟨div_down_pp R h1 h4 hx0 hy1, div_up_pp R h2 h3 ?_ hpos⟩,
      ⟨div_down_pp R oneL h4 one0 hy1, div_up_pp R oneU h3 one0 hpos⟩⟩
    simp only [IsLower, IsUpper] at *; linarith

/-- C05 for `min(PositiveBounds,PositiveBounds)` (float_bounds.hpp 548-549): the
upper endpoint ignores the first argument but is still an upper bound. -/
theorem C05_positive_min {X Y : Bounds K} {x y : K} (hx : X.Contains x) (hy : Y.Contains y) :
    (posMin X Y).Contains (Min.min x y) := by
  refine ⟨(C05_min hx hy).1, ?_⟩
  exact Ext.isUpper_min (Ext.isUpper_mono hy.2 (min_le_right _ _))
    (Ext.isUpper_mono hy.2 (min_le_right _ _))

/-- `min(PositiveBounds,PositiveBounds)` is not tight: from `[0,1]` and `[0,5]`
it makes `[0,5]`, where `min(Bounds,Bounds)` makes `[0,1]`. -/
theorem C05_positive_min_loose :
    posMin (⟨.fin 0, .fin 1⟩ : Bounds ℚ) ⟨.fin 0, .fin 5⟩ = ⟨.fin 0, .fin 5⟩ ∧
    min (⟨.fin 0, .fin 1⟩ : Bounds ℚ) ⟨.fin 0, .fin 5⟩ = ⟨.fin 0, .fin 1⟩ := by
  constructor <;> decide +kernel

/-- C05, tightness: each endpoint of a sum, difference or product of non-empty
finite bounds is the rounding, in the right direction, of the sum, difference or
product of two points of the arguments.  With the enclosure theorems this makes
the result the tightest that the format can express. -/
theorem C05_tight {a b c d : K} (h1 : a ≤ b) (h2 : c ≤ d) :
    let X : Bounds K := ⟨.fin a, .fin b⟩
    let Y : Bounds K := ⟨.fin c, .fin d⟩
    (∃ x y, X.Contains x ∧ Y.Contains y ∧ (add R X Y).l = R.down (x + y)) ∧
    (∃ x y, X.Contains x ∧ Y.Contains y ∧ (add R X Y).u = R.up (x + y)) ∧
    (∃ x y, X.Contains x ∧ Y.Contains y ∧ (sub R X Y).l = R.down (x - y)) ∧
    (∃ x y, X.Contains x ∧ Y.Contains y ∧ (sub R X Y).u = R.up (x - y)) ∧
    (∃ x y, X.Contains x ∧ Y.Contains y ∧ (mul R X Y).l = R.down (x * y)) ∧
    (∃ x y, X.Contains x ∧ Y.Contains y ∧ (mul R X Y).u = R.up (x * y)) := by
  intro X Y
  have ca : X.Contains a := ⟨le_refl _, h1⟩
  have cb : X.Contains b := ⟨h1, le_refl _⟩
  have cc : Y.Contains c := ⟨le_refl _, h2⟩
  have cd : Y.Contains d := ⟨h2, le_refl _⟩
  refine ⟨⟨a, c, ca, cc, rfl⟩, ⟨b, d, cb, cd, rfl⟩, ⟨a, d, ca, cd, ?_⟩, ⟨b, c, cb, cc, ?_⟩, ?_, ?_⟩
  · rw [sub_eq_add_neg]; rfl
  · rw [sub_eq_add_neg]; rfl
  · simp only [mul, X, Y, Ext.mul]
    unfold Ext.min
    split_ifs <;> first
      | exact ⟨a, c, ca, cc, rfl⟩ | exact ⟨a, d, ca, cd, rfl⟩
      | exact ⟨b, c, cb, cc, rfl⟩ | exact ⟨b, d, cb, cd, rfl⟩
  · simp only [mul, X, Y, Ext.mul]
    unfold Ext.max
    split_ifs <;> first
      | exact ⟨a, c, ca, cc, rfl⟩ | exact ⟨a, d, ca, cd, rfl⟩
      | exact ⟨b, c, cb, cc, rfl⟩ | exact ⟨b, d, cb, cd, rfl⟩

/-- Non-vacuity: `[-1,2]` and `[-3,4]` in 53-bit arithmetic with overflow at `2^1024`;
their product contains `2 * 4`. -/
example : ∃ R : XRounding ℚ, (mul R ⟨.fin (-1), .fin 2⟩ ⟨.fin (-3), .fin 4⟩).Contains (2 * 4) :=
  ⟨.overflow (PBit.rounding 53 (by norm_num)) (2 ^ 1024)
    ⟨1, 1024, by norm_num, by norm_num⟩ (one_le_pow₀ (by norm_num)),
   C05_mul _ ⟨⟨_, rfl⟩, _, rfl⟩ ⟨⟨_, rfl⟩, _, rfl⟩
    (by constructor <;> norm_num [IsLower, IsUpper]) (by constructor <;> norm_num [IsLower, IsUpper])⟩

/-- Non-vacuity of the counterexample: with two-bit numbers `5 + 1/2` is rounded. -/
example : ∃ (R : XRounding ℚ) (s : ℚ), R.down (5 + 1 / 2) = .fin s ∧ s ≠ 5 + 1 / 2 := by
  refine ⟨.ofRounding (PBit.rounding 2 (by norm_num)), _, rfl, ?_⟩
  intro h
  have hr := PBit.rep_down (p := 2) (by norm_num) (5 + 1 / 2 : ℚ)
  change PBit.down 2 (5 + 1 / 2 : ℚ) = 5 + 1 / 2 at h
  rw [h] at hr
  obtain ⟨m, e, h, hm⟩ := hr
  have hm' : |m| < 4 := by simpa using hm
  rw [abs_lt] at hm'
  have hpos : (0 : ℚ) < 2 ^ e := by positivity
  rcases le_or_gt 0 e with he | he
  · obtain ⟨k, rfl⟩ := Int.eq_ofNat_of_zero_le he
    rw [zpow_natCast] at h
    have h3 : (11 : ℚ) = ((2 * m * 2 ^ k : ℤ) : ℚ) := by push_cast; linarith
    have h4 : (11 : ℤ) = 2 * m * 2 ^ k := by exact_mod_cast h3
    have h5 : (11 : ℤ) = 2 * (m * 2 ^ k) := by rw [h4]; ring
    omega
  · have : (2 : ℚ) ^ e ≤ 1 := by
      rw [← zpow_zero (2 : ℚ)]; exact zpow_le_zpow_right₀ (by norm_num) he.le
    have h3 : (m : ℚ) ≤ 3 := by exact_mod_cast (by omega : m ≤ 3)
    nlinarith

/-! ## C06: division -/

/-- C06: division, for all bounds, infinite ones included. -/
theorem C06_div {X Y : Bounds K} {x y : K} (hx : X.Contains x) (hy : Y.Contains y) :
    (div R X Y).Contains (x / y) := by
  obtain ⟨a, b⟩ := X
  obtain ⟨c, d⟩ := Y
  obtain ⟨hx1, hx2⟩ := hx
  obtain ⟨hy1, hy2⟩ := hy
  simp only at *
  unfold div
  simp only
  split_ifs with h1 h2 h3 h4 h5 h6
  · rw [Ext.fin_le_iff] at h2
    have hy0 : 0 < y := by cases c <;> simp [IsLower, Ext.lt] at * <;> linarith
    have hx0 : 0 ≤ x := by cases a <;> simp [IsLower, IsUpper] at * <;> linarith
    exact ⟨div_down_pp R hx1 hy2 h2 hy0, div_up_pp R hx2 hy1 (Ext.isUpper_mono hx2 hx0) h1⟩
  · rw [Ext.le_fin_iff] at h3
    have hy0 : 0 < y := by cases c <;> simp [IsLower, Ext.lt] at * <;> linarith
    exact ⟨div_down_np R hx1 hy1 (not_le_zero hx1 h2) h1, div_up_np R hx2 hy2 h3 hy0⟩
  · exact ⟨div_down_np R hx1 hy1 (not_le_zero hx1 h2) h1,
      div_up_pp R hx2 hy1 (not_zero_le hx2 h3) h1⟩
  · rw [Ext.fin_le_iff] at h5
    have hy0 : y < 0 := by cases d <;> simp [IsUpper, Ext.lt] at * <;> linarith
    have hx0 : 0 ≤ x := by cases a <;> simp [IsLower, IsUpper] at * <;> linarith
    exact ⟨div_down_pn R hx2 hy2 (Ext.isUpper_mono hx2 hx0) h4, div_up_pn R hx1 hy1 h5 hy0⟩
  · rw [Ext.le_fin_iff] at h6
    have hy0 : y < 0 := by cases d <;> simp [IsUpper, Ext.lt] at * <;> linarith
    exact ⟨div_down_nn R hx2 hy1 h6 hy0, div_up_nn R hx1 hy2 (not_le_zero hx1 h5) h4⟩
  · exact ⟨div_down_pn R hx2 hy2 (not_zero_le hx2 h6) h4,
      div_up_nn R hx1 hy2 (not_le_zero hx1 h5) h4⟩
  · exact ⟨trivial, trivial⟩

/-- C06: reciprocal, for all bounds. -/
theorem C06_rec {Y : Bounds K} {y : K} (hy : Y.Contains y) :
    (recip R Y).Contains (1 / y) := by
  obtain ⟨c, d⟩ := Y
  obtain ⟨hy1, hy2⟩ := hy
  simp only at *
  have hu : IsUpper (Ext.fin (1 : K)) 1 := le_refl _
  have hl : IsLower (Ext.fin (1 : K)) 1 := le_refl _
  have h0 : IsUpper (Ext.fin (1 : K)) 0 := zero_le_one
  unfold recip
  simp only [Bool.or_eq_true]
  split_ifs with h
  · rcases h with h | h
    · have hy0 : 0 < y := by cases c <;> simp [IsLower, Ext.lt] at * <;> linarith
      exact ⟨div_down_pp R hl hy2 h0 hy0, div_up_pp R hu hy1 h0 h⟩
    · have hy0 : y < 0 := by cases d <;> simp [IsUpper, Ext.lt] at * <;> linarith
      exact ⟨div_down_pn R hu hy2 h0 h, div_up_pn R hl hy1 h0 hy0⟩
  · exact ⟨trivial, trivial⟩

/-- C06: division by bounds containing zero gives the whole line. -/
theorem C06_zero {X Y : Bounds K} (hy : Y.Contains 0) :
    div R X Y = ⟨.ninf, .pinf⟩ ∧ recip R Y = ⟨.ninf, .pinf⟩ := by
  obtain ⟨c, d⟩ := Y
  obtain ⟨h1, h2⟩ := hy
  have e1 : ¬ Ext.lt (.fin 0) c = true := by
    cases c <;> simp [IsLower, Ext.lt] at *; assumption
  have e2 : ¬ Ext.lt d (.fin 0) = true := by
    cases d <;> simp [IsUpper, Ext.lt] at *; assumption
  constructor
  · simp [div, e1, e2]
  · simp [recip, e1, e2]

/-- C06, tightness: finite bounds that exclude zero are divided with endpoints
that are roundings of exact quotients of points. -/
theorem C06_tight {a b c d : K} (h1 : a ≤ b) (h2 : c ≤ d) (h0 : 0 < c ∨ d < 0) :
    let X : Bounds K := ⟨.fin a, .fin b⟩
    let Y : Bounds K := ⟨.fin c, .fin d⟩
    (∃ x y, X.Contains x ∧ Y.Contains y ∧ (div R X Y).l = R.down (x / y)) ∧
    (∃ x y, X.Contains x ∧ Y.Contains y ∧ (div R X Y).u = R.up (x / y)) := by
  intro X Y
  have ca : X.Contains a := ⟨le_refl _, h1⟩
  have cb : X.Contains b := ⟨h1, le_refl _⟩
  have cc : Y.Contains c := ⟨le_refl _, h2⟩
  have cd : Y.Contains d := ⟨h2, le_refl _⟩
  have hc : c ≠ 0 := by rcases h0 with h | h <;> intro e <;> subst e <;> [exact lt_irrefl _ h; linarith]
  have hd : d ≠ 0 := by rcases h0 with h | h <;> intro e <;> subst e <;> [linarith; exact lt_irrefl _ h]
  constructor
  · simp only [div, X, Y, Ext.div, hc, hd, if_false]
    split_ifs with i1 i2 i3 i4 <;> first
      | exact ⟨a, c, ca, cc, rfl⟩ | exact ⟨a, d, ca, cd, rfl⟩
      | exact ⟨b, c, cb, cc, rfl⟩ | exact ⟨b, d, cb, cd, rfl⟩
      | (exfalso; simp only [Ext.lt, decide_eq_true_eq, not_lt] at i1 i4; rcases h0 with h | h <;> linarith)
  · simp only [div, X, Y, Ext.div, hc, hd, if_false]
    split_ifs with i1 i2 i3 i4 <;> first
      | exact ⟨a, c, ca, cc, rfl⟩ | exact ⟨a, d, ca, cd, rfl⟩
      | exact ⟨b, c, cb, cc, rfl⟩ | exact ⟨b, d, cb, cd, rfl⟩
      | (exfalso; simp only [Ext.lt, decide_eq_true_eq, not_lt] at i1 i4; rcases h0 with h | h <;> linarith)

/-- C06: powers with an integer exponent; a negative exponent goes through `rec`. -/
theorem C06_pow_int {X : Bounds K} {x : K} (n : ℤ) (hx : X.Contains x) :
    (powInt R X n).Contains (x ^ n) := by
  unfold powInt
  split_ifs with h
  · have := C05_pow R (-n).toNat (C06_rec R hx)
    have e : x ^ n = (1 / x) ^ (-n).toNat := by
      obtain ⟨k, hk⟩ : ∃ k : ℕ, n = -(k : ℤ) := ⟨(-n).toNat, by omega⟩
      subst hk; simp
    rwa [e]
  · have := C05_pow R n.toNat hx
    have e : x ^ n = x ^ n.toNat := by
      rw [← zpow_natCast]; congr 1; omega
    rwa [e]

/-- C06: division with one exact argument (`Operations<Bounds<F>>::_div`). -/
theorem C06_op_div_mixed {X : Bounds K} {x : K} (hX : X.Finite) (hx : X.Contains x) (b : K) :
    (opDivBF R X (.fin b)).Contains (x / b) ∧ (opDivFB R (.fin b) X).Contains (b / x) := by
  obtain ⟨l, u⟩ := X
  obtain ⟨⟨a, ha⟩, c, hc⟩ := hX
  simp only at ha hc
  subst ha hc
  obtain ⟨h1, h2⟩ := hx
  have h1' := h1
  have h2' := h2
  simp only [IsLower, IsUpper] at h1' h2'
  have hl : IsLower (Ext.fin b) b := le_refl _
  have hu : IsUpper (Ext.fin b) b := le_refl _
  constructor
  · unfold opDivBF
    split_ifs with i1 i2
    · simp only [Ext.lt, decide_eq_true_eq] at i1
      simp only [Ext.div, i1.ne', if_false]
      exact ⟨R.down_of_le (by gcongr), R.up_of_le (by gcongr)⟩
    · simp only [Ext.lt, decide_eq_true_eq] at i2
      simp only [Ext.div, i2.ne, if_false]
      exact ⟨R.down_of_le (div_le_div_of_nonpos_of_le i2.le h2'),
        R.up_of_le (div_le_div_of_nonpos_of_le i2.le h1')⟩
    · exact ⟨trivial, trivial⟩
  · unfold opDivFB
    simp only [Bool.and_eq_true, Ext.le, decide_eq_true_eq]
    split_ifs with i1 i2
    · exact ⟨trivial, trivial⟩
    · have hb : IsUpper (Ext.fin b) 0 := i2
      rcases lt_or_ge 0 a with h | h
      · exact ⟨div_down_pp R hl h2 hb (by linarith),
          div_up_pp R hu h1 hb (by simpa [Ext.lt] using h)⟩
      · have hc : c < 0 := by by_contra hc; exact i1 ⟨h, by linarith⟩
        exact ⟨div_down_pn R hu h2 hb (by simpa [Ext.lt] using hc), div_up_pn R hl h1 hb (by linarith)⟩
    · have hb : IsLower (Ext.fin b) 0 := by simp only [IsLower]; linarith
      rcases lt_or_ge 0 a with h | h
      · exact ⟨div_down_np R hl h1 hb (by simpa [Ext.lt] using h), div_up_np R hu h2 hb (by linarith)⟩
      · have hc : c < 0 := by by_contra hc; exact i1 ⟨h, by linarith⟩
        exact ⟨div_down_nn R hu h1 hb (by linarith), div_up_nn R hl h2 hb (by simpa [Ext.lt] using hc)⟩

example (R : XRounding ℚ) :
    (div R ⟨.fin 1, .fin 2⟩ ⟨.fin (-3), .fin (-1)⟩).Contains (2 / (-3)) :=
  C06_div R (by constructor <;> norm_num [IsLower, IsUpper]) (by constructor <;> norm_num [IsLower, IsUpper])

/-! ## C07: comparisons -/

section compare

private theorem lt_sound {u l : Ext K} {x y : K} (h : Ext.lt u l = true) (hu : IsUpper u x)
    (hl : IsLower l y) : x < y := by
  cases u <;> cases l <;> simp [IsUpper, IsLower, Ext.lt] at *
  linarith

private theorem le_sound {u l : Ext K} {x y : K} (h : Ext.le u l = true) (hu : IsUpper u x)
    (hl : IsLower l y) : x ≤ y := by
  cases u <;> cases l <;> simp [IsUpper, IsLower, Ext.le] at *
  linarith

/-- C07: `==`, `<`, `sgn`, `is_zero`, `is_positive` never answer wrongly. -/
theorem C07_comparisons_sound {X Y : Bounds K} {x y : K} (hx : X.Contains x) (hy : Y.Contains y) :
    Describes (eq X Y) (x = y) ∧ Describes (lt X Y) (x < y) ∧
    Describes (sgn X) (0 < x) ∧ Describes (isZero X) (x = 0) ∧
    Describes (isPositive X) (0 ≤ x) := by
  have z1 : IsUpper (Ext.fin (0 : K)) 0 := le_refl _
  have z2 : IsLower (Ext.fin (0 : K)) 0 := le_refl _
  have eqs : ∀ {a b : Ext K} {s t : K}, Ext.eq a b = true → IsLower a s → IsUpper b t → t ≤ s := by
    intro a b s t h h1 h2
    cases a <;> cases b <;> simp [IsUpper, IsLower, Ext.eq] at *
    linarith
  have eqs' : ∀ {a b : Ext K} {s t : K}, Ext.eq a b = true → IsUpper a s → IsLower b t → s ≤ t := by
    intro a b s t h h1 h2
    cases a <;> cases b <;> simp [IsUpper, IsLower, Ext.eq] at *
    linarith
  refine ⟨?_, ?_, ?_, ?_, ?_⟩
  · unfold eq Describes
    simp only [Bool.or_eq_true, Bool.and_eq_true]
    split_ifs with h1 h2
    · refine ⟨by simp, fun _ e => ?_⟩
      rcases h1 with h | h
      · exact absurd e (lt_sound h hx.2 hy.1).ne
      · exact absurd e (lt_sound h hy.2 hx.1).ne'
    · exact ⟨fun _ => le_antisymm (eqs' h2.2 hx.2 hy.1) (eqs h2.1 hx.1 hy.2), by simp⟩
    · simp
  · unfold lt Describes
    split_ifs with h1 h2
    · exact ⟨fun _ => lt_sound h1 hx.2 hy.1, by simp⟩
    · exact ⟨by simp, fun _ => not_lt.2 (le_sound h2 hy.2 hx.1)⟩
    · simp
  · unfold sgn Describes
    split_ifs with h1 h2
    · exact ⟨fun _ => lt_sound h1 z1 hx.1, by simp⟩
    · exact ⟨by simp, fun _ => not_lt.2 (lt_sound h2 hx.2 z2).le⟩
    · simp
  · unfold isZero Describes
    simp only [Bool.or_eq_true, Bool.and_eq_true]
    split_ifs with h1 h2
    · refine ⟨by simp, fun _ e => ?_⟩
      rcases h1 with h | h
      · exact absurd e (lt_sound h z1 hx.1).ne'
      · exact absurd e (lt_sound h hx.2 z2).ne
    · exact ⟨fun _ => le_antisymm (eqs' h2.2 hx.2 z2) (eqs h2.1 hx.1 z1), by simp⟩
    · simp
  · unfold isPositive Describes
    split_ifs with h1 h2
    · exact ⟨fun _ => le_sound h1 z1 hx.1, by simp⟩
    · exact ⟨by simp, fun _ => not_le.2 (lt_sound h2 hx.2 z2)⟩
    · simp

/-- C07: the comparisons of finite non-empty bounds are as decisive as the data
allow: when the answer is indeterminate, there are points for which the relation
holds and points for which it fails. -/
theorem C07_comparisons_decisive {a b c d : K} (h1 : a ≤ b) (h2 : c ≤ d) :
    let X : Bounds K := ⟨.fin a, .fin b⟩
    let Y : Bounds K := ⟨.fin c, .fin d⟩
    (lt X Y = .indeterminate →
      (∃ x y, X.Contains x ∧ Y.Contains y ∧ x < y) ∧ ∃ x y, X.Contains x ∧ Y.Contains y ∧ ¬ x < y) ∧
    (eq X Y = .indeterminate →
      (∃ x y, X.Contains x ∧ Y.Contains y ∧ x = y) ∧ ∃ x y, X.Contains x ∧ Y.Contains y ∧ x ≠ y) ∧
    (isZero X = .indeterminate →
      X.Contains 0 ∧ ∃ x, X.Contains x ∧ x ≠ 0) ∧
    (isPositive X = .indeterminate →
      (∃ x, X.Contains x ∧ 0 ≤ x) ∧ ∃ x, X.Contains x ∧ ¬ 0 ≤ x) := by
  intro X Y
  have ca : X.Contains a := ⟨le_refl _, h1⟩
  have cb : X.Contains b := ⟨h1, le_refl _⟩
  have cc : Y.Contains c := ⟨le_refl _, h2⟩
  have cd : Y.Contains d := ⟨h2, le_refl _⟩
  refine ⟨?_, ?_, ?_, ?_⟩
  · unfold lt
    simp only [X, Y, Ext.lt, Ext.le, decide_eq_true_eq]
    split_ifs with i1 i2
    · simp
    · simp
    · exact fun _ => ⟨⟨a, d, ca, cd, by linarith⟩, ⟨b, c, cb, cc, i1⟩⟩
  · unfold eq
    simp only [X, Y, Ext.lt, Ext.eq, Bool.or_eq_true, Bool.and_eq_true, decide_eq_true_eq]
    split_ifs with i1 i2
    · simp
    · simp
    · push Not at i1
      intro _
      constructor
      · refine ⟨Max.max a c, Max.max a c, ⟨le_max_left _ _, max_le h1 i1.1⟩,
          ⟨le_max_right _ _, max_le i1.2 h2⟩, rfl⟩
      · by_cases e : a = d
        · exact ⟨b, c, cb, cc, fun e' => i2 ⟨e, e'⟩⟩
        · exact ⟨a, d, ca, cd, e⟩
  · unfold isZero
    simp only [X, Ext.lt, Ext.eq, Bool.or_eq_true, Bool.and_eq_true, decide_eq_true_eq]
    split_ifs with i1 i2
    · simp
    · simp
    · push Not at i1
      intro _
      refine ⟨⟨i1.1, i1.2⟩, ?_⟩
      by_cases e : a = 0
      · exact ⟨b, cb, fun e' => i2 ⟨e, e'⟩⟩
      · exact ⟨a, ca, e⟩
  · unfold isPositive
    simp only [X, Ext.lt, Ext.le, decide_eq_true_eq]
    split_ifs with i1 i2
    · simp
    · simp
    · exact fun _ => ⟨⟨b, cb, by linarith⟩, ⟨a, ca, i1⟩⟩

/-- C07: `sgn` is indeterminate on `[0,1]` although no point is negative; it is
decisive about strict signs only. -/
theorem C07_sgn_decisive {a b : K} (h1 : a ≤ b) :
    let X : Bounds K := ⟨.fin a, .fin b⟩
    sgn X = .indeterminate ↔ X.Contains 0 := by
  intro X
  unfold sgn
  simp only [X, Contains, IsLower, IsUpper, Ext.lt, decide_eq_true_eq]
  split_ifs with i1 i2
  · simp only [reduceCtorEq, false_iff, not_and]; intro h; linarith
  · simp only [reduceCtorEq, false_iff, not_and]; intro h; linarith
  · simp only [true_iff]; exact ⟨by linarith, by linarith⟩

/-- C07: on finite non-empty bounds, `refines`, `models`, `consistent` and
`inconsistent` decide inclusion, membership, and (non-)emptiness of the
intersection. -/
theorem C07_set_predicates {a b c d : K} (h1 : a ≤ b) (h2 : c ≤ d) (z : K) :
    let X : Bounds K := ⟨.fin a, .fin b⟩
    let Y : Bounds K := ⟨.fin c, .fin d⟩
    (refines X Y = true ↔ ∀ x, X.Contains x → Y.Contains x) ∧
    (models X (.fin z) = true ↔ X.Contains z) ∧
    (consistent X Y = true ↔ ∃ x, X.Contains x ∧ Y.Contains x) ∧
    (inconsistent X Y = true ↔ ¬ ∃ x, X.Contains x ∧ Y.Contains x) ∧
    (same X Y = true ↔ ∀ x, X.Contains x ↔ Y.Contains x) := by
  intro X Y
  have ca : X.Contains a := ⟨le_refl _, h1⟩
  have cb : X.Contains b := ⟨h1, le_refl _⟩
  have cc : Y.Contains c := ⟨le_refl _, h2⟩
  have cd : Y.Contains d := ⟨h2, le_refl _⟩
  have hcons : consistent X Y = true ↔ ∃ x, X.Contains x ∧ Y.Contains x := by
    simp only [consistent, X, Y, Ext.le, Bool.and_eq_true, decide_eq_true_eq]
    constructor
    · rintro ⟨h3, h4⟩
      exact ⟨Max.max a c, ⟨le_max_left _ _, max_le h1 h4⟩, ⟨le_max_right _ _, max_le h3 h2⟩⟩
    · rintro ⟨x, hx, hy⟩
      simp only [Contains, IsLower, IsUpper] at hx hy
      constructor <;> linarith
  refine ⟨?_, ?_, hcons, ?_, ?_⟩
  · constructor
    · intro h x hx
      simp only [refines, X, Y, Ext.le, Bool.and_eq_true, decide_eq_true_eq, Contains, IsLower,
        IsUpper] at *
      constructor <;> linarith
    · intro h
      have ha := h a ca
      have hb := h b cb
      simp only [refines, X, Y, Ext.le, Bool.and_eq_true, decide_eq_true_eq, Contains, IsLower,
        IsUpper] at *
      exact ⟨ha.1, hb.2⟩
  · simp [models, X, Ext.le, Contains, IsLower, IsUpper]
  · rw [← hcons]
    simp only [inconsistent, consistent, X, Y, Ext.lt, Ext.le, Bool.and_eq_true, Bool.or_eq_true,
      decide_eq_true_eq, not_and_or, not_le]
  · constructor
    · intro h x
      simp only [same, X, Y, Ext.eq, Bool.and_eq_true, decide_eq_true_eq] at h
      simp [X, Y, h.1, h.2]
    · intro h
      have e1 := (h a).1 ca
      have e2 := (h b).1 cb
      have e3 := (h c).2 cc
      have e4 := (h d).2 cd
      simp only [Contains, X, Y, IsLower, IsUpper] at e1 e2 e3 e4
      simp only [same, X, Y, Ext.eq, Bool.and_eq_true, decide_eq_true_eq]
      exact ⟨le_antisymm e3.1 e1.1, le_antisymm e2.2 e4.2⟩

example : lt (⟨.fin 0, .fin 1⟩ : Bounds ℚ) ⟨.fin 2, .fin 3⟩ = .true_ ∧
    lt (⟨.fin 0, .fin 2⟩ : Bounds ℚ) ⟨.fin 1, .fin 3⟩ = .indeterminate := by
  constructor <;> decide +kernel

end compare

/-! ## C08: refinement, coarsening, value and error -/

/-- C08: the refinement contains exactly the common points. -/
theorem C08_refinement {X Y : Bounds K} (hX : X.NoNaN) (hY : Y.NoNaN) (x : K) :
    (refinement X Y).Contains x ↔ X.Contains x ∧ Y.Contains x := by
  constructor
  · rintro ⟨h1, h2⟩
    have e1 := Ext.isLower_of_max h1 hX.1 hY.1
    have e2 := Ext.isUpper_of_min h2 hX.2 hY.2
    exact ⟨⟨e1.1, e2.1⟩, ⟨e1.2, e2.2⟩⟩
  · rintro ⟨h1, h2⟩
    exact ⟨Ext.isLower_max h1.1 h2.1, Ext.isUpper_min h1.2 h2.2⟩

/-- C08: the coarsening contains the points of both arguments. -/
theorem C08_coarsening {X Y : Bounds K} (hX : X.NoNaN) (hY : Y.NoNaN) (x : K)
    (h : X.Contains x ∨ Y.Contains x) : (coarsening X Y).Contains x := by
  rcases h with h | h
  · exact ⟨Ext.isLower_min_left h.1, Ext.isUpper_max_left h.2⟩
  · exact ⟨Ext.isLower_min_right h.1 hX.1, Ext.isUpper_max_right h.2 hX.2⟩

/-- C08: the coarsening of finite bounds is the smallest such interval. -/
theorem C08_coarsening_least {a b c d l u : K} (h1 : a ≤ b) (h2 : c ≤ d)
    (h : ∀ x, ((⟨.fin a, .fin b⟩ : Bounds K).Contains x ∨ (⟨.fin c, .fin d⟩ : Bounds K).Contains x) →
      l ≤ x ∧ x ≤ u) (x : K)
    (hx : (coarsening ⟨.fin a, .fin b⟩ ⟨.fin c, .fin d⟩).Contains x) : l ≤ x ∧ x ≤ u := by
  have ha := h a (Or.inl ⟨le_refl _, h1⟩)
  have hb := h b (Or.inl ⟨h1, le_refl _⟩)
  have hc := h c (Or.inr ⟨le_refl _, h2⟩)
  have hd := h d (Or.inr ⟨h2, le_refl _⟩)
  unfold coarsening Ext.min Ext.max at hx
  simp only [Ext.lt, decide_eq_true_eq] at hx
  obtain ⟨h5, h6⟩ := hx
  constructor
  · split_ifs at h5 <;> simp only [IsLower] at h5 <;> linarith
  · split_ifs at h6 <;> simp only [IsUpper] at h6 <;> linarith

/-- C08: the ball `value() ± error()` contains every point of finite bounds,
provided that `l+u` does not overflow. -/
theorem C08_value_error {X : Bounds K} {x v : K} (hX : X.Finite) (hv : value R X = .fin v)
    (hx : X.Contains x) : InBall (value R X) (error R X) x := by
  obtain ⟨⟨a, ha⟩, b, hb⟩ := hX
  obtain ⟨h1, h2⟩ := hx
  rw [ha] at h1
  rw [hb] at h2
  simp only [IsLower, IsUpper] at h1 h2
  refine ⟨v, hv, ?_⟩
  unfold error
  rw [hv, ha, hb]
  simp only [Ext.sub, Ext.neg, Ext.add]
  rcases le_total v x with h | h
  · rw [abs_of_nonneg (by linarith)]
    exact Ext.isUpper_max_left (R.up_of_le (by linarith))
  · rw [abs_of_nonpos (by linarith)]
    exact Ext.isUpper_max_right (R.up_of_le (by linarith)) (up_ne_nan R _)

/-- C08: the value of finite bounds lies in the bounds (rounding to nearest of
representable endpoints, without overflow). -/
theorem C08_value_mem (R : Rounding K) {a b : K} (h : a ≤ b) (ha : R.Rep a) (hb : R.Rep b) :
    ∃ v, value (.ofRounding R) ⟨.fin a, .fin b⟩ = .fin v ∧ a ≤ v ∧ v ≤ b := by
  refine ⟨R.near (a + b) / 2, rfl, ?_, ?_⟩
  · have h1 := R.down_max (a + b) (2 * a) (R.rep_two a ha) (by linarith)
    have h2 := (R.down_le (a + b)).trans (R.le_up (a + b))
    rcases R.near_cases (a + b) with e | e <;> rw [e] <;> linarith
  · have h1 := R.up_min (a + b) (2 * b) (R.rep_two b hb) (by linarith)
    have h2 := (R.down_le (a + b)).trans (R.le_up (a + b))
    rcases R.near_cases (a + b) with e | e <;> rw [e] <;> linarith

/-- C08: `pm` and `widen` keep every point. -/
theorem C08_pm {X : Bounds K} {x t : K} {e : Ext K} (hx : X.Contains x) (he : IsUpper e |t|) :
    (pm R X e).Contains (x + t) := by
  refine ⟨?_, ?_⟩
  · have : IsLower e.neg t := Ext.isLower_mono (Ext.isLower_neg he) (neg_abs_le t)
    exact add_down R hx.1 this
  · exact add_up R hx.2 (Ext.isUpper_mono he (le_abs_self t))

theorem C08_widen {X : Bounds K} {x m t : K} (hx : X.Contains x) (ht : |t| ≤ m) :
    (widen R m X).Contains (x + t) := C08_pm R hx (e := .fin m) ht

/-- `narrow` (float_bounds.hpp 303-304) does not narrow: whenever `_u + m` is
representable, its upper bound moves outward by `m`. -/
theorem C08_narrow_counterexample (R : Rounding K) (a b m : K) (hm : 0 < m)
    (hb : R.Rep (b + m)) (hab : a + m ≤ b) (ha : R.Rep (a + m)) :
    (narrow (.ofRounding R) m ⟨.fin a, .fin b⟩).Contains (b + m) ∧
      ¬ (⟨.fin a, .fin b⟩ : Bounds K).Contains (b + m) := by
  refine ⟨⟨?_, ?_⟩, ?_⟩
  · simp only [narrow, Ext.add, XRounding.ofRounding, R.up_of_rep ha, IsLower]; linarith
  · simp only [narrow, Ext.add, XRounding.ofRounding, R.down_of_rep hb, IsUpper, le_refl]
  · rintro ⟨_, h⟩
    simp only [IsUpper] at h; linarith

example : ∃ R : XRounding ℚ, ∃ v, value R ⟨.fin 1, .fin 2⟩ = .fin v :=
  ⟨.ofRounding (PBit.rounding 53 (by norm_num)), _, rfl⟩

end Bounds
end Ariadne
