import Verif.Directed.Model
import Verif.Bounds.Props
import Mathlib.Tactic.Linarith
import Mathlib.Tactic.NormNum
import Mathlib.Tactic.Positivity
import Mathlib.Algebra.Order.Floor.Ring
import Mathlib.Data.Int.NatPrime
import Mathlib.RingTheory.Int.Basic

/-!
# Properties of upper bounds, lower bounds and errors (C92)

`IsUpper`, `IsLower`, `Bounds.Contains` and `Describes` come from Verif/Bounds/Spec.lean.
-/

namespace Ariadne.Directed

open Ext (fin)
open Logical (LV)

variable {K : Type*} [Field K] [LinearOrder K] [IsStrictOrderedRing K]
variable (R : XRounding K)

theorem ne_nan_of_isUpper {a : Ext K} {x : K} (h : IsUpper a x) : a ≠ .nan := by
  rintro rfl; exact h
theorem ne_nan_of_isLower {a : Ext K} {x : K} (h : IsLower a x) : a ≠ .nan := by
  rintro rfl; exact h

theorem isUpper_hlf {a : Ext K} {x : K} (h : IsUpper a x) : IsUpper a.hlf (x / 2) := by
  cases a <;> simp_all [IsUpper, Ext.hlf]; linarith
theorem isLower_hlf {a : Ext K} {x : K} (h : IsLower a x) : IsLower a.hlf (x / 2) := by
  cases a <;> simp_all [IsLower, Ext.hlf]; linarith

theorem isUpper_max' {a b : Ext K} {x y : K} (ha : IsUpper a x) (hb : IsUpper b y) :
    IsUpper (Ext.max a b) (max x y) := by
  rcases max_choice x y with h | h <;> rw [h]
  · exact Ext.isUpper_max_left ha
  · exact Ext.isUpper_max_right hb (ne_nan_of_isUpper ha)
theorem isUpper_min' {a b : Ext K} {x y : K} (ha : IsUpper a x) (hb : IsUpper b y) :
    IsUpper (Ext.min a b) (min x y) :=
  Ext.isUpper_min (Ext.isUpper_mono ha (min_le_left _ _)) (Ext.isUpper_mono hb (min_le_right _ _))
theorem isLower_max' {a b : Ext K} {x y : K} (ha : IsLower a x) (hb : IsLower b y) :
    IsLower (Ext.max a b) (max x y) :=
  Ext.isLower_max (Ext.isLower_mono ha (le_max_left _ _)) (Ext.isLower_mono hb (le_max_right _ _))
theorem isLower_min' {a b : Ext K} {x y : K} (ha : IsLower a x) (hb : IsLower b y) :
    IsLower (Ext.min a b) (min x y) := by
  rcases min_choice x y with h | h <;> rw [h]
  · exact Ext.isLower_min_left ha
  · exact Ext.isLower_min_right hb (ne_nan_of_isLower ha)

theorem lt_of_ext {u l : Ext K} {x y : K} (hu : IsUpper u x) (hl : IsLower l y) (h : Ext.lt u l = true) :
    x < y := by
  cases u <;> cases l <;> simp [IsUpper, IsLower, Ext.lt] at * ; linarith
theorem le_of_ext {u l : Ext K} {x y : K} (hu : IsUpper u x) (hl : IsLower l y) (h : Ext.le u l = true) :
    x ≤ y := by
  cases u <;> cases l <;> simp [IsUpper, IsLower, Ext.le] at * ; linarith

/-- zero is not above the sign of a datum: what the positivity tests of the code decide -/
theorem isUpper_zero_of_le {a : Ext K} (h : Ext.le (fin 0) a = true) : IsUpper a (0 : K) := by
  cases a <;> simp_all [IsUpper, Ext.le]
theorem isLower_zero_of_not_le {a : Ext K} {x : K} (ha : IsUpper a x ∨ IsLower a x)
    (h : Ext.le (fin 0) a = false) : IsLower a (0 : K) := by
  cases a <;> simp_all [IsUpper, IsLower, Ext.le]; exact h.le

/-- **C92** Upper bounds under the operations of an ordered group: whatever upper bounds of `x` and `y` and lower bound of
`y` are given, infinite ones included, each operation gives an upper bound of the exact result, and negation a lower
bound. -/
theorem C92_upper {u v l : Ext K} {x y : K} (hu : IsUpper u x) (hv : IsUpper v y) (hl : IsLower l y) :
    IsUpper (Upper.ofExact R x) x ∧ IsUpper (Upper.nul u) (0 : K) ∧ IsUpper (Upper.pos u) x ∧
    IsLower (Upper.neg u) (-x) ∧ IsUpper (Upper.hlf u) (x / 2) ∧ IsUpper (Upper.add R u v) (x + y) ∧
    IsUpper (Upper.sub R u l) (x - y) ∧ IsUpper (Upper.max u v) (max x y) ∧
    IsUpper (Upper.min u v) (min x y) :=
  ⟨R.up_of_le le_rfl, by simp [Upper.nul, IsUpper], hu, Ext.isLower_neg hu, isUpper_hlf hu, add_up R hu hv,
    sub_up R hu hl, isUpper_max' hu hv, isUpper_min' hu hv⟩

/-- **C92** Lower bounds under the same operations. -/
theorem C92_lower {l m u : Ext K} {x y : K} (hl : IsLower l x) (hm : IsLower m y) (hu : IsUpper u y) :
    IsLower (Lower.ofExact R x) x ∧ IsLower (Lower.nul l) (0 : K) ∧ IsLower (Lower.pos l) x ∧
    IsUpper (Lower.neg l) (-x) ∧ IsLower (Lower.hlf l) (x / 2) ∧ IsLower (Lower.add R l m) (x + y) ∧
    IsLower (Lower.sub R l u) (x - y) ∧ IsLower (Lower.max l m) (max x y) ∧
    IsLower (Lower.min l m) (min x y) :=
  ⟨R.down_of_le le_rfl, by simp [Lower.nul, IsLower], hl, Ext.isUpper_neg hl, isLower_hlf hl, add_down R hl hm,
    sub_down R hl hu, isLower_max' hl hm, isLower_min' hl hm⟩

/-- The bounds of a number give an upper and a lower bound of it. -/
theorem C92_of_bounds {X : Bounds K} {x : K} (h : X.Contains x) :
    IsUpper (Upper.ofBounds X) x ∧ IsLower (Lower.ofBounds X) x := ⟨h.2, h.1⟩

/-- **C92** An upper bound multiplied by positive bounds, unless zero meets infinity, and divided by positive bounds. -/
theorem C92_upper_mul {X : Bounds K} {u : Ext K} {p x : K} (hX : X.Contains p) (hp : IsUpper X.l 0)
    (hu : IsUpper u x) (hn : Upper.mulBounds R X u ≠ .nan) : IsUpper (Upper.mulBounds R X u) (p * x) := by
  have h0 : 0 ≤ p := by
    obtain ⟨h, _⟩ := hX
    cases hl : X.l <;> simp [hl, IsUpper, IsLower] at * ; linarith
  unfold Upper.mulBounds at hn ⊢
  cases hc : Ext.le (fin 0) u with
  | true =>
    simp only [hc, if_true] at hn ⊢
    exact mul_up_pp R hX.2 hu (Ext.isUpper_mono hX.2 h0) (isUpper_zero_of_le hc) (Or.inl h0) hn
  | false =>
    simp only [hc, Bool.false_eq_true, if_false] at hn ⊢
    exact mul_up_pn R hX.1 hu hp (isLower_zero_of_not_le (Or.inl hu) hc)

theorem C92_upper_div {X : Bounds K} {u : Ext K} {p x : K} (hX : X.Contains p) (hp : Ext.lt (fin 0) X.l = true)
    (hu : IsUpper u x) : IsUpper (Upper.divBounds R u X) (x / p) := by
  have h0 : 0 < p := lt_of_ext (x := (0 : K)) (by simp [IsUpper]) hX.1 hp
  unfold Upper.divBounds
  cases hc : Ext.le (fin 0) u with
  | true =>
    simp only [if_true]
    exact div_up_pp R hu hX.1 (isUpper_zero_of_le hc) hp
  | false =>
    simp only [Bool.false_eq_true, if_false]
    exact div_up_np R hu hX.2 (isLower_zero_of_not_le (Or.inl hu) hc) h0

/-- **C92** A lower bound multiplied by positive bounds and divided by them. -/
theorem C92_lower_mul {X : Bounds K} {l : Ext K} {p x : K} (hX : X.Contains p) (hp : IsUpper X.l 0)
    (hl : IsLower l x) (hn : Lower.mulBounds R X l ≠ .nan) : IsLower (Lower.mulBounds R X l) (p * x) := by
  have h0 : 0 ≤ p := by
    obtain ⟨h, _⟩ := hX
    cases hl : X.l <;> simp [hl, IsUpper, IsLower] at * ; linarith
  unfold Lower.mulBounds at hn ⊢
  cases hc : Ext.le (fin 0) l with
  | true =>
    simp only [hc, if_true] at hn ⊢
    exact mul_down_pp R hX.1 hl hp (isUpper_zero_of_le hc)
  | false =>
    simp only [hc, Bool.false_eq_true, if_false] at hn ⊢
    exact mul_down_pn R hX.2 hl (Ext.isUpper_mono hX.2 h0) (isLower_zero_of_not_le (Or.inr hl) hc)
      (Or.inl h0) hn

theorem C92_lower_div {X : Bounds K} {l : Ext K} {p x : K} (hX : X.Contains p) (hp : Ext.lt (fin 0) X.l = true)
    (hl : IsLower l x) : IsLower (Lower.divBounds R l X) (x / p) := by
  have h0 : 0 < p := lt_of_ext (x := (0 : K)) (by simp [IsUpper]) hX.1 hp
  unfold Lower.divBounds
  cases hc : Ext.le (fin 0) l with
  | true =>
    simp only [if_true]
    exact div_down_pp R hl hX.2 (isUpper_zero_of_le hc) h0
  | false =>
    simp only [Bool.false_eq_true, if_false]
    exact div_down_np R hl hX.1 (isLower_zero_of_not_le (Or.inr hl) hc) hp

/-- **C92** Multiplication and division of either bound by an exact positive number, without further conditions. -/
theorem C92_exact_positive {u l : Ext K} {p x : K} (hp : 0 < p) (hu : IsUpper u x) (hl : IsLower l x) :
    IsUpper (Upper.mulPos R p u) (p * x) ∧ IsUpper (Upper.divPos R u p) (x / p) ∧
    IsLower (Lower.mulPos R p l) (p * x) ∧ IsLower (Lower.divPos R l p) (x / p) := by
  refine ⟨?_, ?_, ?_, ?_⟩
  · cases u <;> simp [IsUpper] at hu
    · exact R.up_of_le (by nlinarith)
    · simp [Upper.mulPos, Ext.mul, Ext.infSign, hp, IsUpper]
  · cases u <;> simp [IsUpper] at hu
    · simp only [Upper.divPos, Ext.div, hp.ne', if_false]
      exact R.up_of_le (by rw [div_le_div_iff_of_pos_right hp]; exact hu)
    · simp [Upper.divPos, Ext.div, Ext.infSign, hp, IsUpper]
  · cases l <;> simp [IsLower] at hl
    · simp [Lower.mulPos, Ext.mul, Ext.infSign, hp, hp.not_gt, IsLower]
    · exact R.down_of_le (by nlinarith)
  · cases l <;> simp [IsLower] at hl
    · simp [Lower.divPos, Ext.div, Ext.infSign, hp, hp.not_gt, IsLower]
    · simp only [Lower.divPos, Ext.div, hp.ne', if_false]
      exact R.down_of_le (by rw [div_le_div_iff_of_pos_right hp]; exact hl)

theorem describes_not {v : LV} {P : Prop} (h : Describes v P) : Describes v.not_ (¬ P) := by
  cases v <;> simp_all [Describes, LV.not_]

/-- **C92** Comparisons of an upper with a lower bound never say definitely what is false. -/
theorem C92_compare {u l m v : Ext K} {x y : K} (hu : IsUpper u x) (hl : IsLower l y)
    (hm : IsLower m x) (hv : IsUpper v y) :
    Describes (Upper.eq u l) (x = y) ∧ Describes (Upper.lt u l) (x < y) ∧
    Describes (Upper.ne u l) (x ≠ y) ∧ Describes (Upper.ge u l) (y ≤ x) ∧
    Describes (Lower.eq m v) (x = y) ∧ Describes (Lower.lt m v) (x < y) ∧
    Describes (Lower.ge m v) (y ≤ x) := by
  have h1 : Describes (Upper.eq u l) (x = y) := by
    unfold Upper.eq Describes; split_ifs with h
    · exact ⟨by simp, fun _ => (lt_of_ext hu hl h).ne⟩
    · exact ⟨by simp, by simp⟩
  have h2 : Describes (Upper.lt u l) (x < y) := by
    unfold Upper.lt Describes; split_ifs with h
    · exact ⟨fun _ => lt_of_ext hu hl h, by simp⟩
    · exact ⟨by simp, by simp⟩
  have h3 : Describes (Lower.eq m v) (x = y) := by
    unfold Lower.eq Describes; split_ifs with h
    · exact ⟨by simp, fun _ => (lt_of_ext hv hm h).ne'⟩
    · exact ⟨by simp, by simp⟩
  have h4 : Describes (Lower.lt m v) (x < y) := by
    unfold Lower.lt Describes; split_ifs with h
    · exact ⟨by simp, fun _ => (le_of_ext hv hm h).not_gt⟩
    · exact ⟨by simp, by simp⟩
  exact ⟨h1, h2, describes_not h1, by simpa [Upper.ge] using describes_not h2, h3, h4, by simpa [Lower.ge] using describes_not h4⟩

/-- **C92** … and finite bounds decide everything they can: if all the numbers they describe compare in one way, the
comparison says so. -/
theorem C92_compare_complete {u l : K} :
    ((∀ x y, x ≤ u → l ≤ y → x < y) → Upper.lt (fin u) (fin l) = .true_) ∧
    ((∀ x y, x ≤ u → l ≤ y → x ≠ y) → Upper.eq (fin u) (fin l) = .false_) ∧
    ((∀ x y, l ≤ x → y ≤ u → ¬ x < y) → Lower.lt (fin l) (fin u) = .false_) ∧
    ((∀ x y, l ≤ x → y ≤ u → x ≠ y) → Lower.eq (fin l) (fin u) = .false_) := by
  refine ⟨fun h => ?_, fun h => ?_, fun h => ?_, fun h => ?_⟩
  · simp [Upper.lt, Ext.lt, h u l le_rfl le_rfl]
  · have : u < l := by
      by_contra hc
      exact h u u le_rfl (not_lt.1 hc) rfl
    simp [Upper.eq, Ext.lt, this]
  · simp [Lower.lt, Ext.le, not_lt.1 (h l u le_rfl le_rfl)]
  · have : u < l := by
      by_contra hc
      exact h u u (not_lt.1 hc) le_rfl rfl
    simp [Lower.eq, Ext.lt, this]

/-- **C92** The integer cast from an upper bound is above the number, that from a lower bound below it, and both are the
best such integers for the bound. -/
theorem C92_cast_integer [FloorRing K] {u l : Ext K} {x : K} (hu : IsUpper u x) (hl : IsLower l x) :
    (∀ n, Upper.castInteger u = some n → x ≤ n ∧ ∀ m : ℤ, IsLower u (m : K) → n ≤ m) ∧
    (∀ n, Lower.castInteger l = some n → n ≤ x ∧ ∀ m : ℤ, IsUpper l (m : K) → m ≤ n) := by
  constructor
  · intro n h
    cases u <;> simp [Upper.castInteger, IsUpper] at h hu
    subst h
    exact ⟨le_trans hu (Int.le_ceil _), fun m hm => Int.ceil_le.2 hm⟩
  · intro n h
    cases l <;> simp [Lower.castInteger, IsLower] at h hl
    subst h
    exact ⟨le_trans (Int.floor_le _) hl, fun m hm => Int.le_floor.2 hm⟩

/-- **C92** One bound refines another exactly when every number it allows is allowed by the other; the refinement allows
the numbers both allow. -/
theorem C92_refines {u v : Ext K} (hu : u ≠ .nan) (hv : v ≠ .nan) :
    (Upper.refines u v = true ↔ ∀ x : K, IsUpper u x → IsUpper v x) ∧
    (Lower.refines u v = true ↔ ∀ x : K, IsLower u x → IsLower v x) ∧
    (∀ x : K, IsUpper (Upper.refinement u v) x ↔ IsUpper u x ∧ IsUpper v x) ∧
    (∀ x : K, IsLower (Lower.refinement u v) x ↔ IsLower u x ∧ IsLower v x) ∧
    (Upper.same u v = true ↔ u = v) ∧ (Lower.same u v = true ↔ u = v) := by
  refine ⟨?_, ?_, fun x => ⟨fun h => Ext.isUpper_of_min h hu hv, fun h => Ext.isUpper_min h.1 h.2⟩,
    fun x => ⟨fun h => Ext.isLower_of_max h hu hv, fun h => Ext.isLower_max h.1 h.2⟩, ?_, ?_⟩
  · cases u <;> cases v <;> simp [Upper.refines, Ext.le, IsUpper] at *
    · rename_i a
      exact ⟨a, le_rfl⟩
    · rename_i a b
      exact ⟨fun h x hx => hx.trans h, fun h => h a le_rfl⟩
    · rename_i a
      exact ⟨a + 1, by linarith⟩
  · cases u <;> cases v <;> simp [Lower.refines, Ext.le, IsLower] at *
    · rename_i b
      exact ⟨b - 1, by linarith⟩
    · rename_i a b
      exact ⟨fun h x hx => h.trans hx, fun h => h a le_rfl⟩
    · rename_i a
      exact ⟨a, le_rfl⟩
  · cases u <;> cases v <;> simp [Upper.same, Ext.eq] at *
  · cases u <;> cases v <;> simp [Lower.same, Ext.eq] at *

/-! ## Positive bounds -/

theorem toInt_small {m : ℕ} (h : m < 2 ^ 31) : toInt m = m := by
  unfold toInt
  rw [Nat.mod_eq_of_lt (by omega), if_pos h]

/-- **C92** Positive upper bounds: sum, product, square, power, maximum and minimum. -/
theorem C92_positive_upper {u v : Ext K} {x y : K} (hx : 0 < x) (hy : 0 < y) (hu : IsUpper u x) (hv : IsUpper v y) :
    PUpper.cast u = some u ∧
    IsUpper (PUpper.sqr R u) (x ^ 2) ∧ IsUpper (PUpper.add R u v) (x + y) ∧ IsUpper (PUpper.mul R u v) (x * y) ∧
    IsUpper (PUpper.max u v) (max x y) ∧ IsUpper (PUpper.min u v) (min x y) ∧
    ∀ m, m < 2 ^ 31 → ∃ w, PUpper.pow R u m = some w ∧ IsUpper w (x ^ m) := by
  refine ⟨?_, ?_, add_up R hu hv, mul_up_pos R hu hv hx hy, isUpper_max' hu hv, isUpper_min' hu hv, ?_⟩
  · unfold PUpper.cast
    cases u <;> simp [IsUpper, Ext.lt] at * ; linarith
  · rw [pow_two]; exact mul_up_pos R hu hu hx hx
  · intro m hm
    refine ⟨_, ?_, pow_pos_up R hx.le hu⟩
    rw [PUpper.pow, toInt_small hm, powInt, if_pos (by omega), Int.toNat_natCast]

/-- … for nonnegative numbers, unless zero meets infinity. -/
theorem C92_nonnegative_upper_mul {u v : Ext K} {x y : K} (hx : 0 ≤ x) (hy : 0 ≤ y) (hu : IsUpper u x)
    (hv : IsUpper v y) (hn : PUpper.mul R u v ≠ .nan) : IsUpper (PUpper.mul R u v) (x * y) :=
  mul_up_pp R hu hv (Ext.isUpper_mono hu hx) (Ext.isUpper_mono hv hy) (Or.inl hx) hn

/-- **C92** The operations that mix the two kinds, or numbers known to bounds, for lower bounds that are positive. -/
theorem C92_positive_upper_div {u l : Ext K} {X : Bounds K} {x y p : K} {n : ℕ} (hx : 0 ≤ x) (hu : IsUpper u x)
    (hl : IsLower l y) (h0 : Ext.lt (fin 0) l = true) (hX : X.Contains p) (hX0 : Ext.lt (fin 0) X.l = true)
    (hn : 0 < n) :
    IsUpper (PUpper.recip R l) (1 / y) ∧ IsUpper (PUpper.div R u l) (x / y) ∧
    IsUpper (PUpper.divBounds R u X) (x / p) ∧ IsUpper (PUpper.divNat R u n) (x / n) ∧
    (PUpper.mulBounds R X u ≠ .nan → IsUpper (PUpper.mulBounds R X u) (p * x)) := by
  have hp : 0 < p := lt_of_ext (x := (0 : K)) (by simp [IsUpper]) hX.1 hX0
  exact ⟨div_up_pp R (by simp [IsUpper]) hl (by simp [IsUpper]) h0,
   div_up_pp R hu hl (Ext.isUpper_mono hu hx) h0,
   div_up_pp R hu hX.1 (Ext.isUpper_mono hu hx) hX0,
   div_up_pp R hu (by simp [IsLower]) (Ext.isUpper_mono hu hx) (by simp [Ext.lt, hn]),
   mul_up_pp R hX.2 hu (Ext.isUpper_mono hX.2 hp.le) (Ext.isUpper_mono hu hx) (Or.inl hp.le)⟩

/-- **C92** Positive lower bounds, provided that the bounds themselves are not negative: sum, product, square, power,
maximum, minimum. -/
theorem C92_positive_lower_partial {l m : Ext K} {x y : K} (hl : IsLower l x) (hm : IsLower m y)
    (hl0 : IsUpper l 0) (hm0 : IsUpper m 0) :
    IsLower (PLower.sqr R l) (x ^ 2) ∧ IsLower (PLower.add R l m) (x + y) ∧ IsLower (PLower.mul R l m) (x * y) ∧
    IsLower (PLower.max l m) (max x y) ∧ IsLower (PLower.min l m) (min x y) ∧
    ∀ k, k < 2 ^ 31 → ∃ w, PLower.pow R l k = some w ∧ IsLower w (x ^ k) := by
  refine ⟨?_, add_down R hl hm, mul_down_pp R hl hm hl0 hm0, isLower_max' hl hm, isLower_min' hl hm, ?_⟩
  · rw [pow_two]; exact mul_down_pp R hl hl hl0 hl0
  · intro k hk
    refine ⟨_, ?_, pow_pos_down R hl hl0⟩
    rw [PLower.pow, toInt_small hk, powInt, if_pos (by omega), Int.toNat_natCast]

/-- **C92** Quotients of positive lower bounds by the named function `div`. -/
theorem C92_positive_lower_div {l u : Ext K} {X : Bounds K} {x y p q : K} {n : ℕ} (hl : IsLower l x)
    (hl0 : IsUpper l 0) (hu : IsUpper u y) (hy : 0 < y) (hX : X.Contains p) (hX0 : IsUpper X.l 0) (hp : 0 < p)
    (hq : 0 ≤ q) (hn : 0 < n) :
    IsLower (PLower.recip R u) (1 / y) ∧ IsLower (PLower.div R l u) (x / y) ∧
    IsLower (PLower.divBounds R l X) (x / p) ∧ IsLower (PLower.exactDiv R q u) (q / y) ∧
    IsLower (PLower.divNat R l n) (x / n) ∧ IsLower (PLower.mulBounds R X l) (p * x) :=
  ⟨div_down_pp R (by simp [IsLower]) hu (by simp [IsUpper]) hy, div_down_pp R hl hu hl0 hy,
   div_down_pp R hl hX.2 hl0 hp, div_down_pp R (by simp [IsLower]) hu (by simpa [IsUpper] using hq) hy,
   div_down_pp R hl (by simp [IsUpper]) hl0 (by exact_mod_cast hn), mul_down_pp R hX.1 hl hX0 hl0⟩

/-! ## Errors -/

/-- **C92** Errors: the operations on upper bounds for absolute values give upper bounds for the absolute values of sums
and products, `pm` gives bounds of every number within the error. -/
theorem C92_error {e f g : Ext K} {s t r : K} (he : IsUpper e |s|) (hf : IsUpper f |t|) (hg : IsUpper g |r|) :
    Error.ofExt e = some e ∧ (Error.pm e).Contains s ∧ IsUpper (Error.add R e f) |s + t| ∧
    IsUpper (Error.add R e f) |s - t| ∧ (Error.mul R e f ≠ .nan → IsUpper (Error.mul R e f) |s * t|) ∧
    (Error.sqr R e ≠ .nan → IsUpper (Error.sqr R e) |s ^ 2|) ∧
    (Error.fma R e f g ≠ .nan → IsUpper (Error.fma R e f g) |s * t + r|) ∧
    IsUpper (Error.max e f) (max |s| |t|) ∧ IsUpper (Error.min e f) (min |s| |t|) ∧
    ∀ m, m < 2 ^ 31 → ∃ w, Error.pow R e m = some w ∧ IsUpper w |s ^ m| := by
  have hmul : ∀ {a b : Ext K} {p q : K}, IsUpper a |p| → IsUpper b |q| → Ext.mul R.up a b ≠ .nan →
      IsUpper (Ext.mul R.up a b) |p * q| := fun {a b p q} ha hb hn => by
    rw [abs_mul]
    exact mul_up_pp R ha hb (Ext.isUpper_mono ha (abs_nonneg _)) (Ext.isUpper_mono hb (abs_nonneg _))
      (Or.inl (abs_nonneg _)) hn
  refine ⟨?_, ⟨?_, Ext.isUpper_mono he (le_abs_self _)⟩, Ext.isUpper_mono (add_up R he hf) (abs_add_le _ _),
    Ext.isUpper_mono (add_up R he hf) (abs_sub _ _), hmul he hf, ?_, ?_, isUpper_max' he hf, isUpper_min' he hf, ?_⟩
  · unfold Error.ofExt
    cases e <;> simp [IsUpper, Ext.lt] at * ; exact (abs_nonneg s).trans he
  · exact Ext.isLower_mono (Ext.isLower_neg he) (neg_abs_le s)
  · rw [pow_two]; exact hmul he he
  · intro hn
    refine Ext.isUpper_mono (x := |s * t| + |r|) ?_ (abs_add_le _ _)
    cases e <;> cases f <;> cases g <;> simp only [Error.fma, fmaExt] at hn ⊢ <;>
      first
      | exact add_up R (hmul he hf (by rintro h; simp [h, Ext.add] at hn)) hg
      | skip
    simp only [IsUpper] at he hf hg
    refine R.up_of_le (add_le_add ?_ hg)
    rw [abs_mul]
    exact mul_le_mul he hf (abs_nonneg _) ((abs_nonneg _).trans he)
  · intro m hm
    refine ⟨_, ?_, by rw [abs_pow]; exact pow_pos_up R (abs_nonneg s) he⟩
    rw [Error.pow, toInt_small hm, powInt, if_pos (by omega), Int.toNat_natCast]

/-- **C92** Errors with other numbers: a number with an error lies between the bounds computed, quotients by positive
lower bounds, and sums, products and quotients with natural numbers. -/
theorem C92_error_mixed {e l : Ext K} {X : Bounds K} {a s y p : K} {n : ℕ} (he : IsUpper e |s|) (hl : IsLower l y)
    (hl0 : Ext.lt (fin 0) l = true) (hX : X.Contains p) (hn : 0 < n) :
    IsUpper (Error.exactAdd R a e) (a + s) ∧ IsLower (Error.exactSub R a e) (a + s) ∧
    IsUpper (Error.div R e l) |s / y| ∧ IsUpper (Error.addNat R e n) (|s| + n) ∧
    (Error.mulNat R e n ≠ .nan → IsUpper (Error.mulNat R e n) (|s| * n)) ∧
    (Error.divNat R e n ≠ .nan → IsUpper (Error.divNat R e n) (|s| / n)) ∧
    IsLower (Error.boundsSub R X e) (p - |s|) := by
  have hy : 0 < y := lt_of_ext (x := (0 : K)) (by simp [IsUpper]) hl hl0
  have he0 := Ext.isUpper_mono he (abs_nonneg s)
  refine ⟨Ext.isUpper_mono (add_up R (a := fin a) (x := a) (by simp [IsUpper]) he) (by linarith [le_abs_self s]),
    Ext.isLower_mono (sub_down R (a := fin a) (x := a) (by simp [IsLower]) he) (by linarith [neg_abs_le s]), ?_,
    add_up R he (R.up_of_le le_rfl), ?_, ?_, sub_down R hX.1 he⟩
  · rw [abs_div, abs_of_pos hy]; exact div_up_pp R he hl he0 hl0
  · exact mul_up_pp R he (R.up_of_le le_rfl) he0 (R.up_of_le (by positivity)) (Or.inl (abs_nonneg _))
  · intro _
    refine div_up_pp R he (R.down_of_le le_rfl) he0 ?_
    have h1 := R.down_max (n : K) 1 R.rep_one (by exact_mod_cast hn)
    revert h1
    cases R.down (n : K) <;> simp [Ext.le, Ext.lt]
    intro h; linarith

/-- **C92** Positive upper bounds and errors are made from exactly the data that are bounds of zero, and are that datum;
only NaN is let through besides. -/
theorem C92_checked (e : Ext K) (he : e ≠ .nan) :
    (IsUpper e 0 → PUpper.cast e = some e ∧ Error.ofExt e = some e) ∧
    (¬ IsUpper e 0 → PUpper.cast e = none ∧ Error.ofExt e = none) := by
  cases e <;> simp [IsUpper, PUpper.cast, Error.ofExt, Ext.lt] at *

/-! ## Counterexamples -/

/-- **C92** The operator `/` of a positive lower bound by a positive upper bound multiplies: with the bounds 1 of 1 and 2
of 2, in every arithmetic, the result is not a lower bound of one half. -/
theorem C92_lower_operator_div_violated :
    IsLower (fin 1) (1 : K) ∧ IsUpper (fin 2) (2 : K) ∧ ¬ IsLower (PLower.opDiv R (fin 1) (fin 2)) (1 / 2 : K) := by
  refine ⟨le_rfl, le_rfl, ?_⟩
  have h1 := R.down_max (1 * 2 : K) 1 R.rep_one (by norm_num)
  simp only [PLower.opDiv, Ext.mul]
  revert h1
  cases R.down (1 * 2 : K) <;> simp [Ext.le, IsLower]
  intro h; linarith

/-- It is a lower bound when the divisor's bound is at most one, the case in which it cannot show. -/
theorem C92_lower_operator_div_partial {l u : Ext K} {x y : K} (hl : IsLower l x) (hl0 : IsUpper l 0)
    (hu : IsUpper u y) (hy : 0 < y) (h1 : IsLower u 1) : IsLower (PLower.opDiv R l u) (x / y) := by
  cases l <;> cases u <;> simp [IsLower, IsUpper] at *
  rename_i a b
  refine R.down_of_le ?_
  have hab : a * b ≤ a := mul_le_of_le_one_right hl0 h1
  have : a ≤ x / y := by
    rw [le_div_iff₀ hy]
    exact (mul_le_of_le_one_right hl0 (hu.trans h1)).trans hl
  exact hab.trans this

/-- **C92** The quotient of an exact positive number by a positive lower bound is rounded down: unless the quotient is
representable, what is returned as an upper bound is not one. -/
theorem C92_exact_div_violated (S : Rounding K) {a b : K} (hb : 0 < b) (h : ¬ S.Rep (a / b)) :
    ¬ IsUpper (PUpper.exactDiv (XRounding.ofRounding S) a (fin b)) (a / b) := by
  simp only [PUpper.exactDiv, Ext.div, hb.ne', if_false, XRounding.ofRounding, IsUpper, not_le]
  refine lt_of_le_of_ne (S.down_le _) fun he => h ?_
  rw [← he]; exact S.rep_down _

/-- In binary arithmetic of any precision one third is such a quotient. -/
theorem C92_exact_div_third (p : ℕ) : ¬ PBit.Rep p (1 / 3 : ℚ) := by
  rintro ⟨m, e, h, -⟩
  have h3 : (1 : ℚ) = 3 * m * 2 ^ e := by linarith
  rcases le_total 0 e with he | he
  · obtain ⟨k, rfl⟩ := Int.eq_ofNat_of_zero_le he
    have : (1 : ℤ) = 3 * m * 2 ^ k := by
      have h4 := h3; simp only [Int.ofNat_eq_natCast, zpow_natCast] at h4; exact_mod_cast h4
    have : (3 : ℤ) ∣ 1 := ⟨m * 2 ^ k, by rw [this]; ring⟩
    norm_num at this
  · obtain ⟨k, hk⟩ := Int.eq_ofNat_of_zero_le (neg_nonneg.2 he)
    have he' : e = -(k : ℤ) := by omega
    subst he'
    rw [zpow_neg, zpow_natCast] at h3
    have h5 : (2 : ℚ) ^ k = 3 * m := by
      have : (2 : ℚ) ^ k ≠ 0 := by positivity
      field_simp at h3; exact h3
    have h6 : (2 : ℤ) ^ k = 3 * m := by exact_mod_cast h5
    have : (3 : ℤ) ∣ 2 ^ k := ⟨m, h6⟩
    have := Int.prime_three.dvd_of_dvd_pow this
    norm_num at this

/-- **C92** A lower bound is cast to a positive one without a test: −1 is a lower bound of one half, and its square, in
every arithmetic, is not a lower bound of one quarter. -/
theorem C92_positive_lower_cast_violated :
    IsLower (fin (-1)) (1 / 2 : K) ∧ ¬ IsLower (PLower.sqr R (PLower.cast (fin (-1)))) ((1 / 2 : K) ^ 2) := by
  refine ⟨by simp only [IsLower]; norm_num, ?_⟩
  have h1 := R.down_max (-1 * -1 : K) 1 R.rep_one (by norm_num)
  simp only [PLower.sqr, PLower.cast, Ext.mul]
  revert h1
  cases R.down (-1 * -1 : K) <;> simp [Ext.le, IsLower]
  intro h
  exact lt_of_lt_of_le (by norm_num) h

/-- **C92** Powers of upper bounds pass the exponent through a signed integer: the power `2^32-1` of the upper bound 2 is
computed as its reciprocal and is not an upper bound of the power of 2, in any arithmetic. -/
theorem C92_pow_violated :
    ∃ w, PUpper.pow R (fin (2 : K)) (2 ^ 32 - 1) = some w ∧ ¬ IsUpper w ((2 : K) ^ (2 ^ 32 - 1)) := by
  have hi : toInt (2 ^ 32 - 1) = -1 := by decide
  refine ⟨Ext.pow R.up (Ext.div R.up (fin 1) (fin 2)) 1, ?_, ?_⟩
  · rw [PUpper.pow, hi, powInt]
    simp [Ext.eq, Ext.lt]
  · have hbig : (1 : K) < 2 ^ (2 ^ 32 - 1) := one_lt_pow₀ (by norm_num) (by norm_num)
    generalize (2 : K) ^ (2 ^ 32 - 1) = B at hbig
    have h1 := R.up_min (1 / 2 : K) 1 R.rep_one (by norm_num)
    have h2 := R.le_up (1 / 2 : K)
    simp only [Ext.div, two_ne_zero, if_false]
    revert h1 h2
    cases R.up (1 / 2 : K) <;> simp only [Ext.le, decide_eq_true_eq] <;> try simp
    rename_i r
    intro hr1 hr2
    have hr : (0 : K) < r := lt_of_lt_of_le (by norm_num) hr2
    have hm := R.up_min (1 * |r|) 1 R.rep_one (by rw [abs_of_pos hr]; linarith)
    rw [Ext.pow]
    simp only [one_ne_zero, if_false, Ext.eq, hr.ne', decide_false, Bool.false_eq_true, Ext.lt, hr, decide_true,
      Bool.true_or, if_true, Ext.abs]
    rw [Ext.powPosLoop, dif_neg one_ne_zero, show (1 : ℕ) / 2 = 0 from rfl, Ext.powPosLoop, dif_pos rfl]
    simp only [Nat.one_mod, if_true, Ext.mul]
    revert hm
    cases R.up (1 * |r|) <;> simp [Ext.le, IsUpper]
    intro h; linarith

/-! ## The hypotheses can be met -/

example : IsUpper (fin 3) (2 : ℚ) ∧ IsUpper Ext.pinf (5 : ℚ) ∧ IsLower (fin 4) (5 : ℚ) := by
  refine ⟨?_, trivial, ?_⟩ <;> simp only [IsUpper, IsLower] <;> norm_num

example : (⟨fin 1, fin 3⟩ : Bounds ℚ).Contains 2 ∧ IsUpper (fin 1) (0 : ℚ) ∧ Ext.lt (fin 0) (fin (1 : ℚ)) = true := by
  refine ⟨⟨?_, ?_⟩, ?_, ?_⟩ <;> simp [IsUpper, IsLower, Ext.lt]; norm_num

example : IsUpper (fin 2) |(-1 : ℚ)| := by simp [IsUpper]

end Ariadne.Directed
