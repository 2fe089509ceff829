import Verif.Complex.Model
import Verif.Bounds.Props
import Mathlib.Analysis.SpecialFunctions.Complex.Log
import Mathlib.Analysis.SpecialFunctions.Trigonometric.Arctan
import Mathlib.Tactic.Linarith
import Mathlib.Tactic.LinearCombination
import Mathlib.Tactic.Ring

/-!
# Properties of complex numbers (C93)

The specification is the field `ℂ` of Mathlib.  `E a x` says that the number `a` of the type represents the real number
`x`: equality for exact numbers, membership for bounds.
-/

namespace Verif.Complex

open Ariadne.Logical (LV)
open Ariadne (Describes)

variable {X : Type*}

/-- The operations are right for the relation `E`: what they return represents the exact result.  Quotients represent it
in the wider sense `E'`, so that bounds of a quotient may be infinite. -/
structure Sound (A : Arith X) (E E' : X → ℝ → Prop) : Prop where
  add : ∀ {a b x y}, E a x → E b y → E (A.add a b) (x + y)
  sub : ∀ {a b x y}, E a x → E b y → E (A.sub a b) (x - y)
  mul : ∀ {a b x y}, E a x → E b y → E (A.mul a b) (x * y)
  div : ∀ {a b x y}, E a x → E b y → y ≠ 0 → E' (A.div a b) (x / y)
  neg : ∀ {a x}, E a x → E (A.neg a) (-x)
  hlf : ∀ {a x}, E a x → E (A.hlf a) (x / 2)
  sqr : ∀ {a x}, E a x → E (A.sqr a) (x ^ 2)
  nat : ∀ n, E (A.nat n) n

/-- The elementary functions are right; `decide` only says what is true. -/
structure SoundElem (L : Elem X) (E : X → ℝ → Prop) : Prop where
  sqrt : ∀ {a x}, E a x → 0 ≤ x → E (L.sqrt a) (Real.sqrt x)
  exp : ∀ {a x}, E a x → E (L.exp a) (Real.exp x)
  log : ∀ {a x}, E a x → 0 < x → E (L.log a) (Real.log x)
  cos : ∀ {a x}, E a x → E (L.cos a) (Real.cos x)
  sin : ∀ {a x}, E a x → E (L.sin a) (Real.sin x)
  atan : ∀ {a x}, E a x → E (L.atan a) (Real.arctan x)
  hlfPi : E L.hlfPi (Real.pi / 2)
  negHlfPi : E L.negHlfPi (-(Real.pi / 2))
  gt0 : ∀ {a x}, E a x → L.gt0 a = true → 0 < x
  lt0 : ∀ {a x}, E a x → L.lt0 a = true → x < 0

/-- The number `z` of the library represents the complex number `w`. -/
def Rep (E : X → ℝ → Prop) (z : Cx X) (w : ℂ) : Prop := E z.re w.re ∧ E z.im w.im

variable {A : Arith X} {L : Elem X} {E E' : X → ℝ → Prop}

/-- **C93** Sums, differences, products, squares, halves, negatives and conjugates, and the operations with a real number,
represent the exact results. -/
theorem C93_ring (h : Sound A E E') {z1 z2 : Cx X} {w1 w2 : ℂ} {a : X} {x : ℝ} (h1 : Rep E z1 w1) (h2 : Rep E z2 w2)
    (ha : E a x) :
    Rep E (Cx.add A z1 z2) (w1 + w2) ∧ Rep E (Cx.sub A z1 z2) (w1 - w2) ∧ Rep E (Cx.mul A z1 z2) (w1 * w2) ∧
    Rep E (Cx.nul A z1) 0 ∧ Rep E (Cx.pos z1) w1 ∧ Rep E (Cx.neg A z1) (-w1) ∧ Rep E (Cx.hlf A z1) (w1 / 2) ∧
    Rep E (Cx.sqr A z1) (w1 ^ 2) ∧ Rep E (Cx.conj A z1) (starRingEnd ℂ w1) ∧ Rep E (Cx.ofReal A a) (x : ℂ) ∧
    Rep E (Cx.addReal A z1 a) (w1 + x) ∧ Rep E (Cx.realAdd A a z1) (x + w1) ∧
    Rep E (Cx.subReal A z1 a) (w1 - x) ∧ Rep E (Cx.realSub A a z1) (x - w1) ∧
    Rep E (Cx.mulReal A z1 a) (w1 * x) ∧ Rep E (Cx.realMul A a z1) (x * w1) := by
  have h0 : E (A.nat 0) 0 := by simpa using h.nat 0
  refine ⟨⟨h.add h1.1 h2.1, h.add h1.2 h2.2⟩, ⟨h.sub h1.1 h2.1, h.sub h1.2 h2.2⟩, ⟨?_, ?_⟩, ⟨h0, h0⟩, h1,
    ⟨h.neg h1.1, h.neg h1.2⟩, ⟨?_, ?_⟩, ⟨?_, ?_⟩, ⟨?_, ?_⟩, ⟨?_, ?_⟩, ⟨?_, ?_⟩, ⟨?_, ?_⟩, ⟨?_, ?_⟩, ⟨?_, ?_⟩,
    ⟨?_, ?_⟩, ⟨?_, ?_⟩⟩
  · simpa [Cx.mul] using h.sub (h.mul h1.1 h2.1) (h.mul h1.2 h2.2)
  · simpa [Cx.mul] using h.add (h.mul h1.1 h2.2) (h.mul h1.2 h2.1)
  · simpa [Cx.hlf, Complex.div_ofNat_re] using h.hlf h1.1
  · simpa [Cx.hlf, Complex.div_ofNat_im] using h.hlf h1.2
  · have := h.sub (h.sqr h1.1) (h.sqr h1.2)
    simpa [Cx.sqr, pow_two] using this
  · have := h.mul (h.mul (h.nat 2) h1.1) h1.2
    have e : (w1 ^ 2).im = (2 : ℕ) * w1.re * w1.im := by simp [pow_two]; ring
    rw [e]; exact this
  · simpa [Cx.conj] using h1.1
  · simpa [Cx.conj] using h.neg h1.2
  · simpa [Cx.ofReal] using ha
  · simpa [Cx.ofReal] using h0
  · simpa [Cx.addReal] using h.add h1.1 ha
  · simpa [Cx.addReal] using h1.2
  · simpa [Cx.realAdd] using h.add ha h1.1
  · simpa [Cx.realAdd] using h1.2
  · simpa [Cx.subReal] using h.sub h1.1 ha
  · simpa [Cx.subReal] using h1.2
  · simpa [Cx.realSub] using h.sub ha h1.1
  · simpa [Cx.realSub] using h.neg h1.2
  · simpa [Cx.mulReal] using h.mul h1.1 ha
  · simpa [Cx.mulReal] using h.mul h1.2 ha
  · simpa [Cx.realMul] using h.mul ha h1.1
  · simpa [Cx.realMul] using h.mul ha h1.2

theorem normSq_ne {w : ℂ} (hw : w ≠ 0) : w.re ^ 2 + w.im ^ 2 ≠ 0 := by
  have := (Complex.normSq_pos.2 hw).ne'
  rwa [Complex.normSq_apply, ← pow_two, ← pow_two] at this

/-- **C93** Quotients and reciprocals of complex and real numbers, for divisors other than zero. -/
theorem C93_div (h : Sound A E E') {z1 z2 : Cx X} {w1 w2 : ℂ} {a : X} {x : ℝ} (h1 : Rep E z1 w1) (h2 : Rep E z2 w2)
    (ha : E a x) (hw : w2 ≠ 0) :
    Rep E' (Cx.div A z1 z2) (w1 / w2) ∧ Rep E' (Cx.recip A z2) w2⁻¹ ∧ Rep E' (Cx.realDiv A a z2) (x / w2) ∧
    (x ≠ 0 → Rep E' (Cx.divReal A z1 a) (w1 / x)) := by
  have hn := normSq_ne hw
  have hns := h.add (h.sqr h2.1) (h.sqr h2.2)
  have hN : Complex.normSq w2 = w2.re ^ 2 + w2.im ^ 2 := by rw [Complex.normSq_apply]; ring
  refine ⟨⟨?_, ?_⟩, ⟨?_, ?_⟩, ⟨?_, ?_⟩, fun hx => ⟨?_, ?_⟩⟩
  · have := h.div (h.add (h.mul h1.1 h2.1) (h.mul h1.2 h2.2)) hns hn
    rw [Complex.div_re, hN, ← add_div]; exact this
  · have := h.div (h.sub (h.mul h1.2 h2.1) (h.mul h1.1 h2.2)) hns hn
    rw [Complex.div_im, hN, ← sub_div]; exact this
  · have := h.div h2.1 hns hn
    rw [Complex.inv_re, hN]; exact this
  · have := h.div (h.neg h2.2) hns hn
    rw [Complex.inv_im, hN]; exact this
  · have := h.div (h.mul ha h2.1) hns hn
    rw [Complex.div_re, hN]; simpa [Cx.realDiv] using this
  · have := h.div (h.mul (h.neg ha) h2.2) hns hn
    rw [Complex.div_im, hN]; simpa [Cx.realDiv, neg_div] using this
  · have := h.div h1.1 ha hx
    rw [Complex.div_ofReal_re]; exact this
  · have := h.div h1.2 ha hx
    rw [Complex.div_ofReal_im]; exact this

/-- **C93** Comparisons never say definitely what is false, and say definitely what is decided for both parts. -/
theorem C93_compare {eqX neX : X → X → LV} (he : ∀ {a b x y}, E a x → E b y → Describes (eqX a b) (x = y))
    (hne : ∀ {a b x y}, E a x → E b y → Describes (neX a b) (x ≠ y)) {z1 z2 : Cx X} {w1 w2 : ℂ} (h1 : Rep E z1 w1)
    (h2 : Rep E z2 w2) :
    Describes (Cx.eq eqX z1 z2) (w1 = w2) ∧ Describes (Cx.ne neX z1 z2) (w1 ≠ w2) ∧
    (eqX z1.re z2.re = .false_ ∨ eqX z1.im z2.im = .false_ → Cx.eq eqX z1 z2 = .false_) := by
  have e1 := he h1.1 h2.1
  have e2 := he h1.2 h2.2
  have n1 := hne h1.1 h2.1
  have n2 := hne h1.2 h2.2
  refine ⟨?_, ?_, ?_⟩
  · unfold Cx.eq
    revert e1 e2
    rw [Complex.ext_iff]
    cases eqX z1.re z2.re <;> cases eqX z1.im z2.im <;>
      simp [Describes, LV.and_, LV.code] <;> tauto
  · unfold Cx.ne
    revert n1 n2
    have : (w1 ≠ w2) = ¬ (w1.re = w2.re ∧ w1.im = w2.im) := by rw [ne_eq, Complex.ext_iff]
    rw [this]
    cases neX z1.re z2.re <;> cases neX z1.im z2.im <;>
      simp [Describes, LV.or_, LV.code] <;> tauto
  · unfold Cx.eq
    cases eqX z1.re z2.re <;> cases eqX z1.im z2.im <;> simp [LV.and_, LV.code]

/-! ## Elementary functions -/

theorem arg_of_pos {w : ℂ} (h : 0 < w.re) : w.arg = Real.arctan (w.im / w.re) := by
  have h1 := Complex.abs_arg_lt_pi_div_two_iff.2 (Or.inl h)
  rw [abs_lt] at h1
  rw [← Complex.tan_arg, Real.arctan_tan h1.1 h1.2]

theorem arg_of_im_pos {w : ℂ} (h : 0 < w.im) : w.arg = Real.pi / 2 - Real.arctan (w.re / w.im) := by
  have hpi := Real.pi_pos
  have e : w = Complex.I * ⟨w.im, -w.re⟩ := by apply Complex.ext <;> simp
  have h2 : (⟨w.im, -w.re⟩ : ℂ).arg = -Real.arctan (w.re / w.im) := by
    rw [arg_of_pos (by simpa using h), ← Real.arctan_neg]; simp only [neg_div]
  have hb1 := Real.neg_pi_div_two_lt_arctan (w.re / w.im)
  have hb2 := Real.arctan_lt_pi_div_two (w.re / w.im)
  have hne : (⟨w.im, -w.re⟩ : ℂ) ≠ 0 := fun h0 => by
    have := congrArg Complex.re h0; simp at this; linarith
  conv_lhs => rw [e]
  rw [(Complex.arg_mul_eq_add_arg_iff Complex.I_ne_zero hne).2, Complex.arg_I, h2]
  · ring
  · rw [Complex.arg_I, h2]; constructor <;> linarith

theorem arg_of_im_neg {w : ℂ} (h : w.im < 0) : w.arg = -(Real.pi / 2) - Real.arctan (w.re / w.im) := by
  have h1 : 0 < (starRingEnd ℂ w).im := by simpa using h
  have h2 := arg_of_im_pos h1
  rw [Complex.arg_conj, if_neg (by
    intro h3
    have := (Complex.arg_eq_pi_iff.1 h3).2
    linarith)] at h2
  have h3 : w.arg = -(Real.pi / 2 - Real.arctan ((starRingEnd ℂ w).re / (starRingEnd ℂ w).im)) := by
    rw [← h2]; ring
  rw [h3]
  simp only [Complex.conj_re, Complex.conj_im, div_neg, Real.arctan_neg]
  ring

/-- **C93** The argument, when one is returned, represents the principal argument. -/
theorem C93_argument (h : Sound A E E) (l : SoundElem L E) {z : Cx X} {w : ℂ} (hz : Rep E z w) {t : X}
    (ht : Cx.argument A L z = some t) : E t w.arg := by
  unfold Cx.argument Cx.atan2 at ht
  by_cases hx : L.gt0 z.re = true
  · rw [if_pos hx] at ht
    have hp := l.gt0 hz.1 hx
    rw [← Option.some.inj ht, arg_of_pos hp]
    exact l.atan (h.div hz.2 hz.1 hp.ne')
  · rw [if_neg hx] at ht
    by_cases hy : L.gt0 z.im = true
    · rw [if_pos hy] at ht
      have hp := l.gt0 hz.2 hy
      rw [← Option.some.inj ht, arg_of_im_pos hp]
      exact h.sub l.hlfPi (l.atan (h.div hz.1 hz.2 hp.ne'))
    · rw [if_neg hy] at ht
      by_cases hn : L.lt0 z.im = true
      · rw [if_pos hn] at ht
        have hp := l.lt0 hz.2 hn
        rw [← Option.some.inj ht, arg_of_im_neg hp]
        exact h.sub l.negHlfPi (l.atan (h.div hz.1 hz.2 hp.ne))
      · rw [if_neg hn] at ht; cases ht

/-- **C93** The modulus and the distance. -/
theorem C93_modulus (h : Sound A E E') (l : SoundElem L E) {z z' : Cx X} {w w' : ℂ} (hz : Rep E z w)
    (hz' : Rep E z' w') : E (Cx.modulus A L z) ‖w‖ ∧ E (Cx.dist A L z z') (Dist.dist w w') := by
  have key : ∀ {z : Cx X} {w : ℂ}, Rep E z w → E (Cx.modulus A L z) ‖w‖ := fun {z w} hz => by
    have := l.sqrt (h.add (h.sqr hz.1) (h.sqr hz.2)) (by positivity)
    rw [Complex.norm_def, Complex.normSq_apply, ← pow_two, ← pow_two]
    exact this
  refine ⟨key hz, ?_⟩
  rw [Complex.dist_eq]
  exact key ⟨h.sub hz.1 hz'.1, h.sub hz.2 hz'.2⟩

/-- **C93** The exponential. -/
theorem C93_exp (h : Sound A E E') (l : SoundElem L E) {z : Cx X} {w : ℂ} (hz : Rep E z w) :
    Rep E (Cx.exp A L z) (Complex.exp w) := by
  constructor
  · rw [Complex.exp_re]; exact h.mul (l.exp hz.1) (l.cos hz.2)
  · rw [Complex.exp_im]; exact h.mul (l.exp hz.1) (l.sin hz.2)

/-- **C93** The logarithm, when one is returned, represents the principal one. -/
theorem C93_log (h : Sound A E E) (l : SoundElem L E) {z r : Cx X} {w : ℂ} (hw : w ≠ 0) (hz : Rep E z w)
    (hr : Cx.log A L z = some r) : Rep E r (Complex.log w) := by
  obtain ⟨t, ht, rfl⟩ := Option.map_eq_some_iff.1 hr
  constructor
  · have hpos : 0 < w.re ^ 2 + w.im ^ 2 := lt_of_le_of_ne (by positivity) (normSq_ne hw).symm
    have := h.hlf (l.log (h.add (h.sqr hz.1) (h.sqr hz.2)) hpos)
    have e : (Complex.log w).re = Real.log (w.re ^ 2 + w.im ^ 2) / 2 := by
      rw [Complex.log_re, Complex.norm_def, Complex.normSq_apply, Real.log_sqrt (by rw [← pow_two, ← pow_two]; exact hpos.le)]
      rw [← pow_two, ← pow_two]
    rw [e]; exact this
  · rw [Complex.log_im]; exact C93_argument h l hz ht

/-- **C93** The square root, when one is returned, represents the one in the right half-plane. -/
theorem C93_sqrt (h : Sound A E E) (l : SoundElem L E) {z r : Cx X} {w : ℂ} (hz : Rep E z w)
    (hr : Cx.sqrt A L z = some r) : ∃ s : ℂ, Rep E r s ∧ s ^ 2 = w ∧ 0 ≤ s.re := by
  obtain ⟨t, ht, rfl⟩ := Option.map_eq_some_iff.1 hr
  have ha := h.hlf (C93_argument h l hz ht)
  have hm := l.sqrt (C93_modulus h l hz hz).1 (norm_nonneg w)
  refine ⟨⟨Real.sqrt ‖w‖ * Real.cos (w.arg / 2), Real.sqrt ‖w‖ * Real.sin (w.arg / 2)⟩,
    ⟨h.mul hm (l.cos ha), h.mul hm (l.sin ha)⟩, ?_, ?_⟩
  · have hs : Real.sqrt ‖w‖ * Real.sqrt ‖w‖ = ‖w‖ := Real.mul_self_sqrt (norm_nonneg w)
    apply Complex.ext
    · rw [← Complex.norm_mul_cos_arg w]
      have hc : Real.cos w.arg = Real.cos (w.arg / 2) ^ 2 - Real.sin (w.arg / 2) ^ 2 := by
        rw [← Real.cos_two_mul']; congr 1; ring
      rw [hc]; simp only [pow_two, Complex.mul_re]
      linear_combination (Real.cos (w.arg / 2) ^ 2 - Real.sin (w.arg / 2) ^ 2) * hs
    · rw [← Complex.norm_mul_sin_arg w]
      have hc : Real.sin w.arg = 2 * Real.sin (w.arg / 2) * Real.cos (w.arg / 2) := by
        rw [← Real.sin_two_mul]; congr 1; ring
      rw [hc]; simp only [pow_two, Complex.mul_im]
      linear_combination (2 * Real.sin (w.arg / 2) * Real.cos (w.arg / 2)) * hs
  · refine mul_nonneg (Real.sqrt_nonneg _) (Real.cos_nonneg_of_mem_Icc ⟨?_, ?_⟩)
    · linarith [Complex.neg_pi_lt_arg w]
    · linarith [Complex.arg_le_pi w]

/-- **C93** With exact answers of `decide` the argument is returned everywhere except at zero and on the negative half of
the real line. -/
theorem C93_argument_defined (L : Elem ℝ) (A : Arith ℝ) (hg : ∀ x, L.gt0 x = decide (0 < x))
    (hl : ∀ x, L.lt0 x = decide (x < 0)) (z : Cx ℝ) :
    (Cx.argument A L z).isSome = true ↔ ¬ (z.im = 0 ∧ z.re ≤ 0) := by
  unfold Cx.argument Cx.atan2
  rw [hg, hg, hl]
  by_cases hx : 0 < z.re
  · simp [hx]
  · by_cases hy : 0 < z.im
    · simp [hx, hy, hy.ne']
    · by_cases hn : z.im < 0
      · simp [hx, hy, hn, hn.ne]
      · have : z.im = 0 := le_antisymm (not_lt.1 hy) (not_lt.1 hn)
        simp [hx, this, not_lt.1 hx]

/-! ## Exact numbers and bounds -/

/-- exact real numbers -/
noncomputable def exact : Arith ℝ where
  add := (· + ·)
  sub := (· - ·)
  mul := (· * ·)
  div := (· / ·)
  neg x := -x
  hlf x := x / 2
  sqr x := x ^ 2
  nat n := n

open Classical in
/-- exact elementary functions -/
noncomputable def exactElem : Elem ℝ where
  sqrt := Real.sqrt
  exp := Real.exp
  log := Real.log
  cos := Real.cos
  sin := Real.sin
  atan := Real.arctan
  hlfPi := Real.pi / 2
  negHlfPi := -(Real.pi / 2)
  gt0 x := decide (0 < x)
  lt0 x := decide (x < 0)

theorem exact_sound : Sound exact (fun a x => a = x) (fun a x => a = x) := by
  constructor <;> intros <;> simp_all [exact]

theorem exactElem_sound : SoundElem exactElem (fun a x => a = x) := by
  constructor <;> intros <;> simp_all [exactElem]

open Ariadne in
/-- the arithmetic of `FloatBounds` -/
noncomputable def bounds (R : XRounding ℝ) : Arith (Bounds ℝ) where
  add := Bounds.add R
  sub := Bounds.sub R
  mul := Bounds.mul R
  div := Bounds.div R
  neg := Bounds.neg
  hlf := Bounds.hlf
  sqr := Bounds.sqr R
  nat n := Bounds.ofExact R n

open Ariadne in
/-- **C93** For bounds in an arithmetic without overflow the hypotheses of the theorems hold: finite bounds which contain the
number, and for quotients bounds which contain it. -/
theorem C93_bounds (S : Rounding ℝ) :
    Sound (bounds (XRounding.ofRounding S)) (fun a x => a.Contains x ∧ a.Finite) (fun a x => a.Contains x) := by
  constructor
  · rintro ⟨_, _⟩ ⟨_, _⟩ x y ⟨hx, ⟨a, rfl⟩, b, rfl⟩ ⟨hy, ⟨c, rfl⟩, d, rfl⟩
    exact ⟨Bounds.C05_add _ hx hy, ⟨_, rfl⟩, ⟨_, rfl⟩⟩
  · rintro ⟨_, _⟩ ⟨_, _⟩ x y ⟨hx, ⟨a, rfl⟩, b, rfl⟩ ⟨hy, ⟨c, rfl⟩, d, rfl⟩
    exact ⟨Bounds.C05_sub _ hx hy, ⟨_, rfl⟩, ⟨_, rfl⟩⟩
  · rintro ⟨_, _⟩ ⟨_, _⟩ x y ⟨hx, ⟨a, rfl⟩, b, rfl⟩ ⟨hy, ⟨c, rfl⟩, d, rfl⟩
    refine ⟨Bounds.C05_mul _ ⟨⟨_, rfl⟩, _, rfl⟩ ⟨⟨_, rfl⟩, _, rfl⟩ hx hy, ?_⟩
    simp only [bounds, Bounds.mul]
    split_ifs <;> simp [Bounds.Finite, Ext.mul, XRounding.ofRounding, Ext.max, Ext.min] <;>
      constructor <;> split_ifs <;> exact ⟨_, rfl⟩
  · rintro a b x y ⟨hx, _⟩ ⟨hy, _⟩ _
    exact Bounds.C06_div _ hx hy
  · rintro ⟨_, _⟩ x ⟨hx, ⟨a, rfl⟩, b, rfl⟩
    exact ⟨Bounds.C05_neg hx, ⟨_, rfl⟩, ⟨_, rfl⟩⟩
  · rintro ⟨_, _⟩ x ⟨hx, ⟨a, rfl⟩, b, rfl⟩
    exact ⟨Bounds.C05_hlf hx, ⟨_, rfl⟩, ⟨_, rfl⟩⟩
  · rintro ⟨_, _⟩ x ⟨hx, ⟨a, rfl⟩, b, rfl⟩
    refine ⟨Bounds.C05_sqr _ hx, ?_⟩
    simp only [bounds, Bounds.sqr]
    split_ifs <;> simp [Bounds.Finite, Ext.mul, XRounding.ofRounding, Ext.max]
    split_ifs <;> exact ⟨_, rfl⟩
  · intro n
    exact ⟨Bounds.C05_ofExact _ _, ⟨_, rfl⟩, ⟨_, rfl⟩⟩

/-! ## Counterexamples -/

/-- **C93** The number made from `r` and an angle has the modulus `exp r`, as the comment of the constructor says
(complex.hpp 172). -/
theorem C93_polar (r th : ℝ) : Cx.modulus exact exactElem (Cx.ofPolar exact exactElem r th) = Real.exp r := by
  simp only [Cx.modulus, Cx.ofPolar, exact, exactElem]
  rw [mul_pow, mul_pow, ← mul_add, Real.cos_sq_add_sin_sq, mul_one, Real.sqrt_sq (Real.exp_pos r).le]

/-- **C93** So no number is made again from its modulus and its argument (`make_complex_from_polar`, 146-147, says nothing of
an exponential). -/
theorem C93_polar_violated (r th : ℝ) : Cx.modulus exact exactElem (Cx.ofPolar exact exactElem r th) ≠ r := by
  rw [C93_polar]
  have := Real.add_one_le_exp r
  linarith

/-- **C93** On the negative half of the real line, where argument, logarithm and square root exist, an exception is thrown
even by exact arithmetic. -/
theorem C93_negative_violated (x : ℝ) (hx : x < 0) :
    Cx.argument exact exactElem ⟨x, 0⟩ = none ∧ Cx.log exact exactElem ⟨x, 0⟩ = none ∧
    Cx.sqrt exact exactElem ⟨x, 0⟩ = none := by
  have h : Cx.argument exact exactElem ⟨x, 0⟩ = none := by
    simp [Cx.argument, Cx.atan2, exactElem, hx.le]
  simp [Cx.log, Cx.sqrt, h]

/-! ## The hypotheses can be met -/

example : Rep (fun a x => a = x) (⟨-1, 2⟩ : Cx ℝ) (-1 + 2 * Complex.I) := by constructor <;> simp

example : (Cx.argument exact exactElem ⟨-1, 2⟩).isSome = true :=
  (C93_argument_defined _ _ (fun _ => rfl) (fun _ => rfl) _).2 (by simp)

end Verif.Complex
