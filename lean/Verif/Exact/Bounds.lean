import Verif.Exact.Integer
import Verif.Logical.Spec
import Mathlib.Data.Real.Basic
import Mathlib.Tactic.Positivity

/-!
# C47: bounds and balls with rational or dyadic endpoints
-/

namespace Ariadne.Exact
open ExactSpec

/-- `x` is one of the numbers described by the bounds -/
def QBounds.Has (b : QBounds) (x : ℝ) : Prop := Between b.l b.u x
/-- `x` is one of the numbers described by the ball -/
def WBall.Has (b : WBall) (x : ℝ) : Prop := |x - b.v| ≤ b.e

namespace QBounds

theorem has_def {b : QBounds} {x : ℝ} : b.Has x ↔ (b.l : ℝ) ≤ x ∧ x ≤ b.u := Iff.rfl

theorem cast_nonneg {q : ℚ} : (0 : ℝ) ≤ q ↔ 0 ≤ q := by norm_cast
theorem cast_nonpos {q : ℚ} : (q : ℝ) ≤ 0 ↔ q ≤ 0 := by norm_cast

/-- C47: sums, differences and negation by `operator-`. -/
theorem C47_add_sub_neg {x y : QBounds} {a b : ℝ} (ha : x.Has a) (hb : y.Has b) :
    (add x y).Has (a + b) ∧ (sub x y).Has (a - b) ∧ (neg x).Has (-a) ∧ (hlfW x).Has (a / 2) ∧
    (max_ x y).Has (max a b) ∧ (min_ x y).Has (min a b) := by
  obtain ⟨a1, a2⟩ := ha
  obtain ⟨b1, b2⟩ := hb
  simp only [has_def, add, sub, neg, hlfW, max_, min_]
  push_cast
  exact ⟨⟨by linarith, by linarith⟩, ⟨by linarith, by linarith⟩, ⟨by linarith, by linarith⟩,
    ⟨by linarith, by linarith⟩, ⟨max_le_max a1 b1, max_le_max a2 b2⟩, ⟨min_le_min a1 b1, min_le_min a2 b2⟩⟩

/-- C47 fails for the named function `neg` of dyadic bounds. -/
theorem C47_negW_counterexample : (⟨1, 2⟩ : QBounds).Has 1 ∧ ¬ (negW ⟨1, 2⟩).Has (-1) := by
  constructor
  · constructor <;> norm_num
  · rintro ⟨_, h⟩; norm_num [negW] at h

/-- C47: `neg` of dyadic bounds is right for a single number only. -/
theorem C47_negW_partial {x : QBounds} (h : x.l ≤ x.u) :
    (∀ a : ℝ, x.Has a → (negW x).Has (-a)) ↔ x.l = x.u := by
  constructor
  · intro hx
    have := hx x.l ⟨le_rfl, by exact_mod_cast h⟩
    obtain ⟨_, h2⟩ := this
    simp only [negW] at h2
    push_cast at h2
    have : (x.u : ℝ) ≤ x.l := by linarith
    exact le_antisymm h (by exact_mod_cast this)
  · rintro e a ⟨h1, h2⟩
    simp only [has_def, negW]
    push_cast
    rw [e] at h1 ⊢
    exact ⟨by linarith, by linarith⟩

/-- C47 fails for `hlf` of rational bounds: the endpoints are exchanged. -/
theorem C47_hlf_counterexample : (⟨1, 2⟩ : QBounds).Has 1 ∧ ¬ (hlf ⟨1, 2⟩).Has (1 / 2) := by
  constructor
  · constructor <;> norm_num
  · rintro ⟨h, _⟩; norm_num [hlf] at h

theorem C47_hlf_partial {x : QBounds} (h : x.l = x.u) {a : ℝ} (ha : x.Has a) : (hlf x).Has (a / 2) := by
  obtain ⟨h1, h2⟩ := ha
  simp only [has_def, hlf]
  push_cast
  rw [h] at h1 ⊢
  exact ⟨by linarith, by linarith⟩

/-- C47: products. -/
theorem C47_mul {x y : QBounds} {a b : ℝ} (ha : x.Has a) (hb : y.Has b) : (mul x y).Has (a * b) := by
  obtain ⟨a1, a2⟩ := ha
  obtain ⟨b1, b2⟩ := hb
  unfold mul
  by_cases hx : x.l ≥ 0
  · have hx' := cast_nonneg.2 hx
    rw [if_pos hx]
    by_cases hy : y.l ≥ 0
    · have hy' := cast_nonneg.2 hy
      rw [if_pos hy, has_def]; push_cast; constructor <;> nlinarith
    · rw [if_neg hy]
      have hy' : (y.l : ℝ) ≤ 0 := cast_nonpos.2 (not_le.1 hy).le
      by_cases hz : y.u ≤ 0
      · have hz' := cast_nonpos.2 hz
        rw [if_pos hz, has_def]; push_cast; constructor <;> nlinarith
      · have hz' : (0 : ℝ) ≤ y.u := cast_nonneg.2 (not_le.1 hz).le
        rw [if_neg hz, has_def]; push_cast; constructor <;> nlinarith
  · rw [if_neg hx]
    have hx' : (x.l : ℝ) ≤ 0 := cast_nonpos.2 (not_le.1 hx).le
    by_cases hw : x.u ≤ 0
    · have hw' := cast_nonpos.2 hw
      rw [if_pos hw]
      by_cases hy : y.l ≥ 0
      · have hy' := cast_nonneg.2 hy
        rw [if_pos hy, has_def]; push_cast; constructor <;> nlinarith
      · rw [if_neg hy]
        have hy' : (y.l : ℝ) ≤ 0 := cast_nonpos.2 (not_le.1 hy).le
        by_cases hz : y.u ≤ 0
        · have hz' := cast_nonpos.2 hz
          rw [if_pos hz, has_def]; push_cast; constructor <;> nlinarith
        · have hz' : (0 : ℝ) ≤ y.u := cast_nonneg.2 (not_le.1 hz).le
          rw [if_neg hz, has_def]; push_cast; constructor <;> nlinarith
    · have hw' : (0 : ℝ) ≤ x.u := cast_nonneg.2 (not_le.1 hw).le
      rw [if_neg hw]
      by_cases hy : y.l ≥ 0
      · have hy' := cast_nonneg.2 hy
        rw [if_pos hy, has_def]; push_cast; constructor <;> nlinarith
      · rw [if_neg hy]
        have hy' : (y.l : ℝ) ≤ 0 := cast_nonpos.2 (not_le.1 hy).le
        by_cases hz : y.u ≤ 0
        · have hz' := cast_nonpos.2 hz
          rw [if_pos hz, has_def]; push_cast; constructor <;> nlinarith
        · have hz' : (0 : ℝ) ≤ y.u := cast_nonneg.2 (not_le.1 hz).le
          rw [if_neg hz, has_def]; push_cast
          rcases le_total 0 a with h | h
          · exact ⟨min_le_of_left_le (by nlinarith), le_max_of_le_right (by nlinarith)⟩
          · exact ⟨min_le_of_right_le (by nlinarith), le_max_of_le_left (by nlinarith)⟩

/-- C47: reciprocals, unless the bounds contain zero. -/
theorem C47_rec {x z : QBounds} {a : ℝ} (ha : x.Has a) (h : recip x = some z) : a ≠ 0 ∧ z.Has a⁻¹ := by
  obtain ⟨a1, a2⟩ := ha
  unfold recip at h
  split_ifs at h with hc
  simp only [Option.some.injEq] at h
  subst h
  rw [has_def]; push_cast
  rcases hc with hc | hc
  · have hl : (0 : ℝ) < x.l := by exact_mod_cast hc
    exact ⟨by linarith, inv_anti₀ (by linarith) a2, inv_anti₀ hl a1⟩
  · have hu : (x.u : ℝ) < 0 := by exact_mod_cast hc
    exact ⟨by linarith, (inv_le_inv_of_neg hu (by linarith)).2 a2, (inv_le_inv_of_neg (by linarith) (by linarith)).2 a1⟩

/-- C47: a reciprocal or a quotient is given up only if the divisor may be zero. -/
theorem C47_div_total {x y : QBounds} (hy : y.l ≤ y.u) :
    (recip y = none ↔ y.Has 0) ∧ (div x y = none ↔ y.Has 0) := by
  have e : y.Has 0 ↔ ¬ (y.l > 0 ∨ y.u < 0) := by
    rw [has_def]; push Not
    constructor
    · rintro ⟨h1, h2⟩; exact ⟨by exact_mod_cast h1, by exact_mod_cast h2⟩
    · rintro ⟨h1, h2⟩; exact ⟨by exact_mod_cast h1, by exact_mod_cast h2⟩
  rw [e]
  constructor
  · unfold recip; split_ifs with h <;> simp [h]
  · unfold div
    by_cases h1 : y.l > 0
    · simp [h1]
    · by_cases h2 : y.u < 0 <;> simp [h1, h2]

/-- C47: quotients. -/
theorem C47_div {x y z : QBounds} {a b : ℝ} (ha : x.Has a) (hb : y.Has b) (h : div x y = some z) :
    b ≠ 0 ∧ z.Has (a / b) := by
  obtain ⟨a1, a2⟩ := ha
  obtain ⟨b1, b2⟩ := hb
  unfold div at h
  by_cases h1 : y.l > 0
  · have h1' : (0 : ℝ) < y.l := by exact_mod_cast h1
    have hb0 : 0 < b := by linarith
    have hu0 : (0 : ℝ) < y.u := by linarith
    rw [if_pos h1, Option.some.injEq] at h
    refine ⟨hb0.ne', ?_⟩
    subst h
    by_cases h2 : x.l ≥ 0
    · have h2' := cast_nonneg.2 h2
      rw [if_pos h2, has_def]; push_cast
      constructor
      · rw [div_le_div_iff₀ hu0 hb0]; nlinarith
      · rw [div_le_div_iff₀ hb0 h1']; nlinarith
    · have h2' : (x.l : ℝ) ≤ 0 := cast_nonpos.2 (not_le.1 h2).le
      rw [if_neg h2]
      by_cases h3 : x.u ≤ 0
      · have h3' := cast_nonpos.2 h3
        rw [if_pos h3, has_def]; push_cast
        constructor
        · rw [div_le_div_iff₀ h1' hb0]; nlinarith
        · rw [div_le_div_iff₀ hb0 hu0]; nlinarith
      · have h3' : (0 : ℝ) ≤ x.u := cast_nonneg.2 (not_le.1 h3).le
        rw [if_neg h3, has_def]; push_cast
        constructor
        · rw [div_le_div_iff₀ h1' hb0]; nlinarith
        · rw [div_le_div_iff₀ hb0 h1']; nlinarith
  · rw [if_neg h1] at h
    by_cases h4 : y.u < 0
    · have h4' : (y.u : ℝ) < 0 := by exact_mod_cast h4
      have hb0 : b < 0 := by linarith
      have hl0 : (y.l : ℝ) < 0 := by linarith
      rw [if_pos h4, Option.some.injEq] at h
      refine ⟨hb0.ne, ?_⟩
      have flip : ∀ s t : ℝ, s / t = (-s) / (-t) := fun s t => (neg_div_neg_eq s t).symm
      subst h
      by_cases h2 : x.l ≥ 0
      · have h2' := cast_nonneg.2 h2
        rw [if_pos h2, has_def]; push_cast
        rw [flip a b, flip (x.u : ℝ) y.u, flip (x.l : ℝ) y.l]
        constructor
        · rw [div_le_div_iff₀ (by linarith) (by linarith)]; nlinarith
        · rw [div_le_div_iff₀ (by linarith) (by linarith)]; nlinarith
      · have h2' : (x.l : ℝ) ≤ 0 := cast_nonpos.2 (not_le.1 h2).le
        rw [if_neg h2]
        by_cases h3 : x.u ≤ 0
        · have h3' := cast_nonpos.2 h3
          rw [if_pos h3, has_def]; push_cast
          rw [flip a b, flip (x.u : ℝ) y.l, flip (x.l : ℝ) y.u]
          constructor
          · rw [div_le_div_iff₀ (by linarith) (by linarith)]; nlinarith
          · rw [div_le_div_iff₀ (by linarith) (by linarith)]; nlinarith
        · have h3' : (0 : ℝ) ≤ x.u := cast_nonneg.2 (not_le.1 h3).le
          rw [if_neg h3, has_def]; push_cast
          rw [flip a b, flip (x.u : ℝ) y.u, flip (x.l : ℝ) y.u]
          constructor
          · rw [div_le_div_iff₀ (by linarith) (by linarith)]; nlinarith
          · rw [div_le_div_iff₀ (by linarith) (by linarith)]; nlinarith
    · rw [if_neg h4] at h; cases h

/-- C47: squares. -/
theorem C47_sqr {x : QBounds} {a : ℝ} (ha : x.Has a) : (sqr x).Has (a ^ 2) := by
  obtain ⟨a1, a2⟩ := ha
  unfold sqr
  by_cases h1 : x.l > 0
  · have h1' : (0 : ℝ) < x.l := by exact_mod_cast h1
    rw [if_pos h1, has_def]; push_cast; constructor <;> nlinarith
  · rw [if_neg h1]
    by_cases h2 : x.u < 0
    · have h2' : (x.u : ℝ) < 0 := by exact_mod_cast h2
      rw [if_pos h2, has_def]; push_cast; constructor <;> nlinarith
    · rw [if_neg h2, has_def]; push_cast
      refine ⟨by positivity, ?_⟩
      rcases le_total 0 a with h | h
      · exact le_max_of_le_right (by nlinarith)
      · exact le_max_of_le_left (by nlinarith)

/-- C47: absolute values. -/
theorem C47_abs {x : QBounds} {a : ℝ} (ha : x.Has a) : (abs x).Has |a| := by
  obtain ⟨a1, a2⟩ := ha
  unfold abs
  rw [has_def]; push_cast
  constructor
  · refine max_le ?_ (abs_nonneg a)
    exact (min_le_left _ _).trans (a1.trans (le_abs_self a))
  · rcases abs_cases a with ⟨e, _⟩ | ⟨e, _⟩ <;> rw [e]
    · exact le_max_of_le_right a2
    · exact le_max_of_le_left (by linarith)

theorem abs_lower_nonneg (x : QBounds) : 0 ≤ (abs x).l := le_max_right _ _

/-- C47: powers of dyadic bounds. -/
theorem C47_powW {x : QBounds} {a : ℝ} (ha : x.Has a) (m : ℕ) : (powW x m).Has (a ^ m) := by
  unfold powW
  dsimp only
  by_cases hm : m % 2 = 0
  · rw [if_pos hm, has_def]; push_cast
    have he : Even m := Nat.even_iff.2 hm
    obtain ⟨h1, h2⟩ := C47_abs ha
    rw [← he.pow_abs a]
    have h0 : (0 : ℝ) ≤ (abs x).l := cast_nonneg.2 (abs_lower_nonneg x)
    exact ⟨pow_le_pow_left₀ h0 h1 m, pow_le_pow_left₀ (abs_nonneg a) h2 m⟩
  · rw [if_neg hm, has_def]; push_cast
    have ho : Odd m := Nat.odd_iff.2 (by omega)
    exact ⟨ho.strictMono_pow.monotone ha.1, ho.strictMono_pow.monotone ha.2⟩

/-- C47: powers of rational bounds, for odd exponents or nonnegative bounds. -/
theorem C47_pow_partial {x : QBounds} {a : ℝ} (ha : x.Has a) (m : ℕ) (h : Odd m ∨ 0 ≤ x.l) :
    (pow x m).Has (a ^ m) := by
  unfold pow
  rw [has_def, (C49_pow _ _ 0).1, (C49_pow _ _ 0).1]; push_cast
  rcases h with ho | h0
  · exact ⟨ho.strictMono_pow.monotone ha.1, ho.strictMono_pow.monotone ha.2⟩
  · have h0' := cast_nonneg.2 h0
    exact ⟨pow_le_pow_left₀ h0' ha.1 m, pow_le_pow_left₀ (h0'.trans ha.1) ha.2 m⟩

/-- C47 fails for even powers of rational bounds of both signs: the absolute value is
computed but not used. -/
theorem C47_pow_counterexample : (⟨-2, 1⟩ : QBounds).Has 0 ∧ ¬ (pow ⟨-2, 1⟩ 2).Has (0 ^ 2) := by
  constructor
  · constructor <;> norm_num
  · rintro ⟨h, _⟩
    unfold pow at h
    rw [(C49_pow _ _ 0).1] at h
    norm_num at h

open Logical (LV)

/-- C47: comparisons are definite only when right for all points. -/
theorem C47_comparisons {x y : QBounds} {a b : ℝ} (ha : x.Has a) (hb : y.Has b) :
    (eq x y = .true_ → a = b) ∧ (eq x y = .false_ → a ≠ b) ∧
    (le x y = .true_ → a ≤ b) ∧ (le x y = .false_ → ¬ a ≤ b) ∧
    (lt x y = .true_ → a < b) ∧ (lt x y = .false_ → ¬ a < b) := by
  obtain ⟨a1, a2⟩ := ha
  obtain ⟨b1, b2⟩ := hb
  have c : ∀ {p q : ℚ}, p ≤ q → (p : ℝ) ≤ q := fun h => by exact_mod_cast h
  have d : ∀ {p q : ℚ}, p < q → (p : ℝ) < q := fun h => by exact_mod_cast h
  refine ⟨?_, ?_, ?_, ?_, ?_, ?_⟩
  · unfold eq; split_ifs with h1 h2 <;> intro h <;> try cases h
    have := c h1.1; have := c h1.2; linarith
  · unfold eq; split_ifs with h1 h2 <;> intro h <;> try cases h
    rcases h2 with h2 | h2 <;> have := d h2 <;> intro e <;> linarith
  · unfold le; split_ifs with h1 h2 <;> intro h <;> try cases h
    have := c h1; linarith
  · unfold le; split_ifs with h1 h2 <;> intro h <;> try cases h
    have := d h2; intro e; linarith
  · unfold lt; split_ifs with h1 h2 <;> intro h <;> try cases h
    have := d h1; linarith
  · unfold lt; split_ifs with h1 h2 <;> intro h <;> try cases h
    have := c h2; intro e; linarith

/-- C47: comparisons are definite whenever all points agree. -/
theorem C47_comparisons_decisive {x y : QBounds} (hx : x.l ≤ x.u) (hy : y.l ≤ y.u) :
    ((∀ a b : ℝ, x.Has a → y.Has b → a < b) → lt x y = .true_) ∧
    ((∀ a b : ℝ, x.Has a → y.Has b → ¬ a < b) → lt x y = .false_) ∧
    ((∀ a b : ℝ, x.Has a → y.Has b → a ≤ b) → le x y = .true_) ∧
    ((∀ a b : ℝ, x.Has a → y.Has b → ¬ a ≤ b) → le x y = .false_) ∧
    ((∀ a b : ℝ, x.Has a → y.Has b → a = b) → eq x y = .true_) := by
  have xl : x.Has x.l := ⟨le_rfl, by exact_mod_cast hx⟩
  have xu : x.Has x.u := ⟨by exact_mod_cast hx, le_rfl⟩
  have yl : y.Has y.l := ⟨le_rfl, by exact_mod_cast hy⟩
  have yu : y.Has y.u := ⟨by exact_mod_cast hy, le_rfl⟩
  refine ⟨fun h => ?_, fun h => ?_, fun h => ?_, fun h => ?_, fun h => ?_⟩
  · have : x.u < y.l := by exact_mod_cast h _ _ xu yl
    unfold lt; rw [if_pos this]
  · have h' : x.l ≥ y.u := by
      have := h _ _ xl yu; push Not at this; exact_mod_cast this
    unfold lt; rw [if_neg (by linarith), if_pos h']
  · have : x.u ≤ y.l := by exact_mod_cast h _ _ xu yl
    unfold le; rw [if_pos this]
  · have h' : x.l > y.u := by
      have := h _ _ xl yu; push Not at this; exact_mod_cast this
    unfold le; rw [if_neg (by linarith), if_pos h']
  · have e1 : x.l = y.u := by exact_mod_cast h _ _ xl yu
    have e2 : x.u = y.l := by exact_mod_cast h _ _ xu yl
    unfold eq; rw [if_pos ⟨e1.ge, e2.le⟩]

/-- C47: the set predicates and operations. -/
theorem C47_sets {x y : QBounds} :
    (x.l ≤ x.u → y.l ≤ y.u → (inconsistent x y = true ↔ ¬ ∃ a : ℝ, x.Has a ∧ y.Has a)) ∧
    (x.l ≤ x.u → (refines x y = true ↔ ∀ a : ℝ, x.Has a → y.Has a)) ∧
    (∀ a : ℝ, (refinement x y).Has a ↔ x.Has a ∧ y.Has a) ∧
    (∀ a : ℝ, x.Has a ∨ y.Has a → (coarsening x y).Has a) := by
  refine ⟨fun hx hy => ?_, fun hx => ?_, fun a => ?_, fun a => ?_⟩
  · unfold inconsistent
    rw [decide_eq_true_iff]
    constructor
    · rintro h ⟨a, ⟨a1, a2⟩, ⟨b1, b2⟩⟩
      rcases h with h | h
      · have : (y.u : ℝ) < x.l := by exact_mod_cast h
        linarith
      · have : (x.u : ℝ) < y.l := by exact_mod_cast h
        linarith
    · intro h
      by_contra hc
      push Not at hc
      apply h
      refine ⟨((max x.l y.l : ℚ) : ℝ), ⟨?_, ?_⟩, ⟨?_, ?_⟩⟩ <;> norm_cast
      · exact le_max_left _ _
      · exact max_le hx hc.2
      · exact le_max_right _ _
      · exact max_le hc.1 hy
  · unfold refines
    rw [decide_eq_true_iff]
    constructor
    · rintro ⟨h1, h2⟩ a ⟨a1, a2⟩
      have : (y.l : ℝ) ≤ x.l := by exact_mod_cast h1
      have : (x.u : ℝ) ≤ y.u := by exact_mod_cast h2
      exact ⟨by linarith, by linarith⟩
    · intro h
      have h1 := (h x.l ⟨le_rfl, by exact_mod_cast hx⟩).1
      have h2 := (h x.u ⟨by exact_mod_cast hx, le_rfl⟩).2
      exact ⟨by exact_mod_cast h1, by exact_mod_cast h2⟩
  · simp only [has_def, refinement]; push_cast
    rw [max_le_iff, le_min_iff]; tauto
  · simp only [has_def, coarsening]; push_cast
    rintro (⟨h1, h2⟩ | ⟨h1, h2⟩)
    · exact ⟨min_le_of_left_le h1, le_max_of_le_left h2⟩
    · exact ⟨min_le_of_right_le h1, le_max_of_le_right h2⟩

end QBounds

namespace WBall

theorem has_iff {b : WBall} {x : ℝ} : b.Has x ↔ (b.v : ℝ) - b.e ≤ x ∧ x ≤ b.v + b.e := by
  unfold Has; rw [abs_le]; constructor <;> rintro ⟨h1, h2⟩ <;> constructor <;> linarith

/-- C47: conversions between balls and bounds lose no points and add none. -/
theorem C47_ball_convert (x : WBall) (y : QBounds) (a : ℝ) :
    ((toBounds x).Has a ↔ x.Has a) ∧ ((ofBounds y).Has a ↔ y.Has a) := by
  constructor
  · rw [has_iff, QBounds.has_def, toBounds]; push_cast; rfl
  · rw [has_iff, QBounds.has_def, ofBounds]; push_cast
    constructor <;> rintro ⟨h1, h2⟩ <;> constructor <;> linarith

/-- C47: ball arithmetic. -/
theorem C47_ball_arithmetic {x y : WBall} {a b : ℝ} (ha : x.Has a) (hb : y.Has b) :
    (add x y).Has (a + b) ∧ (sub x y).Has (a - b) ∧ (mul x y).Has (a * b) ∧ (abs x).Has |a| := by
  have he : (0 : ℝ) ≤ x.e := (abs_nonneg _).trans ha
  refine ⟨?_, ?_, ?_, ?_⟩
  · rw [has_iff] at *; simp only [add]; push_cast; constructor <;> linarith
  · rw [has_iff] at *; simp only [sub]; push_cast; constructor <;> linarith
  · unfold Has at *
    simp only [mul]; push_cast
    have e : a * b - x.v * y.v = x.v * (b - y.v) + (a - x.v) * y.v + (a - x.v) * (b - y.v) := by ring
    rw [e]
    refine (abs_add_le _ _).trans (add_le_add ((abs_add_le _ _).trans (add_le_add ?_ ?_)) ?_)
    · rw [abs_mul]; exact mul_le_mul_of_nonneg_left hb (abs_nonneg _)
    · rw [abs_mul]; exact mul_le_mul_of_nonneg_right ha (abs_nonneg _)
    · rw [abs_mul]; exact mul_le_mul ha hb (abs_nonneg _) he
  · unfold abs
    by_cases h : |x.v| ≥ x.e
    · rw [if_pos h]
      unfold Has at *
      push_cast
      exact (abs_abs_sub_abs_le _ _).trans ha
    · rw [if_neg h, has_iff]; rw [has_iff] at ha
      push_cast
      constructor
      · have := abs_nonneg a; linarith
      · rcases abs_cases a with ⟨e, _⟩ | ⟨e, _⟩ <;> rw [e]
        · have := le_max_right ((x.e : ℝ) - x.v) (x.v + x.e); linarith
        · have := le_max_left ((x.e : ℝ) - x.v) (x.v + x.e); linarith

open Logical (LV)

/-- C47: comparison and set predicates of balls. -/
theorem C47_ball_predicates {x y : WBall} (hx : 0 ≤ x.e) (hy : 0 ≤ y.e) :
    (∀ a b : ℝ, x.Has a → y.Has b → (lt x y = .true_ → a < b) ∧ (lt x y = .false_ → ¬ a < b)) ∧
    (inconsistent x y = true ↔ ¬ ∃ a : ℝ, x.Has a ∧ y.Has a) ∧
    (refines x y = true ↔ ∀ a : ℝ, x.Has a → y.Has a) ∧
    (∀ a : ℝ, (refinement x y).Has a ↔ x.Has a ∧ y.Has a) ∧
    (∀ a : ℝ, x.Has a ∨ y.Has a → (coarsening x y).Has a) := by
  have hx' : (0 : ℝ) ≤ x.e := by exact_mod_cast hx
  have hy' : (0 : ℝ) ≤ y.e := by exact_mod_cast hy
  refine ⟨fun a b ha hb => ?_, ?_, ?_, fun a => ?_, fun a h => ?_⟩
  · rw [has_iff] at ha hb
    constructor
    · unfold lt; split_ifs with h1 h2 <;> intro h <;> try cases h
      have : ((x.v + x.e : ℚ) : ℝ) < ((y.v - y.e : ℚ) : ℝ) := by exact_mod_cast h1
      push_cast at this; linarith
    · unfold lt; split_ifs with h1 h2 <;> intro h <;> try cases h
      have : ((y.v + y.e : ℚ) : ℝ) ≤ ((x.v - x.e : ℚ) : ℝ) := by exact_mod_cast h2
      push_cast at this; intro e; linarith
  · have key := (QBounds.C47_sets (x := toBounds x) (y := toBounds y)).1
      (by simp [toBounds]; linarith) (by simp [toBounds]; linarith)
    simp only [(C47_ball_convert _ ⟨0, 0⟩ _).1] at key
    rw [← key]
    unfold inconsistent QBounds.inconsistent toBounds
    rw [decide_eq_true_iff, decide_eq_true_iff, gt_iff_lt, lt_abs]
    constructor <;> rintro (h | h)
    · left; linarith
    · right; linarith
    · left; linarith
    · right; linarith
  · have key := (QBounds.C47_sets (x := toBounds x) (y := toBounds y)).2.1 (by simp [toBounds]; linarith)
    simp only [(C47_ball_convert _ ⟨0, 0⟩ _).1] at key
    rw [← key]
    unfold refines QBounds.refines toBounds
    rw [decide_eq_true_iff, decide_eq_true_iff]
    have : |x.v - y.v| + x.e ≤ y.e ↔ |x.v - y.v| ≤ y.e - x.e := by constructor <;> intro h <;> linarith
    rw [this, abs_le]
    constructor <;> rintro ⟨h1, h2⟩ <;> constructor <;> dsimp only at * <;> linarith
  · unfold refinement
    rw [(C47_ball_convert ⟨0, 0⟩ _ a).2, (QBounds.C47_sets).2.2.1, (C47_ball_convert x ⟨0, 0⟩ a).1, (C47_ball_convert y ⟨0, 0⟩ a).1]
  · unfold coarsening
    rw [(C47_ball_convert ⟨0, 0⟩ _ a).2]
    apply (QBounds.C47_sets).2.2.2
    rwa [(C47_ball_convert x ⟨0, 0⟩ a).1, (C47_ball_convert y ⟨0, 0⟩ a).1]

end WBall

example : (⟨-1, 2⟩ : QBounds).Has 1 ∧ (⟨-3, 4⟩ : QBounds).Has (-2) := by
  refine ⟨⟨?_, ?_⟩, ⟨?_, ?_⟩⟩ <;> norm_num
example : QBounds.mul ⟨-1, 2⟩ ⟨-3, 4⟩ = ⟨-6, 8⟩ := by decide +kernel
example : QBounds.div ⟨-1, 2⟩ ⟨-4, -2⟩ = some ⟨-1, 1 / 2⟩ := by decide +kernel
example : (⟨1, 1 / 2⟩ : WBall).Has (5 / 4) := by norm_num [WBall.Has, abs_le]

end Ariadne.Exact
