import Verif.Real.Model
import Mathlib.Topology.Instances.Real.Lemmas
import Mathlib.Topology.Order.Basic
import Mathlib.Analysis.SpecificLimits.Basic

/-!
# What a real number expression means
-/

namespace Verif.RealNumber

open Ariadne (Ext Bounds XRounding)
open Ariadne.Ext (fin)
open Filter Topology

/-- `FastCauchySequence` (`source/numeric/sequence.hpp`): `d(x_m,x_n) ≤ 2^{-min(m,n)}`. -/
def FastCauchy (y : ℕ → ℝ) : Prop := ∀ m n, |y m - y n| ≤ (1 / 2 : ℝ) ^ min m n

/-- The expression denotes the real number `x`.  A limit requires a fast converging Cauchy sequence; a sequence
of bounds requires that all of them contain the number; `when` requires that one of the conditions holds, and
that the alternatives agree if both do. -/
def Denotes : Re → ℝ → Prop
  | .cnst c, x => x = c
  | .un o a, x => ∃ y, Denotes a y ∧ o.val y x
  | .power o a, x => ∃ y, Denotes a y ∧ o.val y x
  | .bin o a b, x => ∃ y z, Denotes a y ∧ Denotes b z ∧ o.val y z x
  | .limR s, x => ∃ y : ℕ → ℝ, (∀ n, Denotes (s n) (y n)) ∧ FastCauchy y ∧ Tendsto y atTop (𝓝 x)
  | .limD s, x => FastCauchy s ∧ Tendsto s atTop (𝓝 x)
  | .limB s, x => ∀ n, (s n).Contains x
  | .when_ p q a b, x => (p.truth ∨ q.truth) ∧ (p.truth → Denotes a x) ∧ (q.truth → Denotes b x)

/-- The operation on bounds contains the values of the operation, unless it gives NaN. -/
def Op1.Sound (fl : Floats) (o : Op1) : Prop :=
  ∀ pr X x y, X.NoNaN → X.Contains x → o.val x y → (o.ev (fl pr) X).NoNaN → (o.ev (fl pr) X).Contains y

/-- The same for two arguments. -/
def Op2.Sound (fl : Floats) (o : Op2) : Prop :=
  ∀ pr X Y x y z, X.NoNaN → Y.NoNaN → X.Contains x → Y.Contains y → o.val x y z →
    (o.ev (fl pr) X Y).NoNaN → (o.ev (fl pr) X Y).Contains z

/-- A condition is only refuted if it is false. -/
def Cond.Sound (c : Cond) : Prop := ∀ e, (c.check e).possibly = false → ¬ c.truth

/-- All operators and conditions of the expression are sound. -/
def Re.Sound (fl : Floats) : Re → Prop
  | .cnst _ => True
  | .un o a => o.Sound fl ∧ a.Sound fl
  | .power o a => o.Sound fl ∧ a.Sound fl
  | .bin o a b => o.Sound fl ∧ a.Sound fl ∧ b.Sound fl
  | .limR s => ∀ n, (s n).Sound fl
  | .limD _ => True
  | .limB _ => True
  | .when_ p q a b => p.Sound ∧ q.Sound ∧ a.Sound fl ∧ b.Sound fl

/-- Both endpoints exist, are finite, and are within `ε` of `x`. -/
def Within (x ε : ℝ) (b : Bounds ℝ) : Prop :=
  ∃ l u : ℝ, b = ⟨fin l, fin u⟩ ∧ |l - x| < ε ∧ |u - x| < ε

/-- The bounds of increasing effort converge to the number. -/
def Converges (d : ℕ → Option (Bounds ℝ)) (x : ℝ) : Prop :=
  ∀ ε > 0, ∃ N, ∀ e ≥ N, ∃ b, d e = some b ∧ Within x ε b

/-- The bounds in multiple precision converge if the effort and the number of bits increase. -/
def ConvergesMP (f : Prec → ℕ → Option (Bounds ℝ)) (x : ℝ) : Prop :=
  ∀ ε > 0, ∃ N, ∀ e ≥ N, ∀ p ≥ N, ∃ b, f (.mp p) e = some b ∧ Within x ε b

/-- Rounding to enough bits is arbitrarily precise, locally uniformly, and does not overflow. -/
def Fine (fl : Floats) : Prop :=
  ∀ v ε, 0 < ε → ∃ N, ∃ δ > 0, ∀ p ≥ N, ∀ w, |w - v| < δ →
    (∃ d, (fl (.mp p)).down w = fin d ∧ |d - v| < ε) ∧ ∃ u, (fl (.mp p)).up w = fin u ∧ |u - v| < ε

/-- Narrow bounds and high precision give narrow results. -/
def Op1.Tight (fl : Floats) (o : Op1) : Prop :=
  ∀ x y, o.val x y → ∀ ε > 0, ∃ N, ∃ δ > 0, ∀ p ≥ N, ∀ X, Within x δ X → Within y ε (o.ev (fl (.mp p)) X)

/-- The same for two arguments. -/
def Op2.Tight (fl : Floats) (o : Op2) : Prop :=
  ∀ x y z, o.val x y z → ∀ ε > 0, ∃ N, ∃ δ > 0, ∀ p ≥ N, ∀ X Y, Within x δ X → Within y δ Y →
    Within z ε (o.ev (fl (.mp p)) X Y)

/-- A condition which is false is refuted by all large efforts. -/
def Cond.Effective (c : Cond) : Prop := ¬ c.truth → ∃ N, ∀ e ≥ N, (c.check e).possibly = false

/-- The width of the bounds tends to zero (`ConvergentSequence<DyadicBounds>`). -/
def Shrinks (s : ℕ → Bounds ℝ) : Prop :=
  ∀ ε > 0, ∃ N, ∀ n ≥ N, ∃ l u : ℝ, s n = ⟨fin l, fin u⟩ ∧ u - l < ε

/-- All operators are tight, sequences of bounds shrink, conditions are effective and sound; no limits of sequences
of `Real`. -/
def Re.Effective (fl : Floats) : Re → Prop
  | .cnst _ => True
  | .un o a => o.Tight fl ∧ a.Effective fl
  | .power o a => o.Tight fl ∧ a.Effective fl
  | .bin o a b => o.Tight fl ∧ a.Effective fl ∧ b.Effective fl
  | .limR _ => False
  | .limD _ => True
  | .limB s => Shrinks s
  | .when_ p q a b => p.Sound ∧ q.Sound ∧ p.Effective ∧ q.Effective ∧ a.Effective fl ∧ b.Effective fl

/-- `round(Dyadic)` gives a nearest integer. -/
def Nearest (near : ℝ → ℤ) : Prop := ∀ x, |(near x : ℝ) - x| ≤ 1 / 2

end Verif.RealNumber
