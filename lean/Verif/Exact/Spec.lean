import Verif.Decimal.Spec
import Mathlib.Data.EReal.Operations

/-!
# What exact numbers and their texts mean
-/

namespace Ariadne.ExactSpec

/-- a dyadic rational -/
def IsDyadic (x : ℚ) : Prop := ∃ (p : ℤ) (q : ℕ), x = p / 2 ^ q

/-- `n` is an integer nearest to `x`, and of two nearest ones the one further from zero -/
def IsNearest (n : ℤ) (x : ℚ) : Prop :=
  |(n : ℚ) - x| ≤ 1 / 2 ∧ (|(n : ℚ) - x| = 1 / 2 → |x| ≤ |(n : ℚ)|)

/-- The text is an optional minus sign and decimal digits, with the value `n`. -/
def IsIntText (s : List Char) (n : ℤ) : Prop :=
  ∃ a : List ℕ, a ≠ [] ∧ (∀ d ∈ a, d < 10) ∧
    (s = a.map DecimalSpec.digit ∧ DecimalSpec.intPart a = n ∨
     s = '-' :: a.map DecimalSpec.digit ∧ -DecimalSpec.intPart a = n)

/-- `x` lies between `l` and `u`. -/
def Between (l u : ℚ) (x : ℝ) : Prop := (l : ℝ) ≤ x ∧ x ≤ u

end Ariadne.ExactSpec
