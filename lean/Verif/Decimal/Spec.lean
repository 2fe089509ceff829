import Mathlib.Data.Rat.Defs
import Mathlib.Algebra.Order.Field.Basic
import Mathlib.Algebra.Order.Ring.Rat

/-!
# What a decimal literal means

`litValue neg a b` is the number written as an optional minus sign, the digits
`a`, a decimal point and the digits `b`: each digit has its place value.
-/

namespace Ariadne.DecimalSpec

/-- place values to the left of the point: most significant digit first -/
def intPart : List ℕ → ℚ
  | [] => 0
  | d :: ds => d * 10 ^ ds.length + intPart ds

/-- place values to the right of the point -/
def fracPart : List ℕ → ℚ
  | [] => 0
  | d :: ds => (d + fracPart ds) / 10

def litValue (neg : Bool) (a b : List ℕ) : ℚ :=
  (if neg then -1 else 1) * (intPart a + fracPart b)

/-- the characters `0` to `9` -/
def digit (d : ℕ) : Char := Char.ofNat (48 + d)

/-- The text is an optional sign, then digits with at most one point between or
around them: the literal with integer digits `a` and fractional digits `b`. -/
def IsLiteral (s : List Char) (neg : Bool) (a b : List ℕ) : Prop :=
  (∀ d ∈ a, d < 10) ∧ (∀ d ∈ b, d < 10) ∧
  ∃ sign point : List Char,
    s = sign ++ a.map digit ++ point ++ b.map digit ∧
    (sign = ['-'] ∧ neg = true ∨ (sign = ['+'] ∨ sign = []) ∧ neg = false) ∧
    (point = ['.'] ∨ point = [] ∧ b = [])

end Ariadne.DecimalSpec
