import Verif.Bounds.Model

/-!
# What it means for bounds to enclose a number
-/

namespace Ariadne

variable {K : Type*} [Field K] [LinearOrder K]

/-- The datum `a` is a lower bound for the number `x`. NaN bounds nothing. -/
def IsLower : Ext K → K → Prop
  | .ninf, _ => True
  | .fin a, x => a ≤ x
  | .pinf, _ => False
  | .nan, _ => False

/-- The datum `b` is an upper bound for the number `x`. -/
def IsUpper : Ext K → K → Prop
  | .ninf, _ => False
  | .fin b, x => x ≤ b
  | .pinf, _ => True
  | .nan, _ => False

namespace Bounds

/-- The number `x` lies in the bounds `X`. -/
def Contains (X : Bounds K) (x : K) : Prop := IsLower X.l x ∧ IsUpper X.u x

/-- Neither endpoint is NaN. -/
def NoNaN (X : Bounds K) : Prop := X.l ≠ .nan ∧ X.u ≠ .nan

/-- Both endpoints are finite. -/
def Finite (X : Bounds K) : Prop := (∃ a, X.l = .fin a) ∧ ∃ b, X.u = .fin b

end Bounds

/-- The ball of centre `v` and radius `e` contains the number `x`. -/
def InBall (v e : Ext K) (x : K) : Prop :=
  ∃ a, v = .fin a ∧ IsUpper e |x - a|

/-- A logical value describes a proposition: it is never definitely wrong. -/
def Describes (v : Logical.LV) (P : Prop) : Prop :=
  (v = .true_ → P) ∧ (v = .false_ → ¬ P)

end Ariadne
