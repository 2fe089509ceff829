import Verif.Logical.Model
/-!
# Specification vocabulary for logical values
-/
namespace Ariadne.Logical

/-- A logical value correctly describes a proposition: definitely true only if it is true and
definitely false only if it is false. -/
def Describes (v : LV) (P : Prop) : Prop :=
  (v = LV.true_ → P) ∧ (v = LV.false_ → ¬ P)

/-- `w` carries at least the definite information of `v`. -/
def Refines (w v : LV) : Prop :=
  (v = LV.true_ → w = LV.true_) ∧ (v = LV.false_ → w = LV.false_)

/-- Classical truth value of a logical expression, given the truth values of its leaves.
An indeterminate constant may stand for either value: the constants used here are only required
to be described by their value, via the parameter `cst`. -/
def Expr.Truth {ι : Type} (tv : ι → Prop) (cst : LV → Prop) : Expr ι → Prop
  | .const v => cst v
  | .atom i => tv i
  | .not e => ¬ e.Truth tv cst
  | .and a b => a.Truth tv cst ∧ b.Truth tv cst
  | .or a b => a.Truth tv cst ∨ b.Truth tv cst
  | .eq a b => (a.Truth tv cst ↔ b.Truth tv cst)
  | .xor a b => ¬ (a.Truth tv cst ↔ b.Truth tv cst)
  | .seqOr es => ∃ k, (es k).Truth tv cst
  | .seqAnd es => ∀ k, (es k).Truth tv cst

end Ariadne.Logical
