import Verif.Bounds.Spec
import Mathlib.Algebra.BigOperators.Fin

/-!
# Linear programs: what feasibility means
-/

namespace Verif.LinearProgram

open Ariadne (Ext IsLower IsUpper)

variable {K : Type*} [Field K] [LinearOrder K] {m n : ℕ}

/-- `x` solves `A*x=b`. -/
def Solves (A : Fin m → Fin n → K) (b : Fin m → K) (x : Fin n → K) : Prop := ∀ i, ∑ j, A i j * x j = b i

/-- `x` satisfies `A*x=b` and `xl<=x<=xu`. -/
def Feasible (xl xu : Fin n → Ext K) (A : Fin m → Fin n → K) (b : Fin m → K) (x : Fin n → K) : Prop :=
  Solves A b x ∧ ∀ j, IsLower (xl j) (x j) ∧ IsUpper (xu j) (x j)

/-- `x` satisfies `A*x=b` and `xl<x<xu`. -/
def StrictlyFeasible (xl xu : Fin n → Ext K) (A : Fin m → Fin n → K) (b : Fin m → K) (x : Fin n → K) : Prop :=
  Solves A b x ∧ ∀ j, Ext.lt (xl j) (.fin (x j)) = true ∧ Ext.lt (.fin (x j)) (xu j) = true

end Verif.LinearProgram
