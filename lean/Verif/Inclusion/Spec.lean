import Verif.Inclusion.Model
import Mathlib.Analysis.Calculus.Deriv.Pi
import Mathlib.Analysis.Convex.Basic
import Mathlib.Analysis.SpecialFunctions.Exp

/-!
# Specification of the error bounds for differential inclusions

What it means that lists of terms describe a function on a set, and the solutions of differential
equations and inclusions.  Nothing here refers to the error bounds.
-/

namespace Verif.Inclusion

open Set

variable {n m : ℕ}

/-- The terms give the coefficient `v` for the index `a`: an interval containing `v`, or no entry at
all if `v` is zero. -/
def Gives (ts : Terms n ℝ) (a : Fin n → ℕ) (v : ℝ) : Prop :=
  (∃ c, (a, c) ∈ ts ∧ c.l ≤ v ∧ v ≤ c.u) ∨ (a ∉ ts.map Prod.fst ∧ v = 0)

/-- The terms describe the values and the first derivatives of the differentiable function `φ` on `B`. -/
structure Describes (B : Set (Fin n → ℝ)) (φ : (Fin n → ℝ) → ℝ) (φ' : (Fin n → ℝ) → Fin n → ℝ)
    (ts : Terms n ℝ) : Prop where
  nodup : (ts.map Prod.fst).Nodup
  value : ∀ x ∈ B, Gives ts 0 (φ x)
  partials : ∀ x ∈ B, ∀ k, Gives ts (Pi.single k 1) (φ' x k)
  deriv : ∀ x ∈ B, HasFDerivWithinAt φ
    (∑ k, φ' x k • ContinuousLinearMap.proj (R := ℝ) (φ := fun _ : Fin n => ℝ) k) B x

/-- The system is `x' = f(x) + Σᵢ gᵢ(x) vᵢ` on `B`. -/
structure Models (S : System n m ℝ) (B : Set (Fin n → ℝ)) (f : (Fin n → ℝ) → Fin n → ℝ)
    (g : Fin m → (Fin n → ℝ) → Fin n → ℝ) : Prop where
  f : ∀ j, ∃ φ', Describes B (fun x => f x j) φ' (S.f j)
  g : ∀ i j, ∃ φ', Describes B (fun x => g i x j) φ' (S.g i j)

/-- The curve `x` solves `x' = F(t,x)` for times from `0` to `h` and stays in `B`.  The derivatives are
from the right, which allows inputs that are only piecewise continuous. -/
structure Curve (F : ℝ → (Fin n → ℝ) → Fin n → ℝ) (B : Set (Fin n → ℝ)) (h : ℝ) (x : ℝ → Fin n → ℝ) :
    Prop where
  cont : ContinuousOn x (Icc 0 h)
  deriv : ∀ t ∈ Ico 0 h, HasDerivWithinAt x (F t (x t)) (Ici t) t
  mem : ∀ t ∈ Icc 0 h, x t ∈ B

/-- The right-hand side for the inputs `v`. -/
def withInputs (f : (Fin n → ℝ) → Fin n → ℝ) (g : Fin m → (Fin n → ℝ) → Fin n → ℝ)
    (v : ℝ → Fin m → ℝ) : ℝ → (Fin n → ℝ) → Fin n → ℝ := fun t x j => f x j + ∑ i, g i x j * v t i

/-- `v` is an input of the inclusion. -/
def Input (V : Fin m → ℝ) (h : ℝ) (v : ℝ → Fin m → ℝ) : Prop := ∀ t ∈ Icc 0 h, ∀ i, |v t i| ≤ V i

/-- `exp` is an upper bound for the exponential function. -/
def ExpUpper (exp : ℝ → ℝ) : Prop := ∀ x, Real.exp x ≤ exp x

end Verif.Inclusion
