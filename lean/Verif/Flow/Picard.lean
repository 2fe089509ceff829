import Verif.Flow.Bounder
import Verif.TaylorModel.Struct
import Mathlib.Topology.Order.Lattice

/-!
# The Picard integrators

`TaylorPicardIntegrator::_flow_step` and `GradedTaylorPicardIntegrator::_flow_step`,
`source/solvers/integrator.cpp`.  The flow is a vector of Taylor models in the scaled initial state, the
scaled time (variable `k`, zero at the initial time) and the scaled parameters.
-/

namespace Verif.Flow

open Set Verif.TaylorModel Ariadne Verif.ConstraintSolver
open Verif.Expansion (Terms value monomial)

variable {n : ℕ}

/-- A vector of models, `FlowStepModelType`. -/
abbrev Patch (n : ℕ) := Fin n → TM ℝ

/-- The result of an integration step. `stepError` is a `FlowTimeStepException`, `exception` any other
exception, `running` a loop that has not ended. -/
inductive Step (n : ℕ) where
  | ok (φ : Patch n)
  | stepError
  | exception
  | running

section Model

variable (R : Rounding ℝ) (sw : Sweeper ℝ) (k : ℕ) (h : ℝ) (comp : Patch n → Option (Patch n))
  (φ₀ : Patch n)

/-- `antiderivative(fphi,nx)+phi0`, integrator.cpp lines 301, 385, 391 and 402; the antiderivative of a
scaled function is that of its model times the radius of the domain (`scaled_function_patch.hpp` lines
397-398), and the radius of `[t-h,t+h]` is `h`. -/
noncomputable def integrate (ψ : Patch n) : Patch n := fun i =>
  add R sw (scal R (antidifferentiate R k (ψ i)) (Num.exact h)) (φ₀ i)

/-- One Picard step, integrator.cpp lines 293-301.  `comp` is the composition with the vector field and
the coordinates of time and parameters; `none` is an exception. -/
noncomputable def picard (φ : Patch n) : Option (Patch n) := (comp φ).map (integrate R sw k h φ₀)

/-- `phi.error() < e`: the error of a vector is the largest of the errors. -/
noncomputable def errorsBelow (φ : Patch n) (e : ℝ) : Bool := (List.finRange n).all fun i => decide ((φ i).err < e)

/-- `phi.error() > e`. -/
noncomputable def errorAbove (φ : Patch n) (e : ℝ) : Bool := (List.finRange n).any fun i => decide (e < (φ i).err)

/-- The loop of `TaylorPicardIntegrator::_flow_step`, integrator.cpp lines 290-304, with the number of
steps left and the number of steps made; `none` is the exception of line 296. -/
noncomputable def picardLoop (maxErr : ℝ) (minOrder : ℕ) : ℕ → ℕ → Patch n → Option (Patch n)
  | 0, _, φ => some φ
  | r + 1, j, φ =>
    match picard R sw k h comp φ₀ φ with
    | none => none
    | some φ' =>
      if errorsBelow φ maxErr && decide (minOrder ≤ j) then some φ' else picardLoop maxErr minOrder r (j + 1) φ'

/-- `TaylorPicardIntegrator::_flow_step`, integrator.cpp lines 289-307, from the constant patch `φB`.
Simplification: the restriction to nonnegative times (line 309) is left out; the claims are about
nonnegative times. -/
noncomputable def taylorPicard (maxErr : ℝ) (minOrder maxOrder : ℕ) (φB : Patch n) : Step n :=
  match comp φ₀ with
  | none => .exception
  | some _ =>
    match picardLoop R sw k h comp φ₀ maxErr minOrder maxOrder 0 φB with
    | none => .stepError
    | some φ => if errorAbove φ maxErr then .stepError else .ok φ

/-- The first loop of `GradedTaylorPicardIntegrator::_flow_step`, integrator.cpp lines 378-387. -/
noncomputable def gradedLoop : ℕ → Patch n → Option (Patch n)
  | 0, φ => some φ
  | r + 1, φ =>
    match picard R sw k h comp φ₀ φ with
    | none => none
    | some φ' => gradedLoop r φ'

/-- `refines(new_errors[i],errors[i])` for all components, integrator.cpp lines 393-397. -/
noncomputable def errorsRefine (φ' φ : Patch n) : Bool := (List.finRange n).all fun i => decide ((φ' i).err ≤ (φ i).err)

/-- Some error has improved by the given ratio, integrator.cpp lines 405-413.
Simplification: the quotient of the rounded errors is exact. -/
noncomputable def improved (ratio : ℝ) (φ' φ : Patch n) : Bool :=
  (List.finRange n).any fun i =>
    decide (0 < (φ i).err) && decide (ratio ≤ ((φ i).err - (φ' i).err) / (φ i).err)

/-- The loop improving the errors, integrator.cpp lines 400-417. -/
noncomputable def improveLoop (ratio : ℝ) : ℕ → Patch n → Step n
  | 0, _ => .running
  | fuel + 1, φ =>
    match picard R sw k h comp φ₀ φ with
    | none => .exception
    | some φ' => if improved ratio φ' φ then improveLoop ratio fuel φ' else .ok φ'

/-- `GradedTaylorPicardIntegrator::_flow_step`, integrator.cpp lines 377-421, simplified as
`taylorPicard`. -/
noncomputable def gradedTaylorPicard (maxErr ratio : ℝ) (order fuel : ℕ) (φB : Patch n) : Step n :=
  match comp φ₀ with
  | none => .exception
  | some _ =>
    match gradedLoop R sw k h comp φ₀ order φB with
    | none => .stepError
    | some φ =>
      match picard R sw k h comp φ₀ φ with
      | none => .exception
      | some φ' =>
        if errorsRefine φ' φ then
          match improveLoop R sw k h comp φ₀ ratio fuel φ' with
          | .ok φ'' => if errorAbove φ'' maxErr then .stepError else .ok φ''
          | e => e
        else .stepError

end Model

/-! ## Specification -/

/-- The point `y` is in the enclosure by the patch at the scaled point `z`. -/
def In (φ : Patch n) (z : List ℝ) (y : Fin n → ℝ) : Prop :=
  ∀ i, |y i - value (monomial z) (φ i).terms| ≤ (φ i).err

/-- What the integrators need to know of a problem in `m` scaled variables, of which `k` is the time: the
initial states, the values of the parameter and the composition with the vector field. -/
structure Problem (n m : ℕ) (α : Type*) where
  (k : ℕ)
  (t h : ℝ)
  (state : List ℝ → Fin n → ℝ)
  (param : List ℝ → α)
  (f : α → ℝ → (Fin n → ℝ) → Fin n → ℝ)
  (comp : Patch n → Option (Patch n))
  (φ₀ : Patch n)
  (k_lt : k < m)
  (h_pos : 0 < h)
  (state_time : ∀ z y, state (z.set k y) = state z)
  (param_time : ∀ z y, param (z.set k y) = param z)
  /-- The composition encloses, at each point. -/
  (comp_in : ∀ φ ψ, (∀ i, WF m (φ i)) → comp φ = some ψ → ∀ z, InBox m z → ∀ y, In φ z y →
    In ψ z (f (param z) (t + h * z.getD k 0) y))
  (comp_wf : ∀ φ ψ, (∀ i, WF m (φ i)) → comp φ = some ψ →
    ∀ i, WF m (ψ i) ∧ ∀ u ∈ (ψ i).terms, u.1.getD k 0 < 65535)
  (φ₀_wf : ∀ i, WF m (φ₀ i))
  (φ₀_in : ∀ z, InBox m z → In φ₀ z (state z))
  (reg : ∀ a, Regular (f a))

end Verif.Flow
