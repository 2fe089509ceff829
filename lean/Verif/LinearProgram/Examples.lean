import Verif.LinearProgram.Props
import Verif.TaylorModel.Compose

/-!
# Linear programs: counterexamples and cases
-/

namespace Verif.LinearProgram

open Ariadne
open Verif.TaylorModel (exactRounding)

local notation "XQ" => XRounding.ofRounding (exactRounding (K := ℚ))

/-- The problem `x=b`, `l<=x<=u` in one variable. -/
def one (b : ℚ) : (Fin 1 → Fin 1 → ℚ) × (Fin 1 → ℚ) := (fun _ _ => 1, fun _ => b)

/-- **C79**, disagreement: `validate_feasibility` is true for an approximation which is NaN, since the comparisons of
line 204 are false for NaN.  The problem `x=2`, `0<=x<=1` has no solution. -/
theorem C79_validate_nan :
    validate XQ (fun _ => .fin 0) (fun _ => .fin 1) (one 2).1 (one 2).2 (fun _ => .nan) (fun _ => .fin 0) = some true ∧
      ∀ x, ¬ Feasible (fun _ => .fin 0) (fun _ => .fin 1) (one 2).1 (one 2).2 x := by
  refine ⟨by decide +kernel, fun x hx => ?_⟩
  have h1 := hx.1 0
  have h2 := (hx.2 0).2
  simp [one, IsUpper] at h1 h2
  linarith

/-- **C79**, disagreement: because of the sign in line 222 `validate_feasibility` is false for a feasible problem.  The
problem `x=-2`, `-2<=x<=-1` has the solution `-2`; with exact arithmetic and `y=-1` the code finds `mx=2+2=4`. -/
theorem C79_validate_infeasible_wrong :
    validate XQ (fun _ => .fin (-2)) (fun _ => .fin (-1)) (one (-2)).1 (one (-2)).2 (fun _ => .fin (-2))
      (fun _ => .fin (-1)) = some false ∧
      Feasible (fun _ => .fin (-2)) (fun _ => .fin (-1)) (one (-2)).1 (one (-2)).2 fun _ => -2 := by
  refine ⟨by decide +kernel, fun i => ?_, fun j => ⟨le_refl (-2 : ℚ), ?_⟩⟩
  · simp [one]
  · show (-2 : ℚ) ≤ -1
    norm_num

/-- **C79**, disagreement: empty bounds make `feasible` throw, although the problem is plainly infeasible. -/
theorem C79_empty_bounds_throw (s : ℕ → Iter 1 1 ℚ) :
    feasible XQ (fun _ => .fin 1) (fun _ => .fin 0) (one 0).1 (one 0).2 s = none := by
  unfold feasible
  rw [if_neg (by decide +kernel)]

/-! ## Cases -/

/-- Steps which always end with the same status and approximations. -/
def steps (st : Status) (x : Fin n → ℚ) (y : Fin m → Ext ℚ) : ℕ → Iter m n ℚ :=
  fun _ => ⟨st, fun j => .fin (x j), y, false⟩

/-- `x=2`, `0<=x<=1` is found to be infeasible by `y=1`. -/
example : feasible XQ (fun _ => .fin 0) (fun _ => .fin 1) (one 2).1 (one 2).2
    (steps .indeterminate (fun _ => 1) fun _ => .fin 1) = some (some false) := by decide +kernel

/-- `x=-1`, `1<=x<inf` is found to be infeasible by an infinite multiplier. -/
example : certificate XQ (fun _ => .fin 1) (fun _ => .pinf) (one (-1)).1 (one (-1)).2 (fun _ => .pinf) = true := by
  decide +kernel

/-- `x+y=1`, `0<=x,y<=1` is found to be feasible, from an approximation which does not solve the equation. -/
example : feasible XQ (fun _ => .fin 0) (fun _ => .fin 1) (fun (_ : Fin 1) (_ : Fin 2) => (1 : ℚ)) (fun _ => 1)
    (steps .primal (fun _ => 1 / 4) fun _ => .fin 0) = some (some true) := by decide +kernel

/-- The corrected approximation is the solution nearest to it. -/
example : (correct XQ (fun (_ : Fin 1) (_ : Fin 2) => (1 : ℚ)) (fun _ => 1)
    (fun j => if j = 0 then .fin 0 else .fin (1 / 2))).map (fun X => (X 0, X 1)) =
      some (⟨.fin (1 / 4), .fin (1 / 4)⟩, ⟨.fin (3 / 4), .fin (3 / 4)⟩) := by decide +kernel

/-- A problem with nonnegative variables which `validate_feasibility` finds infeasible: `x=2`, `0<=x<=1`. -/
example : validate XQ (fun _ => .fin 0) (fun _ => .fin 1) (one 2).1 (one 2).2 (fun _ => .fin 1) (fun _ => .fin 1) =
    some false := by decide +kernel

/-- Dependent equations are not validated: `A*transpose(A)` is singular. -/
example : validate XQ (fun _ => .fin 0) (fun _ => .fin 1) (fun (_ : Fin 2) (_ : Fin 1) => (1 : ℚ)) (fun _ => 1 / 2)
    (fun _ => .fin (1 / 2)) (fun _ => .fin 0) = none := by decide +kernel

end Verif.LinearProgram
