import Verif.Optimiser.Search
import Verif.Solver.Examples

/-!
# C70: examples and counterexamples
-/

namespace Verif.Optimiser

open Ariadne Ariadne.Logical Verif.ConstraintSolver Verif.Matrix Verif.Solver
open Ariadne.Ext (fin)

/-! ## Functions -/

/-- `g(x)=x`. -/
def gId : GFn 1 1 ℚ := fun X => X

/-- Its Jacobian matrix. -/
def jId : GJac 1 1 ℚ := fun _ _ _ => ⟨fin 1, fin 1⟩

/-- `g(x)=x²`. -/
def gSq : GFn 1 1 ℚ := fun X i => Bounds.mul XQ (X i) (X i)

/-- Its Jacobian matrix. -/
def jSq : GJac 1 1 ℚ := fun X i _ => Bounds.mul XQ ⟨fin 2, fin 2⟩ (X i)

/-- `g(x,y)=x²+y²`. -/
def gCirc (Q : XRounding ℚ) : GFn 2 1 ℚ := fun X _ =>
  Bounds.add Q (Bounds.mul Q (X 0) (X 0)) (Bounds.mul Q (X 1) (X 1))

/-- Its Jacobian matrix. -/
def jCirc (Q : XRounding ℚ) : GJac 2 1 ℚ := fun X _ j => Bounds.mul Q ⟨fin 2, fin 2⟩ (X j)

theorem encl_id : Encl gId fun p => p := fun _ _ h i => h i

theorem encl_sq : Encl gSq fun p i => p i * p i := fun _ _ h i =>
  in_mul Verif.TaylorModel.exactRounding (h i) (h i)

theorem encl_circ (R : Rounding ℚ) : Encl (gCirc (.ofRounding R)) fun p _ => p 0 * p 0 + p 1 * p 1 :=
  fun _ _ h _ => in_add R (in_mul R (h 0) (h 0)) (in_mul R (h 1) (h 1))

/-- The hypotheses on functions with derivatives can be met. -/
theorem gvalid_id : GValid (fun X => X : GFn 1 1 ℝ) (fun _ _ _ => ⟨fin 1, fin 1⟩) (fun p => p)
    (fun _ => 1) := by
  refine ⟨fun p => ?_, fun _ _ h i => h i, fun X p _ i j => ?_⟩
  · have : linR (1 : Matrix (Fin 1) (Fin 1) ℝ) = ContinuousLinearMap.id ℝ _ :=
      ContinuousLinearMap.ext fun v => by simp
    rw [this]
    exact hasStrictFDerivAt_id p
  · have hi : i = j := Subsingleton.elim i j
    subst hi
    simp only [Matrix.one_apply_eq]
    exact in_pt 1

/-- 8-bit arithmetic. -/
abbrev X8 : XRounding ℚ := .ofRounding (PBit.rounding 8 (by decide))

/-! ## Runs -/

example : isFeasiblePoint (box1 0 2) gSq (box1 1 4) (fun _ => 3 / 2) = true := by decide +kernel

/-- On the circle, starting near to it. -/
example : validateFeasibility X8 (gCirc X8) (jCirc X8) (box1 1 1) ![1, 1 / 8] = some true := by decide +kernel

/-- The box around a point of the circle contains a point of the circle. -/
example : containsFeasiblePoint X8 (fun _ => ⟨fin (-2), fin 2⟩) (gCirc X8) (jCirc X8) (box1 1 1)
    (fun i _ => ![2, 0] i) (![⟨fin (7 / 8), fin (9 / 8)⟩, ⟨fin (-1 / 16), fin (1 / 16)⟩] : Box 2 ℚ) =
    some .true_ := by decide +kernel

/-- A box away from the circle contains none. -/
example : containsFeasiblePoint X8 (fun _ => ⟨fin (-2), fin 2⟩) (gCirc X8) (jCirc X8) (box1 1 1)
    (fun i _ => ![2, 0] i) (fun _ => ⟨fin 1, fin 2⟩) = some .false_ := by decide +kernel

/-- Infeasibility, with an unbounded constraint. -/
example : isInfeasibilityCertificate XQ (box1 1 2) (fun y => Bounds.opMulFB XQ (fin (y 0)) ⟨fin 1, fin 4⟩)
    (fun _ => ⟨.ninf, fin 0⟩) (fun _ : Fin 1 => 1) = true := by decide +kernel

example : validateInfeasibility XQ (box1 1 2) gSq jSq (fun _ => ⟨.ninf, fin (-3)⟩) (fun _ => 3 / 2) (fun _ => 1)
    = true := by decide +kernel

/-- With the multiplier zero for an unbounded constraint an end is NaN, and nothing is concluded. -/
example : validateInfeasibility XQ (box1 1 2) gSq jSq (fun _ => ⟨.ninf, fin (-3)⟩) (fun _ => 3 / 2) (fun _ => 0)
    = false := by decide +kernel

example : checkFeasibility X8 (1 / 16) (fun _ => ⟨fin (-2), fin 2⟩) (gCirc X8) (jCirc X8) (box1 1 1)
    ![1, 0] (fun _ => 0) = some .true_ := by decide +kernel

example : feasibleZero XQ (1 / 10 ^ 10) (box1 1 2) gSq (fun _ => 1) (fun _ => 1) = .false_ := by decide +kernel

/-! ## Counterexamples -/

/-- **C70**: the test of a box answers true although no point of the box satisfies both the domain and
the constraint: neither that the box is in the domain, nor that the inequality holds on it, is checked
(503, 514), since the negation of a test for inclusion of an upper interval is never definite. -/
theorem C70_contains_wrong :
    containsFeasiblePoint XQ (box1 0 1) gId jId (box1 (3 / 2) 3) (fun _ _ => 0) (box1 (1 / 2) 2) = some .true_ ∧
    ¬ Feas (box1 0 1) (box1 (3 / 2) 3) (fun p : Fin 1 → ℚ => p) := by
  refine ⟨by decide +kernel, ?_⟩
  rintro ⟨p, h1, h2⟩
  have := (h1 0).2
  have h3 := (h2 0).1
  simp only [box1, IsUpper, IsLower] at this h3
  linarith

/-- **C70**: if the matrix of the Newton step is singular, the exception leaves the function, although
there is a handler for it: the inverse is computed once before the `try` block (553). -/
theorem C70_contains_singular :
    containsFeasiblePoint XQ (box1 (-1) 1) gSq jSq (box1 0 0) (fun _ _ => 1) (box1 (-1) 1) = none := by
  decide +kernel

/-- **C70**: `validate_feasibility` answers true, starting at a point inside of the domain, although the
only solution is outside of it; so does the optimiser. -/
theorem C70_validate_feasibility_outside :
    containsPt (box1 0 1) (fun _ => 1 / 2 : Fin 1 → ℚ) = true ∧
    validateFeasibility XQ gId jId (box1 2 2) (fun _ => 1 / 2) = some true ∧
    (∀ yg y s l, feasibleLoop XQ (box1 0 1) gId jId yg (box1 2 2) ((fun _ => 1 / 2, y, s) :: l) = some .true_) ∧
    ¬ Feas (box1 0 1) (box1 2 2) (fun p : Fin 1 → ℚ => p) := by
  have h : validateFeasibility XQ gId jId (box1 2 2) (fun _ => 1 / 2) = some true := by decide +kernel
  refine ⟨by decide +kernel, h, fun yg y s l => ?_, ?_⟩
  · rw [feasibleLoop, h]
  rintro ⟨p, h1, h2⟩
  have := (h1 0).2
  have h3 := (h2 0).1
  simp only [box1, IsUpper, IsLower] at this h3
  linarith

/-- **C70**: the mean value test shows infeasibility, with a point outside of the domain, although
there is a feasible point. -/
theorem C70_validate_infeasibility_wrong :
    validateInfeasibility XQ (box1 1 2) gSq jSq (box1 1 4) (fun _ => -10) (fun _ => 1) = true ∧
    Feas (box1 1 2) (box1 1 4) (fun p : Fin 1 → ℚ => fun i => p i * p i) := by
  refine ⟨by decide +kernel, fun _ => 1, fun i => ?_, fun i => ?_⟩ <;>
  · simp only [box1, Bounds.Contains, IsLower, IsUpper]; norm_num

/-- **C70**: the penalty function optimiser answers that there is no feasible point as soon as the point
it has found violates a constraint. -/
theorem C70_penalty_false_wrong :
    checkFeasibility XQ (1 / 10 ^ 8) (box1 0 1) gId jId (box1 (1 / 2) 1) (fun _ => 0) (fun _ => 0) = some .false_ ∧
    containsPt (box1 0 1) (fun _ => 0 : Fin 1 → ℚ) = true ∧
    Feas (box1 0 1) (box1 (1 / 2) 1) (fun p : Fin 1 → ℚ => p) := by
  refine ⟨by decide +kernel, by decide +kernel, fun _ => 3 / 4, fun i => ?_, fun i => ?_⟩ <;>
  · simp only [box1, Bounds.Contains, IsLower, IsUpper]; norm_num

/-- `g(x)=(x,x)`, with an error of `2/10⁹` in the first component. -/
def gTwo : GFn 1 2 ℚ := fun X =>
  ![Bounds.add XQ (X 0) ⟨fin (-2 / 10 ^ 9), fin (2 / 10 ^ 9)⟩, X 0]

/-- The constraints `x=0` and `1/10⁹≤x≤1`. -/
def cTwo : Box 2 ℚ := ![⟨fin 0, fin 0⟩, ⟨fin (1 / 10 ^ 9), fin 1⟩]

theorem encl_two : Encl gTwo fun p _ => p 0 := by
  intro X p h i
  fin_cases i
  · have : In (⟨fin (-2 / 10 ^ 9), fin (2 / 10 ^ 9)⟩ : Bounds ℚ) 0 :=
      ⟨⟨⟨_, rfl⟩, _, rfl⟩, by simp only [IsLower]; norm_num, by simp only [IsUpper]; norm_num⟩
    have := in_add Verif.TaylorModel.exactRounding (h 0) this
    rw [add_zero] at this
    exact this
  · exact h 0

/-- **C70**: the penalty function optimiser answers true although there is no feasible point: the
inequality holds at the point found and the equality at another one. -/
theorem C70_penalty_inequality_wrong :
    checkFeasibility XQ (1 / 10 ^ 8) (box1 (-1) 1) gTwo (fun _ _ _ => ⟨fin 1, fin 1⟩) cTwo
      (fun _ => 1 / 10 ^ 9) (fun _ => 0) = some .true_ ∧
    ¬ Feas (box1 (-1) 1) cTwo (fun (p : Fin 1 → ℚ) _ => p 0) := by
  refine ⟨by decide +kernel, ?_⟩
  rintro ⟨p, -, h⟩
  have h1 := (h 0).2
  have h2 := (h 1).1
  simp only [cTwo, Matrix.cons_val_zero, Matrix.cons_val_one, IsUpper, IsLower] at h1 h2
  have : (0 : ℚ) < 1 / 10 ^ 9 := by norm_num
  linarith

/-- **C70**: without equality constraints, the point need not be in the domain. -/
theorem C70_penalty_outside :
    checkFeasibility XQ (1 / 10 ^ 8) (box1 0 1) gId jId (box1 2 3) (fun _ => 5 / 2) (fun _ => 0) = some .true_ ∧
    ¬ Feas (box1 0 1) (box1 2 3) (fun p : Fin 1 → ℚ => p) := by
  refine ⟨by decide +kernel, ?_⟩
  rintro ⟨p, h1, h2⟩
  have := (h1 0).2
  have h3 := (h2 0).1
  simp only [box1, IsUpper, IsLower] at this h3
  linarith

/-- **C70**: `feasible_zero` of the approximate optimiser answers true for a small constant function. -/
theorem C70_zero_true_wrong (D : Box 1 ℚ) (y : Fin 1 → ℚ) :
    feasibleZero XQ (1 / 10 ^ 10) D (fun _ _ => ⟨fin (1 / 10 ^ 11), fin (1 / 10 ^ 11)⟩)
      (fun _ : Fin 1 => 1 / 10 ^ 11) y = .true_ ∧
    Encl (fun _ _ => ⟨fin (1 / 10 ^ 11), fin (1 / 10 ^ 11)⟩ : GFn 1 1 ℚ) (fun _ _ => 1 / 10 ^ 11) ∧
    ∀ p : Fin 1 → ℚ, (fun _ _ => 1 / 10 ^ 11 : (Fin 1 → ℚ) → Fin 1 → ℚ) p ≠ 0 := by
  refine ⟨?_, fun _ _ _ _ => in_pt _, fun p h => ?_⟩
  · have : ((List.finRange 1).all fun i => decide (|(fun _ : Fin 1 => (1 / 10 ^ 11 : ℚ)) i| < 1 / 10 ^ 10)) = true := by
      decide +kernel
    simp only [feasibleZero, this, if_true]
  · have := congrFun h 0
    norm_num at this

end Verif.Optimiser
