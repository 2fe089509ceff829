import Verif.Solver.Zeros

/-!
# C57: fixed points, examples and limits of the equation solver
-/

namespace Verif.Solver

open Ariadne Verif.ConstraintSolver Verif.Matrix Set
open Ariadne.Ext (fin)

section

variable {n : ℕ} {R : Rounding ℝ} {F : VFn n ℝ} {J : JFn n ℝ} {f : (Fin n → ℝ) → Fin n → ℝ}
  {f' : (Fin n → ℝ) → Matrix (Fin n) (Fin n) ℝ}

local notation "XR" => XRounding.ofRounding R

theorem lin_one : lin (1 : Matrix (Fin n) (Fin n) ℝ) = ContinuousLinearMap.id ℝ (Fin n → ℝ) := by
  ext1 x
  simp

theorem lin_sub (A B : Matrix (Fin n) (Fin n) ℝ) : lin (A - B) = lin A - lin B := by
  ext1 x
  simp [Matrix.sub_mulVec]

/-- `f - id` is enclosed. -/
theorem Valid.subId (hv : Valid F J f f') :
    Valid (subId XR F) (subIdJ XR J) (fun x => f x - x) (fun x => f' x - 1) where
  der p := by
    rw [lin_sub, lin_one]
    exact (hv.der p).sub (hasStrictFDerivAt_id p)
  eval X p hp i := in_sub R (hv.eval X p hp i) (hp i)
  jac X p hp i j := in_sub R (hv.jac X p hp i j) (in_identity R i j)

/-- **C57**: `fixed_point` applies `solve` to `f - id`.  Its result contains a fixed point, whichever
contractor is used. -/
theorem C57_fixed_point (hv : Valid F J f f') {step : Box n ℝ → Option (Box n ℝ)}
    (hs : step = newtonStep XR (subId XR F) (subIdJ XR J) ∨ step = krawczykStep XR (subId XR F) (subIdJ XR J) ∨
      step = factoredStep XR (subId XR F) (subIdJ XR J))
    {eps e : ℝ} (he : 0 ≤ eps) {steps depth : ℕ} {bx y : Box n ℝ} (hbx : GoodBox R bx)
    (h : solve XR step (subId XR F) (subIdJ XR J) eps e steps depth bx = .ok y) :
    ∃ z, Mem y z ∧ f z = z := by
  have hv' : Valid (subId XR F) (subIdJ XR J) (fun x => f x - x) (fun x => f' x - 1) := hv.subId
  have hss : StepSound R (fun x => f x - x) step := by
    rcases hs with rfl | rfl | rfl
    · exact C57_newton_step hv'
    · exact C57_krawczyk_step hv'
    · exact C57_factored_krawczyk_step hv'
  obtain ⟨z, hz, h0⟩ := C57_solve_found hv' hss he hbx h
  exact ⟨z, hz, sub_eq_zero.1 h0⟩

end

/-! ## Examples -/

/-- `x² - c`, in one variable. -/
def Fsq {K : Type*} [Field K] [LinearOrder K] [IsStrictOrderedRing K] (X : XRounding K) (c : K) : VFn 1 K := fun B i =>
  Bounds.sub X (Bounds.mul X (B i) (B i)) ⟨fin c, fin c⟩

/-- Its derivative. -/
def Jsq {K : Type*} [Field K] [LinearOrder K] [IsStrictOrderedRing K] (X : XRounding K) : JFn 1 K := fun B i _ =>
  Bounds.add X (B i) (B i)

/-- The hypotheses of the theorems hold for `x² - c`. -/
theorem valid_sq (R : Rounding ℝ) (c : ℝ) :
    Valid (Fsq (.ofRounding R) c) (Jsq (.ofRounding R)) (fun p i => p i * p i - c)
      (fun p => Matrix.of fun i _ => p i + p i) where
  der p := by
    rw [hasStrictFDerivAt_pi']
    intro i
    have h1 : HasStrictFDerivAt (fun q : Fin 1 → ℝ => q i) (ContinuousLinearMap.proj i) p :=
      (ContinuousLinearMap.proj (R := ℝ) (φ := fun _ : Fin 1 => ℝ) i).hasStrictFDerivAt
    have h2 := (h1.mul h1).sub_const c
    refine h2.congr_fderiv ?_
    ext1 x
    have : i = 0 := Subsingleton.elim _ _
    subst this
    simp [Matrix.mulVec, dotProduct]
    ring
  eval X p hp i := in_sub R (in_mul R (hp i) (hp i)) (in_pt c)
  jac X p hp i j := in_add R (hp i) (hp i)

/-- The interval `[a,b]` as box. -/
def box1 {K : Type*} (a b : K) : Box 1 K := fun _ => ⟨fin a, fin b⟩

/-- The end points of a one-dimensional result. -/
def Outcome.ends {K : Type*} : Outcome (Box 1 K) → Option (Ext K × Ext K)
  | .ok y => some ((y 0).l, (y 0).u)
  | _ => none

/-- Exact arithmetic with rational numbers. -/
abbrev XQ : XRounding ℚ := .ofRounding Verif.TaylorModel.exactRounding

/-- The three contractors enclose the square root of two. -/
example : (zero XQ (newtonStep XQ (Fsq XQ 2) (Jsq XQ)) (Fsq XQ 2) (1 / 1000) (1 / 10) 5 (box1 1 2)).ends =
    some (fin (11 / 8), fin (23 / 16)) := by decide +kernel

example : (zero XQ (krawczykStep XQ (Fsq XQ 2) (Jsq XQ)) (Fsq XQ 2) (1 / 1000) (1 / 10) 5 (box1 1 2)).ends =
    some (fin (569 / 408), fin (195 / 136)) := by decide +kernel

example : (zero XQ (factoredStep XQ (Fsq XQ 2) (Jsq XQ)) (Fsq XQ 2) (1 / 1000) (1 / 10) 5 (box1 1 2)).ends =
    some (fin (569 / 408), fin (195 / 136)) := by decide +kernel

/-- Whether a result is `noSolution`. -/
def Outcome.isNone {α : Type*} : Outcome α → Bool
  | .noSolution => true
  | _ => false

/-- Whether a result is `singular`. -/
def Outcome.isSingular {α : Type*} : Outcome α → Bool
  | .singular => true
  | _ => false

/-- There is no square root of two between `3/2` and `2`. -/
example : (zero XQ (newtonStep XQ (Fsq XQ 2) (Jsq XQ)) (Fsq XQ 2) (1 / 1000) (1 / 10) 5
    (box1 (3 / 2) 2)).isNone = true := by decide +kernel

/-- Both roots are found, and nothing is given up. -/
example : (match solveAll XQ (newtonStep XQ (Fsq XQ 2) (Jsq XQ)) (Fsq XQ 2) (Jsq XQ) (1 / 1000) (1 / 10) 5 6
      (box1 (-2) 2) with
    | .ok S => (S.set.length, S.givenUp.length)
    | _ => (0, 0)) = (2, 0) := by decide +kernel

/-! ## Limits -/

/-- **C57** is false for `solve`: it reports that there is no solution of `x² = 0` between `-1` and `1`. -/
theorem C57_solve_none_false :
    (solve XQ (newtonStep XQ (Fsq XQ 0) (Jsq XQ)) (Fsq XQ 0) (Jsq XQ) (1 / 1000) 1 5 5 (box1 (-1) 1)).isNone = true ∧
    (∀ (X : Box 1 ℚ) (p : ℚ), In (X 0) p → In (Fsq XQ 0 X 0) (p * p - 0) ∧ In (Jsq XQ X 0 0) (p + p)) ∧
    Mem (box1 (-1) 1) (fun _ => (0 : ℚ)) := by
  refine ⟨by decide +kernel, fun X p h => ⟨in_sub _ (in_mul _ h h) (in_pt 0), in_add _ h h⟩, fun _ => ?_⟩
  constructor <;> simp [box1, IsLower, IsUpper]

/-- **C57** is false for `solve_all` and `solve`: for `x² = 0` in the same interval, but with a greater
error allowed, the exception thrown for a singular matrix escapes from the code which prints a warning. -/
theorem C57_solve_singular :
    (solve XQ (newtonStep XQ (Fsq XQ 0) (Jsq XQ)) (Fsq XQ 0) (Jsq XQ) (1 / 1000) 2 5 5
      (box1 (-1) 1)).isSingular = true := by decide +kernel

/-- `x² (x - 1)`. -/
def Fdb : VFn 1 ℚ := fun B i => Bounds.mul XQ (Bounds.mul XQ (B i) (B i)) (Bounds.sub XQ (B i) ⟨fin 1, fin 1⟩)

/-- Its derivative `x (3 x - 2)`. -/
def Jdb : JFn 1 ℚ := fun B i _ =>
  Bounds.mul XQ (B i) (Bounds.sub XQ (Bounds.mul XQ ⟨fin 3, fin 3⟩ (B i)) ⟨fin 2, fin 2⟩)

/-- **C57** is false for `solve`: it returns the only solution, near `1`, of `x² (x - 1) = 0` between
`-1/4` and `5/4`, although `0` is another solution, which is not in the enclosure. -/
theorem C57_solve_not_unique :
    (solve XQ (newtonStep XQ Fdb Jdb) Fdb Jdb (1 / 1000) (1 / 4) 3 6 (box1 (-1 / 4) (5 / 4))).ends =
      some (fin (2091 / 2240), fin (9231 / 8960)) ∧
    (∀ (X : Box 1 ℚ) (p : ℚ), In (X 0) p → In (Fdb X 0) (p * p * (p - 1)) ∧
      In (Jdb X 0 0) (p * (3 * p - 2))) ∧
    Mem (box1 (-1 / 4) (5 / 4)) (fun _ => (0 : ℚ)) ∧ (0 : ℚ) * 0 * (0 - 1) = 0 := by
  refine ⟨by decide +kernel, fun X p h => ⟨in_mul _ (in_mul _ h h) (in_sub _ h (in_pt 1)),
    in_mul _ h (in_sub _ (in_mul _ (in_pt 3) h) (in_pt 2))⟩, fun _ => ?_, by norm_num⟩
  constructor <;> simp [box1, IsLower, IsUpper] <;> norm_num

/-- Rounding to four bits. -/
abbrev X4 : XRounding ℚ := .ofRounding (PBit.rounding 4 (by decide))

/-- `x - (1 + 1/1024)`. -/
def Fln : VFn 1 ℚ := fun B i => Bounds.sub X4 (B i) ⟨X4.down (1 + 1 / 1024), X4.up (1 + 1 / 1024)⟩

/-- **C57** is false for `zero`: the enclosure returned need not contain a zero in the box.  The only zero
of `x - (1 + 1/1024)` is not between `0` and `1`. -/
theorem C57_zero_outside :
    (zero X4 (newtonStep X4 Fln fun _ _ _ => ⟨fin 1, fin 1⟩) Fln (1 / 16) (1 / 1000000) 0 (box1 0 1)).ends =
      some (fin 1, fin (9 / 8)) ∧
    (∀ (X : Box 1 ℚ) (p : ℚ), In (X 0) p → In (Fln X 0) (p - (1 + 1 / 1024))) ∧
    ∀ p : ℚ, Mem (box1 0 1) (fun _ => p) → p - (1 + 1 / 1024) ≠ 0 := by
  refine ⟨by decide +kernel, fun X p h => in_sub _ h ?_, fun p hp => ?_⟩
  · exact ⟨⟨⟨_, rfl⟩, _, rfl⟩, (PBit.rounding 4 (by decide)).down_le _, (PBit.rounding 4 (by decide)).le_up _⟩
  · have : p ≤ 1 := (hp 0).2
    intro h
    linarith

end Verif.Solver
