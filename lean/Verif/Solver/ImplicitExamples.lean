import Verif.Solver.Implicit

/-!
# C58: examples and limits of the solution of implicit functions
-/

namespace Verif.Solver

open Ariadne Verif.ConstraintSolver Verif.Matrix Set
open Ariadne.Ext (fin)

/-- The hypotheses hold for the equation `x² - p = 0` with parameter `p`. -/
example : ImplicitValid (n := 1) (P := ℝ) (Set.Icc 1 2) (fun p => Fsq (XE ℝ) p) (fun h p => Jsq (XE ℝ) (h p))
    (fun p x i => x i * x i - p) (fun _ x => Matrix.of fun i _ => x i + x i) where
  der p _ x := (valid_sq RE p).der x
  eval p _ X x := (valid_sq RE p).eval X x
  jac h p _ x := (valid_sq RE p).jac (h p) x

/-- The tests when there are no parameters (solver.cpp 329, 332, 335, 365). -/
def unitTests {n : ℕ} (F : VFn n ℚ) (e : ℚ) : Tests Unit n ℚ where
  refines nh h i := Bounds.refines (nh () i) (h () i)
  disjoint nh ix i := Bounds.inconsistent (nh () i) (ix i)
  diverges nh h i := Ext.lt (Bounds.mag (h () i)) (Bounds.error XQ (nh () i))
  small nh := Ext.lt (supError XQ (nh ())) (fin e) && Ext.lt (supError XQ (F (nh ()))) (fin e)

/-- The Newton step when there are no parameters. -/
def unitStep {n : ℕ} (F : VFn n ℚ) (J : JFn n ℚ) (h : Patch Unit n ℚ) : Option (Patch Unit n ℚ) :=
  (newtonStep XQ F J (h ())).map fun Y _ => Y

/-- The end points of component `i` of a result. -/
def IOutcome.ends {n : ℕ} (i : Fin n) : IOutcome (Patch Unit n ℚ) → Option (Ext ℚ × Ext ℚ)
  | .ok y => some ((y () i).l, (y () i).u)
  | _ => none

/-- Whether a result is `outOfSteps`. -/
def IOutcome.isOutOfSteps {α : Type*} : IOutcome α → Bool
  | .outOfSteps => true
  | _ => false

/-- Whether a result is `disjoint`. -/
def IOutcome.isDisjoint {α : Type*} : IOutcome α → Bool
  | .disjoint => true
  | _ => false

/-- The square root of two. -/
example : (implicit (unitTests (Fsq XQ 2) (1 / 10)) (unitStep (Fsq XQ 2) (Jsq XQ)) 4 (box1 1 2)).ends 0 =
    some (fin (11 / 8), fin (23 / 16)) := by decide +kernel

/-- There is no square root of two between `7/4` and `2`. -/
example : (implicit (unitTests (Fsq XQ 2) (1 / 10)) (unitStep (Fsq XQ 2) (Jsq XQ)) 4
    (box1 (7 / 4) 2)).isDisjoint = true := by decide +kernel

/-- **C58** is false: `implicit` reports that there is no solution when the steps are used up.  Here `7/5`
is a solution. -/
theorem C58_out_of_steps :
    (implicit (unitTests (Fsq XQ (49 / 25)) (1 / 10)) (unitStep (Fsq XQ (49 / 25)) (Jsq XQ)) 1
      (box1 (13 / 10) 6)).isOutOfSteps = true ∧
    Mem (box1 (13 / 10) 6) (fun _ => (7 / 5 : ℚ)) ∧ (7 / 5 : ℚ) * (7 / 5) - 49 / 25 = 0 := by
  refine ⟨by decide +kernel, fun _ => ?_, by norm_num⟩
  constructor <;> simp [box1, IsLower, IsUpper] <;> norm_num

/-- **C58** is false: a function may be returned although there is no solution in `ix` for any parameter.
The equation `x² = 49/25` has no solution between `141/100` and `2`. -/
theorem C58_outside :
    ((implicit (unitTests (Fsq XQ (49 / 25)) (1 / 10)) (unitStep (Fsq XQ (49 / 25)) (Jsq XQ)) 4
      (box1 (141 / 100) 2)).ends 0).isSome = true ∧
    ∀ x : ℚ, Mem (box1 (141 / 100) 2) (fun _ => x) → x * x - 49 / 25 ≠ 0 := by
  refine ⟨by decide +kernel, fun x hx => ?_⟩
  have : (141 / 100 : ℚ) ≤ x := (hx 0).1
  nlinarith

/-! A pair of equations for which the flags are set at different steps:
`x + 200 max(0,y-1)² = 0` and `y + y²/4 - 7/5 - 100 max(0,-1-x)² = 0`. -/

/-- `max(0,·)` -/
def posPart (B : Bounds ℚ) : Bounds ℚ := ⟨Ext.max (fin 0) B.l, Ext.max (fin 0) B.u⟩

/-- The number `c`. -/
def cst (c : ℚ) : Bounds ℚ := ⟨fin c, fin c⟩

/-- The pair of functions. -/
def Fpair : VFn 2 ℚ := fun B =>
  let u := posPart (Bounds.sub XQ (B 1) (cst 1))
  let v := posPart (Bounds.sub XQ (cst (-1)) (B 0))
  ![Bounds.add XQ (B 0) (Bounds.mul XQ (cst 200) (Bounds.mul XQ u u)),
    Bounds.sub XQ (Bounds.sub XQ (Bounds.add XQ (B 1) (Bounds.mul XQ (cst (1 / 4)) (Bounds.mul XQ (B 1) (B 1))))
      (cst (7 / 5))) (Bounds.mul XQ (cst 100) (Bounds.mul XQ v v))]

/-- Their derivatives. -/
def Jpair : JFn 2 ℚ := fun B =>
  let u := posPart (Bounds.sub XQ (B 1) (cst 1))
  let v := posPart (Bounds.sub XQ (cst (-1)) (B 0))
  ![![cst 1, Bounds.mul XQ (cst 400) u],
    ![Bounds.mul XQ (cst 200) v, Bounds.add XQ (cst 1) (Bounds.mul XQ (cst (1 / 2)) (B 1))]]

theorem in_posPart {B : Bounds ℚ} {x : ℚ} (h : In B x) : In (posPart B) (max 0 x) := by
  obtain ⟨⟨⟨a, ha⟩, b, hb⟩, h1, h2⟩ := h
  have key : ∀ c : ℚ, Ext.max (fin 0) (fin c) = fin (max 0 c) := by
    intro c
    by_cases hc : 0 < c
    · simp [Ext.max, Ext.lt, hc, max_eq_right hc.le]
    · simp [Ext.max, Ext.lt, hc, max_eq_left (not_lt.1 hc)]
  rw [posPart, ha, hb, key, key]
  rw [ha] at h1
  rw [hb] at h2
  exact ⟨⟨⟨_, rfl⟩, _, rfl⟩, max_le_max le_rfl h1, max_le_max le_rfl h2⟩

/-- The pair of equations has no solution with `y` positive. -/
theorem pair_no_solution (x y : ℚ) (hy : 0 ≤ y) (h1 : x + 200 * (max 0 (y - 1) * max 0 (y - 1)) = 0) :
    y + 1 / 4 * (y * y) - 7 / 5 - 100 * (max 0 (-1 - x) * max 0 (-1 - x)) ≠ 0 := by
  intro h2
  rcases le_total y 1 with hy1 | hy1
  · rw [max_eq_left (by linarith)] at h1
    have : x = 0 := by linarith
    rw [this, max_eq_left (by norm_num)] at h2
    nlinarith
  · rw [max_eq_right (by linarith)] at h1
    obtain ⟨d, rfl⟩ : ∃ d, y = 1 + d := ⟨y - 1, by ring⟩
    have hd : 0 ≤ d := by linarith
    have hx : x = -(200 * (d * d)) := by
      have : 1 + d - 1 = d := by ring
      rw [this] at h1
      linarith
    have h0 := mul_self_nonneg (max 0 (-1 - x))
    rcases le_total d (9 / 100) with hd1 | hd1
    · nlinarith
    · have hm : max 0 (-1 - x) = 200 * (d * d) - 1 := by
        rw [max_eq_right] <;> rw [hx] <;> nlinarith
      rw [hm] at h2
      have h3 : (62 / 100 : ℚ) ≤ 200 * (d * d) - 1 := by nlinarith
      nlinarith [mul_le_mul_of_nonneg_left h3 (show (0 : ℚ) ≤ 200 * (d * d) - 1 by linarith)]

/-- **C58** is false for several equations: a function is returned although there is no solution in it,
since the components refine the previous ones at different steps. -/
theorem C58_flags_wrong :
    (let r := implicit (unitTests Fpair (1 / 10)) (unitStep Fpair Jpair) 2 (fun _ => ⟨fin (-1), fin 1⟩)
     (r.ends 0).isSome = true ∧ ∃ a b : ℚ, r.ends 1 = some (fin a, fin b) ∧ 0 ≤ a) ∧
    (∀ (X : Box 2 ℚ) (x y : ℚ), In (X 0) x → In (X 1) y →
      In (Fpair X 0) (x + 200 * (max 0 (y - 1) * max 0 (y - 1))) ∧
      In (Fpair X 1) (y + 1 / 4 * (y * y) - 7 / 5 - 100 * (max 0 (-1 - x) * max 0 (-1 - x))) ∧
      In (Jpair X 0 0) 1 ∧ In (Jpair X 0 1) (400 * max 0 (y - 1)) ∧
      In (Jpair X 1 0) (200 * max 0 (-1 - x)) ∧ In (Jpair X 1 1) (1 + 1 / 2 * y)) ∧
    ∀ x y : ℚ, 0 ≤ y → x + 200 * (max 0 (y - 1) * max 0 (y - 1)) = 0 →
      y + 1 / 4 * (y * y) - 7 / 5 - 100 * (max 0 (-1 - x) * max 0 (-1 - x)) ≠ 0 := by
  refine ⟨⟨by decide +kernel, ?_⟩, fun X x y hx hy => ?_, pair_no_solution⟩
  · exact ⟨21 / 22, 707 / 540, by decide +kernel, by norm_num⟩
  · have hc := fun c : ℚ => (in_pt c : In (cst c) c)
    have hu := in_posPart (in_sub (Verif.TaylorModel.exactRounding) hy (hc 1))
    have hv := in_posPart (in_sub (Verif.TaylorModel.exactRounding) (hc (-1)) hx)
    exact ⟨in_add _ hx (in_mul _ (hc 200) (in_mul _ hu hu)),
      in_sub _ (in_sub _ (in_add _ hy (in_mul _ (hc (1 / 4)) (in_mul _ hy hy))) (hc (7 / 5)))
        (in_mul _ (hc 100) (in_mul _ hv hv)),
      hc 1, in_mul _ (hc 400) hu, in_mul _ (hc 200) hv, in_add _ (hc 1) (in_mul _ (hc (1 / 2)) hy)⟩

end Verif.Solver
