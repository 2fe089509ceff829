import Verif.Solver.Model
import Verif.Logical.Props

/-!
# Certificates of feasibility and infeasibility

Model of the tests by which the optimisers of source/solvers/nonlinear_programming.cpp establish that
there is, or is not, a point `x` of `D` with `g(x)` in `C`.

* `g` is given by its evaluation on vectors of bounds (`GFn`) and its Jacobian matrix on vectors of
  bounds (`GJac`); sizes that the code checks are equal by type.
* Points and multipliers are vectors of finite floating-point numbers.  The steps of the iterations are
  carried out in approximate arithmetic and guarantee nothing; their results are arbitrary here.
* The product of bounds with an exact number is the product with bounds of width zero
  (`mul_pt` in Props.lean: for finite numbers there is no difference), except in `dotFB`.
* `none` stands for a failed assertion or an exception that leaves the function.
* Logging and debug assertions are left out.
-/

namespace Verif.Optimiser

open Ariadne Ariadne.Logical Verif.ConstraintSolver Verif.Matrix Verif.Solver
open Ariadne.Ext (fin)

variable {n m k : ℕ} {K : Type*} [Field K] [LinearOrder K] [IsStrictOrderedRing K] (R : XRounding K)

/-- `g(x)` for a vector of bounds. -/
abbrev GFn (n m : ℕ) (K : Type*) := Box n K → Box m K

/-- `g.jacobian(x)` for a vector of bounds, `jacobian_range(g,D)` for a box. -/
abbrev GJac (n m : ℕ) (K : Type*) := Box n K → Mat m n (Bounds K)

/-- A vector of exact numbers as a vector of bounds. -/
def exactPt (x : Fin n → K) : Box n K := fun i => pt (fin (x i))

/-- `contains(D,x)` for a point (interval.inl.hpp 87-89 in every coordinate). -/
def containsPt (D : Box n K) (x : Fin n → K) : Bool :=
  (List.finRange n).all fun i => Ext.le (D i).l (fin (x i)) && Ext.le (fin (x i)) (D i).u

/-- `OptimiserBase::is_feasible_point` (nonlinear_programming.cpp 486-492).  That bounds are definitely
contained in an interval means that they refine it. -/
def isFeasiblePoint (D : Box n K) (g : GFn n m K) (C : Box m K) (x : Fin n → K) : Bool :=
  containsPt D x && vRefines (g (exactPt x)) C

/-- `C.is_singleton()` (interval.inl.hpp 58), `C.lower_bound()==C.upper_bound()`. -/
def isSing (c : Bounds K) : Bool := Ext.eq c.l c.u

/-- The indices of the equality constraints (522-526, 605-615, 1935-1945). -/
def eqs (C : Box m K) : List (Fin m) := (List.finRange m).filter fun i => isSing (C i)

/-- The equality constraints of `g` (530-535, 621-626, 1950-1955). -/
def eqFn (g : GFn n m K) (C : Box m K) : GFn n (eqs C).length K := fun X j => g X ((eqs C).get j)

/-- Their Jacobian matrix. -/
def eqJac (J : GJac n m K) (C : Box m K) : GJac n (eqs C).length K := fun X i j => J X ((eqs C).get i) j

/-- `operator*(Matrix,Vector)` (matrix.hpp 777-787), for bounds. -/
def rectVec (M : Mat n k (Bounds K)) (v : Box k K) : Box n K :=
  fun i => (List.finRange k).foldl (fun s j => Bounds.add R s (Bounds.mul R (M i j) (v j)))
    ⟨fin 0, fin 0⟩

/-- `subset(UpperInterval,ExactInterval)` (interval.inl.hpp 93-94).  The comparisons of an upper bound
with a number have values in `ValidatedLowerKleenean`, which are true or unlikely
(float_lower_bound.hpp 198-200, arithmetic.hpp 694-703, logical.hpp 516-541). -/
def upperSubset (x y : Bounds K) : LV := if Bounds.refines x y then .true_ else .unlikely

/-- `subset(Box,Box)` (box.hpp 393-396). -/
def upperBoxSubset (X Y : Box n K) : LV :=
  (List.finRange n).foldl (fun s i => LV.and_ s (upperSubset (X i) (Y i))) .true_

/-- The projected Newton step (540-568): `x - L (Dh(X) L)⁻¹ (h(x)-c)`; `none` if the inverse does not
exist.  Simplified: the matrix `L` is a parameter with finite entries (the code takes the transposed
approximate derivative, weighted with the inverse squares of the errors of `X`). -/
def projectedStep (g : GFn n m K) (J : GJac n m K) (C : Box m K) (L : Fin n → Fin (eqs C).length → K)
    (X : Box n K) : Option (Box n K) :=
  let Lb : Mat n (eqs C).length (Bounds K) := fun i j => pt (fin (L i j))
  let S := matMul (⟨fin 0, fin 0⟩ : Bounds K) (Bounds.add R) (Bounds.mul R) (eqJac J C X) Lb
  (luInverse (boundsOps R) S).map fun Sinv i =>
    Bounds.subFB R (mids R X i) (rectVec R Lb (matVec R Sinv fun j =>
      Bounds.sub R (eqFn g C (fun i => pt (mids R X i)) j) (C ((eqs C).get j))) i)

/-- `OptimiserBase::contains_feasible_point` (495-576).  The first inverse (553) is outside of the `try`
block, so that the exception for a singular matrix leaves the function. -/
def containsFeasiblePoint (D : Box n K) (g : GFn n m K) (J : GJac n m K) (C : Box m K)
    (L : Fin n → Fin (eqs C).length → K) (X : Box n K) : Option LV :=
  if (List.finRange n).any fun i => disjoint (X i) (D i) then some .false_
  else if LV.definitely (LV.not_ (upperBoxSubset X D)) then some .indeterminate
  else
    let gx := g X
    if (List.finRange m).any fun i => disjoint (gx i) (C i) then some .false_
    else if (List.finRange m).any fun i =>
        !isSing (C i) && LV.definitely (LV.not_ (upperSubset (gx i) (C i))) then some .indeterminate
    else if m = 0 then none
    else (projectedStep R g J C L X).map fun nX => if vRefines nX X then .true_ else .indeterminate

/-! ## Search for a solution of the equality constraints -/

/-- `x0+AT*w` (643-644, 671, 1962). -/
def xOf (x0 : Fin n → K) (AT : Mat n k (Bounds K)) (w : Box k K) : Box n K :=
  fun i => Bounds.addFB R (fin (x0 i)) (rectVec R AT w i)

/-- `transpose(h.jacobian(x0))` (631). -/
def startAT (J : GJac n m K) (C : Box m K) (x0 : Fin n → K) : Mat n (eqs C).length (Bounds K) :=
  fun j i => eqJac J C (exactPt x0) i j

/-- `h(x0+AT*w)-c`, with `c` the lower bounds of the equality constraints (625, 645). -/
def searchF (g : GFn n m K) (C : Box m K) (x0 : Fin n → K) (AT : Mat n (eqs C).length (Bounds K)) :
    VFn (eqs C).length K :=
  fun w j => Bounds.subBF R (eqFn g C (xOf R x0 AT w) j) (C ((eqs C).get j)).l

/-- `h.jacobian(x0+AT*w)*AT` (645). -/
def searchJ (J : GJac n m K) (C : Box m K) (x0 : Fin n → K) (AT : Mat n (eqs C).length (Bounds K)) :
    JFn (eqs C).length K :=
  fun w => matMul (⟨fin 0, fin 0⟩ : Bounds K) (Bounds.add R) (Bounds.mul R) (eqJac J C (xOf R x0 AT w)) AT

/-- `w+FloatDPBounds(0,1)*(v-w)` (651, 653). -/
def stretch (w v : Box k K) : Box k K :=
  fun i => Bounds.add R (w i) (Bounds.mul R ⟨fin 0, fin 1⟩ (Bounds.sub R (v i) (w i)))

/-- The loop 641-665; the result is `validated_solution` and `w`.  `step` is the Newton step
`mw-solve(h.jacobian(x)*AT,h(mx)-c)` (645, matrix.tpl.hpp 447-449: `solve` multiplies with the
inverse). -/
def searchLoop (step : Box k K → Option (Box k K)) : ℕ → Bool → Bool → Box k K → Option (Bool × Box k K)
  | 0, _, validated, w => some (validated, w)
  | t + 1, found, validated, w =>
    match step w with
    | none => none
    | some nw =>
      if found = false then
        if vRefines nw w then searchLoop step t true validated (stretch R w zeroBox)
        else searchLoop step t false validated
          (stretch R w fun i => Bounds.mul R ⟨fin 2, fin 2⟩ (nw i))
      else if vRefines nw w then searchLoop step t true true fun i => Bounds.refinement (nw i) (w i)
      else if validated then some (validated, w)
      else searchLoop step t true validated fun i => Bounds.refinement (nw i) (w i)

/-- The inequality constraints definitely hold (606-615, 680-688). -/
def ineqOk (C gx : Box m K) : Bool :=
  (List.finRange m).all fun i => isSing (C i) || Bounds.refines (gx i) (C i)

/-- `OptimiserBase::validate_feasibility` (581-690).  The box `D` is used for its size only. -/
def validateFeasibility (g : GFn n m K) (J : GJac n m K) (C : Box m K) (x0 : Fin n → K) : Option Bool :=
  if ineqOk C (g (exactPt x0)) = false then some false
  else if (eqs C).isEmpty then some true
  else
    let AT := startAT J C x0
    match searchLoop R (newtonStep R (searchF R g C x0 AT) (searchJ R J C x0 AT)) 12 false false zeroBox with
    | none => none
    | some (false, _) => some false
    | some (true, w) => some (ineqOk C (g (xOf R x0 AT w)))

/-! ## Infeasibility -/

/-- `dot(y,C)` for exact `y` and intervals (vector.hpp 432-439, interval.hpp 128-129); the loop
749-752. -/
def dotFB (y : Fin m → K) (C : Box m K) : Bounds K :=
  (List.finRange m).foldl (fun s i => Bounds.add R s (Bounds.opMulFB R (fin (y i)) (C i))) ⟨fin 0, fin 0⟩

/-- `dot(iy,C)` for vectors of intervals (vector.hpp 432-439). -/
def dotBB (y C : Box m K) : Bounds K :=
  (List.finRange m).foldl (fun s i => Bounds.add R s (Bounds.mul R (y i) (C i))) ⟨fin 0, fin 0⟩

/-- The mean value estimate of `y.g(D)` around `x` (715-723, 1988-1996). -/
def meanValue (J : GJac n m K) (D : Box n K) (x : Fin n → K) (y : Fin m → K) (gx : Box m K) : Bounds K :=
  (List.finRange n).foldl (fun s i => Bounds.add R s (Bounds.mul R
    ((List.finRange m).foldl (fun s j => Bounds.add R s (Bounds.opMulBF R (J D j i) (fin (y j)))) ⟨fin 0, fin 0⟩)
    (Bounds.subBF R (D i) (fin (x i))))) (dotFB R y gx)

/-- `OptimiserBase::validate_infeasibility` (693-729).  The Taylor estimate (710-713) is not used. -/
def validateInfeasibility (D : Box n K) (g : GFn n m K) (J : GJac n m K) (C : Box m K) (x : Fin n → K)
    (y : Fin m → K) : Bool :=
  isEmpty (Bounds.refinement (dotFB R y C) (meanValue R J D x y (g (exactPt x))))

/-- `OptimiserBase::is_infeasibility_certificate` (732-759); `yg y` is the value over `D` of the Taylor
model of `y.g`. -/
def isInfeasibilityCertificate (D : Box n K) (yg : (Fin m → K) → Bounds K) (C : Box m K) (y : Fin m → K) :
    Bool :=
  if m = 0 then boxEmpty D else disjoint (dotFB R y C) (yg y)

/-! ## The optimisers -/

/-- The loop of `NonlinearInfeasibleInteriorPointOptimiser::feasible` (876-895): the list gives the
values of `x` and `y` after each step, and whether `mu` is below its minimum. -/
def feasibleLoop (D : Box n K) (g : GFn n m K) (J : GJac n m K) (yg : (Fin m → K) → Bounds K) (C : Box m K) :
    List ((Fin n → K) × (Fin m → K) × Bool) → Option LV
  | [] => some .indeterminate
  | (x, y, small) :: l =>
    match validateFeasibility R g J C x with
    | none => none
    | some true => some .true_
    | some false =>
      if isInfeasibilityCertificate R D yg C y then some .false_
      else if small then some .indeterminate
      else feasibleLoop D g J yg C l

/-- The constraint set of `OptimiserBase::feasible(D,g,h)` and `minimise(f,D,g,h)` (766-786): inequalities
`g(x)≤0`, equalities `h(x)=0`. -/
def standardC (p q : ℕ) : Box (p + q) K :=
  Fin.append (fun _ => ⟨.ninf, fin 0⟩) fun _ => ⟨fin 0, fin 0⟩

/-- `join(g,h)`. -/
def joinFn {p q : ℕ} (g : GFn n p K) (h : GFn n q K) : GFn n (p + q) K :=
  fun X => Fin.append (g X) (h X)

/-- The vector `W` of `check_feasibility` (1959-1960), with `tol` the value of `SEARCH_TOLERANCE`. -/
def searchBox (tol : K) : Box k K := fun _ => ⟨fin (-tol), fin tol⟩

/-- `transpose(midpoint(h.jacobian(x)))` (1961). -/
def midAT (J : GJac n m K) (C : Box m K) (x : Fin n → K) : Mat n (eqs C).length (Bounds K) :=
  fun j i => pt (Bounds.value R (eqJac J C (exactPt x) i j))

/-- The interval Newton step of `check_feasibility` (1959-1971); `none` if the inverse does not exist. -/
def penaltyNewton (tol : K) (D : Box n K) (g : GFn n m K) (J : GJac n m K) (C : Box m K) (x : Fin n → K) :
    Option Bool :=
  let AT := midAT R J C x
  let W : Box (eqs C).length K := searchBox tol
  let B := xOf R x AT W
  let S := matMul (⟨fin 0, fin 0⟩ : Bounds K) (Bounds.add R) (Bounds.mul R) (eqJac J C B) AT
  (luInverse (boundsOps R) S).map fun Sinv =>
    let nW := matVec R Sinv fun j => Bounds.subBF R (eqFn g C (exactPt x) j) (C ((eqs C).get j)).l
    LV.definitely (upperBoxSubset B D) && vRefines nW W

/-- `PenaltyFunctionOptimiser::check_feasibility` (1918-2002). -/
def checkFeasibility (tol : K) (D : Box n K) (g : GFn n m K) (J : GJac n m K) (C : Box m K) (x : Fin n → K)
    (y : Fin m → K) : Option LV :=
  let gx := g (exactPt x)
  let last : LV := if isEmpty (Bounds.refinement (dotBB R (exactPt y) C) (meanValue R J D x y gx)) then .false_
    else .indeterminate
  if (List.finRange m).any fun j => Ext.lt (gx j).u (C j).l || Ext.lt (C j).u (gx j).l then some .false_
  else if ineqOk C gx then
    if (eqs C).isEmpty then some .true_
    else (penaltyNewton R tol D g J C x).map fun b => if b then .true_ else last
  else some last

/-- `ApproximateOptimiser::feasible_zero` (1843-1860): `hx` are the approximate values of `h` at the last
point, `y` the last multipliers, `tol` the constant `1e-10`. -/
def feasibleZero (tol : K) (D : Box n K) (h : GFn n m K) (hx y : Fin m → K) : LV :=
  if (List.finRange m).all fun i => decide (|hx i| < tol) then .true_
  else
    let s := dotBB R (exactPt y) fun i => ConstraintSolver.apply (fun X => h X i) D
    if Ext.le s.l (fin 0) && Ext.le (fin 0) s.u then .indeterminate else .false_

end Verif.Optimiser
