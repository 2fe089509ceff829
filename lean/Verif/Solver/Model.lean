import Verif.ConstraintSolver.Feasible
import Verif.Matrix.Props

/-!
# Solvers of algebraic equations

Model of `SolverBase::zero`, `solve`, `solve_all`, `fixed_point` and of the contractors of
`IntervalNewtonSolver`, `KrawczykSolver` and `FactoredKrawczykSolver` (source/solvers/solver.cpp).

A function is given by its evaluation `F` on boxes (`f.evaluate`) and its Jacobian matrix `J` on boxes
(`f.jacobian`).  Sizes that the code checks or assumes equal are equal here by type.
-/

namespace Verif.Solver

open Ariadne Verif.ConstraintSolver Verif.Matrix
open Ariadne.Ext (fin)

variable {n : ℕ} {K : Type*} [Field K] [LinearOrder K] [IsStrictOrderedRing K] (R : XRounding K)

/-- `f.evaluate(x)` for a vector of bounds. -/
abbrev VFn (n : ℕ) (K : Type*) := Box n K → Box n K

/-- `f.jacobian(x)` for a vector of bounds. -/
abbrev JFn (n : ℕ) (K : Type*) := Box n K → Mat n n (Bounds K)

/-- Conversion of an exact number to bounds (float_bounds.hpp: `Bounds(F const&)`). -/
def pt (x : Ext K) : Bounds K := ⟨x, x⟩

/-- What a call ends with.  `solverException` is a `SolverException` other than `NoSolutionException`;
`singular` is a `SingularMatrixException` (matrix.hpp 62-65), which is no `SolverException`
(solver_interface.hpp 61-66); `undefined` stands for splitting a box without coordinates and for a
recursion that exceeds the given depth. -/
inductive Outcome (α : Type*)
  | ok (a : α)
  | noSolution
  | solverException
  | singular
  | undefined

/-- `operator*(Matrix,Vector)` (matrix.hpp 777-787), for bounds. -/
def matVec (M : Mat n n (Bounds K)) (v : Box n K) : Box n K :=
  fun i => (List.finRange n).foldl (fun s j => Bounds.add R s (Bounds.mul R (M i j) (v j)))
    ⟨fin 0, fin 0⟩

/-- `cast_exact(Vector<Bounds>)` (vector.hpp 778-784, casts.hpp 53, float_approximation.tpl.hpp 44). -/
def mids (X : Box n K) : Fin n → Ext K := fun i => Bounds.value R (X i)

/-- `midpoint(Matrix<Bounds>)` (matrix.tpl.hpp 1051-1059, float_bounds.cpp 36), converted to bounds. -/
def midMat (A : Mat n n (Bounds K)) : Mat n n (Bounds K) := fun i j => pt (Bounds.value R (A i j))

/-- `IntervalNewtonSolver::step` (solver.cpp 396-417); `none` if the inverse does not exist. -/
def newtonStep (F : VFn n K) (J : JFn n K) (X : Box n K) : Option (Box n K) :=
  (luInverse (boundsOps R) (J X)).map fun Ainv i =>
    Bounds.subFB R (mids R X i) (matVec R Ainv (F fun i => pt (mids R X i)) i)

/-- `KrawczykSolver::step` (solver.cpp 419-443). -/
def krawczykStep (F : VFn n K) (J : JFn n K) (X : Box n K) : Option (Box n K) :=
  (luInverse (boundsOps R) (midMat R (J X))).map fun M i =>
    let MJ := matMul (⟨fin 0, fin 0⟩ : Bounds K) (Bounds.add R) (Bounds.mul R) M (J X)
    Bounds.subFB R (mids R X i)
      (Bounds.sub R (matVec R M (F fun i => pt (mids R X i)) i)
        (matVec R (fun i j => Bounds.sub R (identity (boundsOps R) i j) (MJ i j))
          (fun j => Bounds.subBF R (X j) (mids R X j)) i))

/-- `FactoredKrawczykSolver::step` (solver.cpp 446-471). -/
def factoredStep (F : VFn n K) (J : JFn n K) (X : Box n K) : Option (Box n K) :=
  (luInverse (boundsOps R) (midMat R (J X))).map fun M i =>
    Bounds.subFB R (mids R X i)
      (matVec R M (fun i => Bounds.add R (F (fun i => pt (mids R X i)) i)
        (matVec R (fun i j => Bounds.sub R (J X i j) (midMat R (J X) i j))
          (fun j => Bounds.subBF R (X j) (mids R X j)) i)) i)

/-- `refines(Vector,Vector)` (vector.hpp 689-695). -/
def vRefines (X Y : Box n K) : Bool := (List.finRange n).all fun i => Bounds.refines (X i) (Y i)

/-- `consistent(Vector,Vector)` (vector.hpp 721-727). -/
def vConsistent (X Y : Box n K) : Bool := (List.finRange n).all fun i => Bounds.consistent (X i) (Y i)

/-- `inconsistent(Vector,Vector)` (vector.hpp 713-719). -/
def vInconsistent (X Y : Box n K) : Bool := (List.finRange n).any fun i => Bounds.inconsistent (X i) (Y i)

/-- `sup_error(Vector)` (vector.hpp 665-671); the error of the zero element is zero. -/
def supError (X : Box n K) : Ext K :=
  (List.finRange n).foldl (fun r i => Ext.max r (Bounds.error R (X i))) (fin 0)

/-- The zero vector. -/
def zeroBox : Box n K := fun _ => ⟨fin 0, fin 0⟩

/-- After the last step (solver.cpp 271-281). -/
def zeroFinal (step : Box n K → Option (Box n K)) (F : VFn n K) (eps : K) (r : Box n K) :
    Outcome (Box n K) :=
  if vConsistent (F r) zeroBox = false then .noSolution
  else
    let w := Ext.mul R.up (fin eps) (supError R r)
    let r' : Box n K := fun i => Bounds.add R (r i) ⟨w.neg, w⟩
    match step r' with
    | none => .singular
    | some nr => if vRefines nr r' then .ok nr else .solverException

/-- The loop of `SolverBase::zero` (solver.cpp 253-270); `hs` is `has_solution`. -/
def zeroLoop (step : Box n K → Option (Box n K)) (F : VFn n K) (eps e : K) :
    ℕ → Bool → Box n K → Outcome (Box n K)
  | 0, _, r => zeroFinal R step F eps r
  | k + 1, hs, r =>
    match step r with
    | none => .singular
    | some nr =>
      let hs' := hs || vRefines nr r
      if hs' && Ext.lt (supError R nr) (fin e) then .ok nr
      else if vConsistent nr r = false then .noSolution
      else zeroLoop step F eps e k hs' fun i => Bounds.refinement (nr i) (r i)

/-- `SolverBase::zero(f,bx)` (solver.cpp 242-282), with `eps` the value of `FloatDP::eps(dp)`. -/
def zero (step : Box n K → Option (Box n K)) (F : VFn n K) (eps e : K) (steps : ℕ) (bx : Box n K) :
    Outcome (Box n K) := zeroLoop R step F eps e steps false bx

/-! ## All solutions -/

/-- The comparison of vectors in sets (solver_interface.hpp 44-54), from coordinate `l` on. -/
def vltLoop (X Y : Box n K) : List (Fin n) → Bool
  | [] => false
  | i :: l =>
    if Bounds.lt (X i) (Y i) = .true_ then true
    else if Bounds.lt (Y i) (X i) = .true_ then false
    else vltLoop X Y l

/-- `ContainerComparison<Vector<X>>` (solver_interface.hpp 44-54). -/
def vlt (X Y : Box n K) : Bool := vltLoop X Y (List.finRange n)

/-- `Set::insert`: nothing changes if there is an equivalent element.  Simplified: the comparison is
no strict weak order, so that a search tree may also miss an equivalent element. -/
def insertSet (s : List (Box n K)) (X : Box n K) : List (Box n K) :=
  if s.any fun Y => !vlt X Y && !vlt Y X then s else s ++ [X]

/-- The width of an interval with exact end points, as bounds (interval.inl.hpp: `width()`). -/
def exactWidth (X : Bounds K) : Bounds K := ⟨Ext.sub R.down X.u X.l, Ext.sub R.up X.u X.l⟩

/-- The coordinate of greatest width (`irmax`, box.tpl.hpp 60-67), for a box with exact end points. -/
def irmaxE (B : Box n K) : Option (Fin n) :=
  (List.finRange n).foldl (fun r i =>
    match r with
    | none => some i
    | some k => if Bounds.lt (exactWidth R (B k)) (exactWidth R (B i)) = .true_ then some i else some k) none

/-- The midpoint of an interval with exact end points (interval.inl.hpp 29, 48). -/
def exactMid (X : Bounds K) : Ext K :=
  Bounds.value R ⟨(Ext.add R.down X.l X.u).hlf, (Ext.add R.up X.l X.u).hlf⟩

/-- `split(bx)` (box.tpl.hpp 79-88, 95-98) for a box with exact end points. -/
def splitE (B : Box n K) : Option (Box n K × Box n K) :=
  (irmaxE R B).map fun k => (Function.update B k ⟨(B k).l, exactMid R (B k)⟩,
    Function.update B k ⟨exactMid R (B k), (B k).u⟩)

/-- The result of `solve_all`.  Only `set` is returned; `found` lists all enclosures found, before
insertion in the set, and `given_up` the boxes for which a warning is printed. -/
structure Solutions (n : ℕ) (K : Type*) where
  set : List (Box n K)
  found : List (Box n K)
  givenUp : List (Box n K)

/-- Lines 216-233: the box is given up if it is small, otherwise split.  The warning printed for a
singular Jacobian computes the inverse of its midpoint, which may be singular. -/
def splitOrGiveUp (rec_ : Box n K → Outcome (Solutions n K)) (J : JFn n K) (e : K) (inv : Bool)
    (bx : Box n K) : Outcome (Solutions n K) :=
  if Ext.lt (supError R bx) (fin e) then
    if inv then .ok ⟨[], [], [bx]⟩
    else
      match luInverse (boundsOps R) (midMat R (J bx)) with
      | none => .singular
      | some _ => .ok ⟨[], [], [bx]⟩
  else
    match splitE R bx with
    | none => .undefined
    | some s =>
      match rec_ s.1 with
      | .ok S1 =>
        match rec_ s.2 with
        | .ok S2 => .ok ⟨(S1.set.foldl insertSet []) |> fun r => S2.set.foldl insertSet r,
            S1.found ++ S2.found, S1.givenUp ++ S2.givenUp⟩
        | .noSolution => .noSolution
        | .solverException => .solverException
        | .singular => .singular
        | .undefined => .undefined
      | .noSolution => .noSolution
      | .solverException => .solverException
      | .singular => .singular
      | .undefined => .undefined

/-- `SolverBase::solve_all(f,bx)` (solver.cpp 157-236), with `depth` bounding the recursion. -/
def solveAll (step : Box n K → Option (Box n K)) (F : VFn n K) (J : JFn n K) (eps e : K) (steps : ℕ) :
    ℕ → Box n K → Outcome (Solutions n K)
  | 0, _ => .undefined
  | depth + 1, bx =>
    if vInconsistent (F bx) zeroBox then .ok ⟨[], [], []⟩
    else
      let inv := (luInverse (boundsOps R) (J bx)).isSome
      let next := fun _ : Unit => splitOrGiveUp R (solveAll step F J eps e steps depth) J e inv bx
      if inv then
        match zero R step F eps e steps bx with
        | .ok y => .ok ⟨insertSet [] y, [y], []⟩
        | .noSolution => .ok ⟨[], [], []⟩
        | .solverException => next ()
        | .singular => .singular
        | .undefined => .undefined
      else next ()

/-- `SolverBase::solve(f,bx)` (solver.cpp 141-149). -/
def solve (step : Box n K → Option (Box n K)) (F : VFn n K) (J : JFn n K) (eps e : K) (steps depth : ℕ)
    (bx : Box n K) : Outcome (Box n K) :=
  match solveAll R step F J eps e steps depth bx with
  | .ok S =>
    match S.set with
    | [] => .noSolution
    | [y] => .ok y
    | _ :: _ :: _ => .solverException
  | .noSolution => .noSolution
  | .solverException => .solverException
  | .singular => .singular
  | .undefined => .undefined

/-- `f - id` evaluated on a box (`SolverBase::fixed_point`, solver.cpp 286-291). -/
def subId (F : VFn n K) : VFn n K := fun X i => Bounds.sub R (F X i) (X i)

/-- The Jacobian matrix of `f - id`. -/
def subIdJ (J : JFn n K) : JFn n K := fun X i j => Bounds.sub R (J X i j) (identity (boundsOps R) i j)

end Verif.Solver
