import Verif.Matrix.Model

/-!
# Feasibility of linear programs: the interior point solver

`InteriorPointSolver::validate_feasibility` and `InteriorPointSolver::feasible`,
`source/solvers/linear_programming.cpp`; line numbers without a file refer to this file.  The problem is to find `x` with
`A*x=b` and `xl<=x<=xu`.

The entries of `A` and `b` are finite numbers; `xl`, `xu` and the approximations may be infinite or NaN.  Arithmetic is
that of `Bounds<FloatDP>`, with overflow.  The steps of the solver (375-478) use approximate arithmetic only; what they
compute is arbitrary here, as is the decision on the threshold (359).  An exception thrown by `inverse(S)`, which is
called for a log message only (428), is not modelled.
-/

namespace Verif.LinearProgram

open Ariadne (Ext Bounds XRounding)
open Verif.Matrix (luSolve boundsOps Mat)

variable {K : Type*} [Field K] [LinearOrder K] [IsStrictOrderedRing K] {m n : ℕ}

/-- `r+=t[i]` for each index `i`, starting with `z` (`source/algebra/vector.hpp` 434-437, `matrix.hpp` 781-785, 805-811,
833-837). -/
def sumB (R : XRounding K) (z : Bounds K) (t : Fin n → Bounds K) : Bounds K :=
  (List.finRange n).foldl (fun s i => Bounds.add R s (t i)) z

/-- The product of the zero elements of two vectors of exact numbers, from which sums start. -/
def zeroF (R : XRounding K) : Bounds K := Bounds.mulF R (.fin 0) (.fin 0)

/-- The product of the zero elements if one of them has type `Bounds`. -/
def zeroB (R : XRounding K) : Bounds K := Bounds.mul R ⟨.fin 0, .fin 0⟩ ⟨.fin 0, .fin 0⟩

/-- `operator*(F,Bounds)` (`source/numeric/float_bounds.hpp` 408-409, 428): the number is converted to `Bounds`. -/
def mulFB (R : XRounding K) (a : K) (x : Bounds K) : Bounds K := Bounds.mul R (Bounds.ofExt (.fin a)) x

/-- `A*x` for a matrix of numbers and a vector of bounds (`source/algebra/matrix.hpp` 777-787). -/
def matVec (R : XRounding K) (A : Fin m → Fin n → K) (x : Fin n → Bounds K) (i : Fin m) : Bounds K :=
  sumB R (zeroB R) fun j => mulFB R (A i j) (x j)

/-- `transpose(A)*w` for a vector of bounds (`source/algebra/matrix.hpp` 829-839). -/
def transVec (R : XRounding K) (A : Fin m → Fin n → K) (w : Fin m → Bounds K) (j : Fin n) : Bounds K :=
  sumB R (zeroB R) fun i => mulFB R (A i j) (w i)

/-- `A*transpose(A)` (`source/algebra/matrix.hpp` 801-813). -/
def gram (R : XRounding K) (A : Fin m → Fin n → K) : Mat m m (Bounds K) := fun i k =>
  sumB R (zeroF R) fun j => Bounds.mulF R (.fin (A i j)) (.fin (A k j))

/-- Lines 181-196: the approximate solution `x` is corrected to bounds on a solution of `A*x=b`.  `none` is the
`SingularMatrixException`. -/
def correct (R : XRounding K) (A : Fin m → Fin n → K) (b : Fin m → K) (x : Fin n → Ext K) :
    Option (Fin n → Bounds K) :=
  let e : Fin m → Bounds K := fun i => Bounds.subFB R (.fin (b i)) (matVec R A (fun j => Bounds.ofExt (x j)) i)
  (luSolve (boundsOps R) (gram R A) fun i (_ : Fin 1) => e i).map fun w =>
    fun j => Bounds.add R (Bounds.ofExt (x j)) (transVec R A (fun i => w i 0) j)

/-- Lines 202-207: `x` lies strictly between the bounds. -/
def inside (xl xu : Fin n → Ext K) (x : Fin n → Bounds K) : Bool :=
  (List.finRange n).all fun i => !(Ext.le (x i).l (xl i) || Ext.le (xu i) (x i).u)

/-- Lines 218-223: one variable's part of `mx`.  In line 222 the product is *added*, though the comment in line 211 and
the bound needed have a minus sign. -/
def mxStep (R : XRounding K) (xl xu : Fin n → Ext K) (z : Fin n → Bounds K) (mx : Bounds K) (i : Fin n) : Bounds K :=
  let mx := if Ext.lt (.fin 0) (z i).u then Bounds.sub R mx (Bounds.mulF R (z i).u (xu i)) else mx
  if Ext.lt (z i).l (.fin 0) then Bounds.add R mx (Bounds.mulF R (z i).l (xl i)) else mx

/-- Lines 212-223. -/
def mx (R : XRounding K) (xl xu : Fin n → Ext K) (A : Fin m → Fin n → K) (b : Fin m → K) (y : Fin m → Ext K) :
    Bounds K :=
  let z := transVec R A fun i => Bounds.ofExt (y i)
  (List.finRange n).foldl (mxStep R xl xu z)
    (sumB R (Bounds.ofExt (.fin 0)) fun i => mulFB R (b i) (Bounds.ofExt (y i)))

/-- Lines 174-227: `validate_feasibility`; `none` is `indeterminate`. -/
def validate (R : XRounding K) (xl xu : Fin n → Ext K) (A : Fin m → Fin n → K) (b : Fin m → K)
    (x : Fin n → Ext K) (y : Fin m → Ext K) : Option Bool :=
  match correct R A b x with
  | none => none
  | some x' =>
    if inside xl xu x' then some true
    else if Ext.lt (.fin 0) (mx R xl xu A b y).l then some false
    else none

/-- `LinearProgramStatus`, `source/solvers/linear_programming.hpp`. -/
inductive Status
  | indeterminate | primal | dual | primalDual | degenerate
deriving DecidableEq

/-- What a step leaves behind: its status, the approximations `x` and `y`, and whether `mu` is below the threshold. -/
structure Iter (m n : ℕ) (K : Type*) where
  status : Status
  x : Fin n → Ext K
  y : Fin m → Ext K
  small : Bool

/-- Lines 353-357: the dual certificate.  `yb=dot(yv,b)` and `yAX=dot(transpose(A)*yv,ivlx)` are inconsistent. -/
def certificate (R : XRounding K) (xl xu : Fin n → Ext K) (A : Fin m → Fin n → K) (b : Fin m → K)
    (y : Fin m → Ext K) : Bool :=
  let yb := sumB R (zeroF R) fun i => Bounds.mulF R (y i) (.fin (b i))
  let z : Fin n → Bounds K := fun j => sumB R (zeroF R) fun i => Bounds.mulF R (.fin (A i j)) (y i)
  let yAX := sumB R (zeroB R) fun j => Bounds.mul R (z j) ⟨xl j, xu j⟩
  Bounds.inconsistent yb yAX

/-- Lines 346-360: the loop, for at most `k` further steps; `s` are the results of the steps from here on. -/
def loop (R : XRounding K) (xl xu : Fin n → Ext K) (A : Fin m → Fin n → K) (b : Fin m → K) :
    ℕ → (ℕ → Iter m n K) → Option Bool
  | 0, _ => none
  | k + 1, s =>
    if ((s 0).status = .primalDual ∨ (s 0).status = .primal) ∧ validate R xl xu A b (s 0).x (s 0).y = some true then
      some true
    else if certificate R xl xu A b (s 0).y then some false
    else if (s 0).status = .degenerate then none
    else if (s 0).small then none
    else loop R xl xu A b k fun i => s (i + 1)

/-- Line 334: the assertion on the bounds of a variable. -/
def boundsOk (xl xu : Ext K) : Bool := Ext.eq xl .ninf || Ext.eq xu .pinf || Ext.le xl xu

/-- Lines 312-362: `feasible`.  The outer `none` is a failed assertion, the inner `none` is `indeterminate`. -/
def feasible (R : XRounding K) (xl xu : Fin n → Ext K) (A : Fin m → Fin n → K) (b : Fin m → K)
    (s : ℕ → Iter m n K) : Option (Option Bool) :=
  if (List.finRange n).all fun i => boundsOk (xl i) (xu i) then some (loop R xl xu A b 24 s) else none

end Verif.LinearProgram
