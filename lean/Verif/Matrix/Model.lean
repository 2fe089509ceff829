import Verif.Bounds.Model
import Mathlib.Data.List.FinRange
import Mathlib.Logic.Function.Basic

/-!
# Matrix inversion, linear solving and triangular decomposition

Model of source/algebra/matrix.tpl.hpp and of the products in
source/algebra/matrix.hpp.  A matrix is a function of its row and column number.
Loops whose iterations read no entry written by another iteration are written as
one simultaneous assignment; loops whose iterations depend on each other (the
pivot search, the columns of an elimination, Gauss-Seidel sweeps) are folds in
the order of the code.
-/

namespace Verif.Matrix

/-- `Matrix<X>` with `m` rows and `n` columns (matrix.hpp 122-247). -/
abbrev Mat (m n : ℕ) (X : Type*) := Fin m → Fin n → X

/-- The operations of the number type used by the algorithms.  `gt a b` is
`decide(mig(a)>mig(b))`. -/
structure Ops (X : Type*) where
  zero : X
  one : X
  add : X → X → X
  sub : X → X → X
  mul : X → X → X
  recip : X → X
  gt : X → X → Bool

/-- `operator*(Matrix,Matrix)` (matrix.hpp 763-775): each entry starts at
`A1.zero_element()*A2.zero_element()` and accumulates the products in order. -/
def matMul {X1 X2 X0 : Type*} {m n p : ℕ} (z : X0) (add : X0 → X0 → X0) (mul : X1 → X2 → X0)
    (A : Mat m n X1) (B : Mat n p X2) : Mat m p X0 :=
  fun i j => (List.finRange n).foldl (fun s k => add s (mul (A i k) (B k j))) z

section LU

variable {X : Type*} {n : ℕ} (o : Ops X)

/-- `Matrix::identity(n,zero)` (matrix.hpp 494-500). -/
def identity : Mat n n X := fun i j => if i = j then o.one else o.zero

/-- The two matrices `A` and `B` of `lu_inverse` (matrix.tpl.hpp 224-225). -/
structure State (n : ℕ) (X : Type*) where
  A : Mat n n X
  B : Mat n n X

/-- One comparison of the pivot search (matrix.tpl.hpp 235-240); the state is
`amax`, kept as the entry whose mignitude it is, and `iamax`, with `none` for `m`. -/
def pivotStep (A : Mat n n X) (k : Fin n) (s : X × Option (Fin n)) (i : Fin n) :
    X × Option (Fin n) :=
  if k ≤ i ∧ o.gt (A i k) s.1 = true then (A i k, some i) else s

/-- The pivot search (matrix.tpl.hpp 233-240). -/
def pivot (A : Mat n n X) (k : Fin n) : Option (Fin n) :=
  ((List.finRange n).foldl (pivotStep o A k) (o.zero, none)).2

/-- The row swaps (matrix.tpl.hpp 250-261): columns from `k` on of `A`, all of `B`. -/
def swapRows (k q : Fin n) (S : State n X) : State n X where
  A := fun i j => if k ≤ j then (if i = k then S.A q j else if i = q then S.A k j else S.A i j)
    else S.A i j
  B := fun i j => if i = k then S.B q j else if i = q then S.B k j else S.B i j

/-- Eliminating below the pivot (matrix.tpl.hpp 263-273): with `r=rec(A[k][k])` and
`s=A[i][k]*r`, rows `i>k` of `B` lose `s` times row `k`, entries `j>k` of `A`
likewise, and `A[i][k]=0`. -/
def eliminate (k : Fin n) (S : State n X) : State n X :=
  let r := o.recip (S.A k k)
  { A := fun i j =>
      if k < i then
        if k < j then o.sub (S.A i j) (o.mul (o.mul (S.A i k) r) (S.A k j))
        else if j = k then o.zero else S.A i j
      else S.A i j
    B := fun i j => if k < i then o.sub (S.B i j) (o.mul (o.mul (S.A i k) r) (S.B k j))
      else S.B i j }

/-- Scaling the pivot row (matrix.tpl.hpp 274-280). -/
def scaleRow (k : Fin n) (S : State n X) : State n X :=
  let r := o.recip (S.A k k)
  { A := fun i j =>
      if i = k then if k < j then o.mul (S.A k j) r else if j = k then o.one else S.A i j
      else S.A i j
    B := fun i j => if i = k then o.mul (S.B k j) r else S.B i j }

/-- One stage of the elimination once the pivot row `q` is chosen
(matrix.tpl.hpp 246-280). -/
def stage (k q : Fin n) (S : State n X) : State n X :=
  scaleRow o k (eliminate o k (swapRows k q S))

/-- The forward elimination (matrix.tpl.hpp 231-281); `none` is
`SingularMatrixException`. -/
def forward : List (Fin n) → State n X → Option (State n X)
  | [], S => some S
  | k :: ks, S =>
    match pivot o S.A k with
    | none => none
    | some q => forward ks (stage o k q S)

/-- One step of the back-substitution (matrix.tpl.hpp 286-292). -/
def backStep (S : State n X) (k : Fin n) : State n X where
  A := fun i j => if i < k ∧ j = k then o.zero else S.A i j
  B := fun i j => if i < k then o.sub (S.B i j) (o.mul (S.A i k) (S.B k j)) else S.B i j

/-- The back-substitution (matrix.tpl.hpp 283-293), from the last row to the first. -/
def backward (S : State n X) : State n X := (List.finRange n).reverse.foldl (backStep o) S

/-- `lu_inverse` (matrix.tpl.hpp 214-298); `none` is `SingularMatrixException`. -/
def luInverse (M : Mat n n X) : Option (Mat n n X) :=
  (forward o (List.finRange n) ⟨M, identity o⟩).map fun S => (backward o S).B

/-- `lu_solve` and the generic `solve` (matrix.tpl.hpp 311-317, 440-449);
a vector is a matrix with one column. -/
def luSolve {p : ℕ} (A : Mat n n X) (B : Mat n p X) : Option (Mat n p X) :=
  (luInverse o A).map fun C => matMul (o.mul o.zero o.zero) o.add o.mul C B

/-! ### Triangular decomposition -/

/-- The matrices `L` and `U` and the pivots of `triangular_decomposition`
(matrix.tpl.hpp 584-591). -/
structure PLU (n : ℕ) (X : Type*) where
  P : Fin n → Fin n
  L : Mat n n X
  U : Mat n n X

/-- The pivot search (matrix.tpl.hpp 594-603).  As written, it looks at the entries
of the argument `A`, not at those of the partly reduced `U`. -/
def pluPivot (A : Mat n n X) (k : Fin n) : Fin n :=
  ((pivot o A k).getD k)

/-- One stage (matrix.tpl.hpp 593-631). -/
def pluStage (A : Mat n n X) (S : PLU n X) (k : Fin n) : PLU n X :=
  let l := pluPivot o A k
  let L1 : Mat n n X := fun i j =>
    if j < k then (if i = k then S.L l j else if i = l then S.L k j else S.L i j) else S.L i j
  let U1 : Mat n n X := fun i j =>
    if k ≤ j then (if i = k then S.U l j else if i = l then S.U k j else S.U i j) else S.U i j
  let r := o.recip (U1 k k)
  { P := Function.update S.P k l
    L := fun i j => if k < i ∧ j = k then o.mul (U1 i k) r else L1 i j
    U := fun i j =>
      if k < i then
        if k < j then o.sub (U1 i j) (o.mul (o.mul (U1 i k) r) (U1 k j))
        else if j = k then o.zero else U1 i j
      else U1 i j }

/-- `triangular_decomposition` (matrix.tpl.hpp 576-635).  Division by a zero pivot
(605, 619) is not detected by the code; it is left to `recip`. -/
def triangularDecomposition (A : Mat n n X) : PLU n X :=
  (List.finRange n).foldl (pluStage o A) ⟨id, identity o, A⟩

/-- `operator*(PivotMatrix,Matrix)` (matrix.tpl.hpp 514-524): swap row `i` with row
`pivot(i)`, for each `i` in turn. -/
def applyPivots {p : ℕ} (P : Fin n → Fin n) (A : Mat n p X) : Mat n p X :=
  (List.finRange n).foldl
    (fun A i => fun r j => if r = i then A (P i) j else if r = P i then A i j else A r j) A

end LU

/-! ### Interval linear systems -/

section Solve

open Ariadne

variable {K : Type*} [Field K] [LinearOrder K] [IsStrictOrderedRing K]
variable (R : XRounding K) {n p : ℕ}

/-- The operations of `Bounds<F>` (float_bounds.hpp 218-229, 271-272).  The comparison
of two `LowerBound`s yields an approximate truth value, whose `decide` is the
comparison of the stored numbers. -/
def boundsOps : Ops (Bounds K) where
  zero := ⟨.fin 0, .fin 0⟩
  one := ⟨.fin 1, .fin 1⟩
  add := Bounds.add R
  sub := Bounds.sub R
  mul := Bounds.mul R
  recip := Bounds.recip R
  gt := fun a b => Ext.lt (Bounds.mig b) (Bounds.mig a)

/-- The accumulated right-hand side `JB[i][j] - Sum{k!=i} JA[i][k]*R[k][j]`
(matrix.tpl.hpp 395-401, and 360-366 for a vector). -/
def gsRhs (JA : Mat n n (Bounds K)) (b : Bounds K) (x : Fin n → Bounds K) (i : Fin n) : Bounds K :=
  (List.finRange n).foldl
    (fun s k => if k ≠ i then Bounds.sub R s (Bounds.mul R (JA i k) (x k)) else s) b

/-- The update of one entry (matrix.tpl.hpp 394-405). -/
def gsEntry (JA : Mat n n (Bounds K)) (JB : Mat n p (Bounds K)) (X : Mat n p (Bounds K))
    (ij : Fin n × Fin p) : Mat n p (Bounds K) :=
  let r := gsRhs R JA (JB ij.1 ij.2) (fun k => X k ij.2) ij.1
  let d := JA ij.1 ij.1
  if Ext.lt (.fin 0) d.l || Ext.lt d.u (.fin 0) then
    fun i j => if i = ij.1 ∧ j = ij.2 then Bounds.refinement (X i j) (Bounds.div R r d) else X i j
  else X

/-- One Gauss-Seidel sweep (matrix.tpl.hpp 391-410; 354-371 for a vector). -/
def gsSweep (JA : Mat n n (Bounds K)) (JB : Mat n p (Bounds K)) (X : Mat n p (Bounds K)) :
    Mat n p (Bounds K) :=
  ((List.finRange n).flatMap fun i => (List.finRange p).map fun j => (i, j)).foldl
    (gsEntry R JA JB) X

/-- `gs_solve_bounds` (matrix.tpl.hpp 373-416) with the preconditioner `J`, the exact
cast of an approximate inverse of the midpoints (381-383), as an argument.
Simplification: its entries are finite numbers. -/
def gsSolve (J : Mat n n K) (A : Mat n n (Bounds K)) (B : Mat n p (Bounds K)) :
    Option (Mat n p (Bounds K)) :=
  let JE : Mat n n (Ext K) := fun i j => .fin (J i j)
  let z := Bounds.opMulFB R (.fin 0) ⟨.fin 0, .fin 0⟩
  let JA := matMul z (Bounds.add R) (Bounds.opMulFB R) JE A
  let JB := matMul z (Bounds.add R) (Bounds.opMulFB R) JE B
  (luSolve (boundsOps R) A B).map (gsSweep R JA JB)

/-- The dominance of row `i` in `dd_solve_bounds` (matrix.tpl.hpp 328-333). -/
def ddRow (A : Mat n n (Bounds K)) (i : Fin n) : Ext K :=
  (List.finRange n).foldl
    (fun s j => if j ≠ i then Ext.sub R.down s (Bounds.mag (A i j)) else s) (Bounds.mig (A i i))

/-- `dd_solve_bounds` (matrix.tpl.hpp 320-351); `none` is the exception for a matrix
that is not diagonally dominant. -/
def ddSolve (A : Mat n n (Bounds K)) (B : Mat n p (Bounds K)) : Option (Mat n p (Bounds K)) :=
  if (List.finRange n).all fun i => Ext.lt (.fin 0) (ddRow R A i) then
    some fun i j =>
      let c := Ext.recip R.up (ddRow R A i)
      Bounds.mul R (B i j) ⟨c.neg, c⟩
  else none

/-- `sup_norm` (matrix.tpl.hpp 181-195): the largest row sum of magnitudes, rounded up. -/
def supNorm {m : ℕ} (A : Mat m n (Bounds K)) : Ext K :=
  (List.finRange m).foldl (fun r i =>
    Ext.max ((List.finRange n).foldl (fun s j => Ext.add R.up s (Bounds.mag (A i j))) (.fin 0)) r)
    (.fin 0)

/-- `log_norm` (matrix.tpl.hpp 197-212): the largest `A[i][i]+Sum{j!=i}|A[i][j]|`, rounded
up.  `Bounds+PositiveUpperBound` is an `UpperBound`, so only upper endpoints matter. -/
def logNorm (A : Mat n n (Bounds K)) : Ext K :=
  (List.finRange n).foldl (fun r i =>
    Ext.max r ((List.finRange n).foldl
      (fun s j => if j ≠ i then Ext.add R.up s (Bounds.mag (A i j)) else s) (A i i).u))
    .ninf

end Solve

end Verif.Matrix
