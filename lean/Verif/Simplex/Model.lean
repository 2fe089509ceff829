import Verif.Matrix.Model
import Verif.Logical.Model

/-!
# Validating the outcome of the simplex method

Model of the part of source/solvers/simplex_algorithm.cpp which validates a basis: `compute_vt`,
`compute_p`, `compute_B`, `compute_x`, `compute_c`, `compute_y`, `compute_z` and
`SimplexSolver<X>::verify_feasibility`, for `X` the double-precision numbers, so that
`RigorousNumericType<X>` is `FloatDPBounds`.  The problem is to find `x` with `A x = b` and
`xl <= x <= xu`, with `A` of `m` rows and `n` columns.  The entries of `A` and `b` are finite numbers;
the bounds `xl`, `xu` may be infinite.
-/

namespace Verif.Simplex

open Ariadne Ariadne.Logical Ariadne.Logical.LV Verif.Matrix

/-- `Slackness` (linear_programming.hpp 138-143). -/
inductive Slackness where
  | lower | basis | upper | fixed
deriving DecidableEq

variable {K : Type*} [Field K] [LinearOrder K] [IsStrictOrderedRing K] {m n : ℕ}

/-- `compute_p` (simplex_algorithm.cpp 283-296): the basic indices in order, then the others. -/
def computeP (vt : Fin n → Slackness) : List (Fin n) :=
  (List.finRange n).filter (fun j => vt j = .basis) ++ (List.finRange n).filter (fun j => vt j ≠ .basis)

/-- `compute_vt` (259-280): the first `m` indices of `p` are basic, the others are at the lower bound
if that is more than minus infinity, else at the upper bound if that is less than infinity; `none` is
the exception. -/
def computeVt (xl xu : Fin n → Ext K) (p : List (Fin n)) (m : ℕ) : Option (Fin n → Slackness) :=
  (p.drop m).foldlM (fun vt j =>
      if Ext.lt .ninf (xl j) then some (Function.update vt j .lower)
      else if Ext.lt (xu j) .pinf then some (Function.update vt j .upper)
      else none)
    ((p.take m).foldl (fun vt j => Function.update vt j .basis) fun _ => .lower)

section

variable (R : XRounding K)

/-- A number as bounds, `Bounds<F>(F)` (float_bounds.hpp 101). -/
def point (x : Ext K) : Bounds K := ⟨x, x⟩

/-- `x<=y`, the negation of `y<x` (arithmetic.hpp 650-653, float_bounds.hpp 433-442). -/
def leq (x y : Bounds K) : LV := not_ (Bounds.lt y x)

/-- The matrix `A_B` of `compute_B` (simplex_algorithm.cpp 404-411); `p k` is the `k`-th index. -/
def basisMatrix (A : Mat m n K) (p : Fin m → Fin n) : Mat m m (Bounds K) :=
  fun i k => point (.fin (A i (p k)))

/-- `compute_B` (399-416): the inverse of `A_B`, `none` if it throws (matrix.cpp 52-58). -/
def computeB (A : Mat m n K) (p : Fin m → Fin n) : Option (Mat m m (Bounds K)) :=
  luInverse (boundsOps R) (basisMatrix A p)

/-- The non-basic values (476-481). -/
def startX (xl xu : Fin n → Ext K) (vt : Fin n → Slackness) : Fin n → Bounds K :=
  fun j => match vt j with
    | .lower => point (xl j)
    | .upper => point (xu j)
    | _ => point (.fin 0)

/-- `w = b - A_N x_N` (483-490), where `q` lists the indices `p[m],...,p[n-1]`. -/
def computeW (A : Mat m n K) (b : Fin m → K) (q : List (Fin n)) (x : Fin n → Bounds K) :
    Fin m → Bounds K :=
  fun i => q.foldl (fun s j => Bounds.sub R s (Bounds.opMulFB R (.fin (A i j)) (x j)))
    (point (.fin (b i)))

/-- Row `k` of `B w` (495-498). -/
def rowTimes (B : Mat m m (Bounds K)) (w : Fin m → Bounds K) (k : Fin m) : Bounds K :=
  (List.finRange m).foldl (fun s i => Bounds.add R s (Bounds.mul R (B k i) (w i))) (point (.fin 0))

/-- `compute_x` (464-504) without the final assertion. -/
def computeX (xl xu : Fin n → Ext K) (A : Mat m n K) (b : Fin m → K) (vt : Fin n → Slackness)
    (p : Fin m → Fin n) (q : List (Fin n)) (B : Mat m m (Bounds K)) : Fin n → Bounds K :=
  let x := startX xl xu vt
  let w := computeW R A b q x
  (List.finRange m).foldl (fun x k => Function.update x (p k) (rowTimes R B w k)) x

/-- `compute_c` (445-459): `-1` if the variable may be at most its lower bound, else `1` if it may be
at least its upper bound, else `0`; `none` if a variable may violate both bounds (454-456). -/
def computeC (xl xu : Fin n → Ext K) (p : Fin m → Fin n) (x : Fin n → Bounds K) :
    Option (Fin n → K) :=
  (List.finRange m).foldlM (fun c k =>
      let j := p k
      let c' := if possibly (leq (x j) (point (xl j))) then Function.update c j (-1)
        else if possibly (leq (point (xu j)) (x j)) then Function.update c j 1 else c
      if possibly (Bounds.lt (x j) (point (xl j))) && possibly (Bounds.lt (point (xu j)) (x j))
      then none else some c')
    (fun _ => 0)

/-- `compute_y` (554-567). -/
def computeY (c : Fin n → K) (p : Fin m → Fin n) (B : Mat m m (Bounds K)) : Fin m → Bounds K :=
  fun i => (List.finRange m).foldl
    (fun s k => Bounds.add R s (Bounds.opMulFB R (.fin (c (p k))) (B k i)))
    (Bounds.opMulFB R (.fin 0) (point (.fin 0)))

/-- `compute_z` (569-593); every index is an element of `p`, and the comparison with the cutoff
threshold has no effect. -/
def computeZ (A : Mat m n K) (c : Fin n → K) (y : Fin m → Bounds K) : Fin n → Bounds K :=
  fun j => (List.finRange m).foldl
    (fun s i => Bounds.sub R s (Bounds.opMulBF R (y i) (.fin (A i j)))) (point (.fin (c j)))

/-- The loop over the basic variables (1388-1399); a `false` ends it. -/
def basicLoop (xl xu x : Fin n → Bounds K) : LV → List (Fin n) → LV
  | fs, [] => fs
  | fs, j :: l =>
    if possibly (leq (x j) (xl j)) || possibly (leq (xu j) (x j)) then
      if definitely (Bounds.lt (x j) (xl j)) || definitely (Bounds.lt (xu j) (x j)) then .false_
      else basicLoop xl xu x .indeterminate l
    else basicLoop xl xu x fs l

/-- The loop over the non-basic variables (1409-1413). -/
def nonbasicLoop (vt : Fin n → Slackness) (z : Fin n → Bounds K) : LV → List (Fin n) → LV
  | fs, [] => fs
  | fs, j :: l =>
    if vt j = .lower ∧ possibly (leq (z j) (point (.fin 0))) then .indeterminate
    else if vt j = .upper ∧ possibly (leq (point (.fin 0)) (z j)) then .indeterminate
    else nonbasicLoop vt z fs l

/-- `SimplexSolver<X>::verify_feasibility` (1343-1426).  The outcome `none` stands for every failed
assertion and exception.  The final assertion of `compute_x` (500-502), that the midpoint of `A x - b`
is small, is the parameter `ok`, so that the theorems hold whatever it tests.  The sizes of the
arguments (1352-1355) are those of the types; `hmn` says that `p` has `m` elements, without which the
code reads past the end of `p`.  The braces of 1362-1369 repeat the computation of 1371-1383. -/
def verifyFeasibility (ok : (Fin n → Bounds K) → Bool) (hmn : m ≤ n) (xl xu : Fin n → Ext K)
    (A : Mat m n K) (b : Fin m → K) (vt : Fin n → Slackness) : Option LV :=
  let p := computeP vt
  let pk : Fin m → Fin n := fun k => p.getD k ⟨k, k.2.trans_le hmn⟩
  let q := p.drop m
  if ∃ j, Ext.eq (xl j) (xu j) = true ∧ vt j = .basis then none
  else (computeB R A pk).bind fun B =>
    let x := computeX R xl xu A b vt pk q B
    if ok x then
      (computeC xl xu pk x).map fun c =>
        let y := computeY R c pk B
        let z := computeZ R A c y
        let fs := basicLoop (fun j => point (xl j)) (fun j => point (xu j)) x .true_
          ((List.finRange m).map pk)
        if definitely fs then fs else nonbasicLoop vt z fs q
    else none

end

end Verif.Simplex
