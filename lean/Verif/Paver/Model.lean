import Verif.FunctionSet.Image
import Verif.Grid.Approx

/-!
# Pavers: outer approximations of constrained image sets on a grid

Model of source/geometry/paver.cpp.

Simplifications.

* Boxes, functions, contractions and splittings are those of `Verif.ConstraintSolver.Model` and
  `Verif.FunctionSet.Model`; grids, cells and pavings those of `Verif.Grid`.
* `hull_reduce` and the interval Jacobian matrix are parameters.
* The unbounded recursions and loops are given fuel; `none` stands for an execution which has not ended, a
  failed assertion, an access out of range, and for an unbounded image of which no primary cell is looked for.
* The interior-point steps called by the pavers have empty bodies (nonlinear_programming.hpp 247-254), so
  that their arguments keep the initial values; in particular `t` is zero.
* Logging is left out.
-/

namespace Verif.Paver

open Ariadne Ariadne.Logical Ariadne.BinaryTree Verif.ConstraintSolver Verif.FunctionSet
open Ariadne.Ext (fin)
open Verif.Grid (Cell Paving gridMap spaceBox cellSubset)

variable {n m k : ℕ} {K : Type*} [Field K] [LinearOrder K] [IsStrictOrderedRing K]

/-- The function, the constraint function with its codomain, `hull_reduce` for the procedure of a function
(paver.cpp 624-627) and the range of the Jacobian matrix. -/
structure Problem (n m k : ℕ) (K : Type*) where
  f : Fin m → Func n K
  g : Fin k → Func n K
  c : Fin k → Bounds K
  hull : Func n K → Bounds K → Contractor n K
  jac : Box n K → Fin m → Fin n → Bounds K

section
variable (R : Rounding K)

/-- The box of a cell in the state space, as a box of floating-point data. -/
def cellBox [NeZero m] (φ : Fin m → K → K) (c : Cell) : Box m K :=
  fun j => ⟨fin (spaceBox φ c.extent c.word j).1, fin (spaceBox φ c.extent c.word j).2⟩

/-- `depth()` of a cell (grid_cell.hpp 439-441). -/
def depth (m : ℕ) (c : Cell) : ℤ := (c.word.length : ℤ) - c.extent * m

/-- `apply(f,d)` (box.cpp 57-59). -/
def image (f : Fin m → Func n K) (B : Box n K) : Box m K := fun i => ConstraintSolver.apply (f i).ev B

/-- `cast_exact_box`, when all the end points are finite. -/
def finBox (B : Box m K) : Option (Grid.Box K m) :=
  if (List.finRange m).all fun j => match B j with
    | ⟨fin _, fin _⟩ => true
    | _ => false
  then some fun j => (num (B j).l, num (B j).u) else none

/-- The image of an empty box, which is the empty interval in every component (box.cpp 57-59). -/
def allEmpty (B : Box m K) : Bool := (List.finRange m).all fun j => match B j with
  | ⟨.pinf, .ninf⟩ => true
  | _ => false

/-- `smallest_enclosing_primary_cell(bx)` (grid_paving.cpp 184-187, 2044-2048).  The empty interval is inside
the first primary cell (62-79). -/
def rootCell [NeZero m] (o l : Fin m → K) (fuel : ℕ) (B : Box m K) : Option Cell :=
  if allEmpty B then some ⟨0, []⟩
  else (finBox B).bind fun b => (Grid.enclosingExtent R o l fuel b).map fun e => ⟨e, []⟩

/-! ## The paver by subdivision -/

/-- The constraint shown to be violated on the whole domain (paver.cpp 122-127); `bounds()` rounds
outwards. -/
def misses (s : VSet n m K) : Bool :=
  s.cs.any fun c =>
    Ext.lt (over (.ofRounding R) c.bnd).u (ConstraintSolver.apply c.fn.ev s.red).l ||
    Ext.lt (ConstraintSolver.apply c.fn.ev s.red).u (over (.ofRounding R) c.bnd).l

/-- The test whether the image is small (paver.cpp 130-136): `err` holds `max_errors`. -/
def small (err : Fin m → K) (B : Box m K) : Bool :=
  !(List.finRange m).any fun i => Ext.lt (fin (err i / 2)) (Ext.hlf (width (.ofRounding R) (B i)))

/-- `SubdivisionPaver::adjoin_outer_approximation_recursion` (paver.cpp 113-145); `gfuel` is the fuel for
the search of a primary cell.  A set with an empty bounding box is disjoint from the first cell looked at. -/
def subdivRec [NeZero m] (o l : Fin m → K) (gfuel fineness : ℕ) (err : Fin m → K) :
    ℕ → Paving → VSet n m K → Option Paving
  | 0, _, _ => none
  | fuel + 1, p, s =>
    if misses R s then some p
    else if small R err s.boundingBox then
      if allEmpty s.boundingBox then p.align m m true false id
      else (finBox s.boundingBox).bind fun b =>
        p.adjoinOuter R o l gfuel b (Grid.boxDisjoint b) (Grid.boxCovers b) fineness
    else
      (s.split (.ofRounding R)).bind fun q =>
        (subdivRec o l gfuel fineness err fuel p q.1).bind fun p' =>
          subdivRec o l gfuel fineness err fuel p' q.2

/-- `SubdivisionPaver::adjoin_outer_approximation` (paver.cpp 103-111). -/
def subdivPaver [NeZero m] (o l : Fin m → K) (gfuel fineness fuel : ℕ) (p : Paving) (s : VSet n m K) : Option Paving :=
  subdivRec R o l gfuel fineness (fun i => l i / 2 ^ fineness) fuel p s

/-! ## The affine paver -/

/-- One round over the domains still to be split (paver.cpp 176-187): `ni` is
`nonlinearity_index_and_error` of the joined function, `none` being the index `size()`. -/
def affineRound (ni : Box n K → Option (Fin n) × Ext K) (maxErr : K) :
    List (Box n K) → List (Box n K) × List (Box n K)
  | [] => ([], [])
  | d :: ds =>
    let r := affineRound ni maxErr ds
    match (ni d).1 with
    | none => (d :: r.1, r.2)
    | some j =>
      if Ext.lt (ni d).2 (fin maxErr) then (d :: r.1, r.2)
      else (r.1, (splitAt (.ofRounding R) d j).1 :: (splitAt (.ofRounding R) d j).2 :: r.2)

/-- The rounds (paver.cpp 174-192) for the given number of them. -/
def affineDomains (ni : Box n K → Option (Fin n) × Ext K) (maxErr : K) :
    ℕ → List (Box n K) → List (Box n K)
  | 0, ds => ds
  | i + 1, ds =>
    let r := affineRound R ni maxErr ds
    if r.2.isEmpty then r.1 else r.1 ++ affineDomains ni maxErr i r.2

/-- `AffinePaver::adjoin_outer_approximation` (paver.cpp 149-201) on the reduced domain `d`.
Simplification: `aff d p` adjoins the affine over-approximation of the set restricted to `d` to `p`. -/
def affinePaver (ni : Box n K → Option (Fin n) × Ext K) (fineness : ℕ)
    (aff : Box n K → Paving → Option Paving) (p : Paving) (d : Box n K) : Option Paving :=
  (affineDomains R ni (1 / 16 / 2 ^ fineness) 16 [d]).foldlM (fun p d => aff d p) p

/-! ## The paver by contraction -/

/-- `average_width` (paver.cpp 64-71), rounded upwards; the box of dimension zero gives NaN. -/
def averageWidth (B : Box n K) : Ext K :=
  if boxEmpty B then .ninf
  else Ext.div (XRounding.ofRounding R).up
    ((List.finRange n).foldl (fun s i => Ext.add (XRounding.ofRounding R).up s (width (.ofRounding R) (B i))) (fin 0))
    (fin (n : K))

/-- `maximum_scaled_width` (paver.cpp 73-79). -/
def maximumScaledWidth (B : Box m K) (l : Fin m → K) : Ext K :=
  (List.finRange m).foldl (fun r i =>
    Ext.max (Ext.div (XRounding.ofRounding R).up (width (.ofRounding R) (B i)) (fin (l i))) r) (fin 0)

/-- `strictly_smaller_by_factor` (paver.cpp 211-212). -/
def smallerBy (x y : Ext K) (s : K) : Bool := Ext.lt x (Ext.mul (XRounding.ofRounding R).down y (fin s))

/-- The bounded conditions: the components of `f` with the cell, then those of `g` with the codomain. -/
def conds (P : Problem n m k K) (b : Box m K) : List (Func n K × Bounds K) :=
  (List.finRange m).map (fun i => (P.f i, b i)) ++ (List.finRange k).map fun i => (P.g i, P.c i)

/-- One pass of hull reductions (paver.cpp 276-285), which stops when the domain is empty. -/
def hullPass (hull : Func n K → Bounds K → Contractor n K) : List (Func n K × Bounds K) → Box n K → Bool × Box n K
  | [], B => (false, B)
  | c :: cs, B =>
    let B' := hull c.1 c.2 B
    if boxEmpty B' then (true, B') else hullPass hull cs B'

/-- The loop of hull reductions (paver.cpp 274-288), with `old` the width `olddomwdth`. -/
def hullLoop (hull : Func n K → Bounds K → Contractor n K) (cs : List (Func n K × Bounds K)) :
    ℕ → Box n K → Ext K → Option (Bool × Box n K)
  | 0, _, _ => none
  | fuel + 1, B, old =>
    let r := hullPass hull cs B
    if r.1 then some r
    else if !boxEmpty r.2 && smallerBy R (averageWidth R r.2) old (3 / 4) then
      hullLoop hull cs fuel r.2 (averageWidth R r.2)
    else some (false, r.2)

/-- `lipschitz_index_and_error(f,d).first` (function_set.cpp 811-831); `none` stands for the index `size()`,
which is out of range. -/
def lipschitzIndex (J : Fin m → Fin n → Bounds K) (B : Box n K) : Option (Fin n) :=
  ((List.finRange n).foldl (fun (r : Option (Fin n) × Ext K) j =>
    let norm := Ext.mul (XRounding.ofRounding R).up
      ((List.finRange m).foldl (fun s i => Ext.add (XRounding.ofRounding R).up s (Bounds.mag (J i j))) (fin 0))
      (VSet.radius (.ofRounding R) (B j))
    if Ext.lt r.2 norm then (some j, norm) else r) (none, fin 0)).1

/-- The decision to split the domain (paver.cpp 312). -/
def splitsDomain (l : Fin m → K) (P : Problem n m k K) (maxDepth : ℤ) (B : Box n K) (c : Cell) (cb : Box m K) : Bool :=
  !smallerBy R (maximumScaledWidth R (image P.f B) l) (maximumScaledWidth R cb l) 4 ||
    (decide (maxDepth ≤ depth m c) && Ext.lt (maximumScaledWidth R cb l) (maximumScaledWidth R (image P.f B) l))

/-- The contraction of the domain (paver.cpp 257-288): the answer is true if the domain became empty. -/
def contract (P : Problem n m k K) (cb : Box m K) (fuel : ℕ) (B : Box n K) : Option (Bool × Box n K) :=
  (boxReduceAll (.ofRounding R) (jobs ((conds P cb).map fun c => (c.1.ev, c.2))) B).bind fun r =>
    if r.1 then some r else hullLoop R P.hull (conds P cb) fuel r.2 (averageWidth R r.2)

variable [NeZero m]

/-- `procedure_constraint_adjoin_outer_approximation_recursion` (paver.cpp 218-329). -/
def reduceRec (o l : Fin m → K) (P : Problem n m k K) (maxDepth : ℤ) :
    ℕ → Paving → Box n K → Cell → Option Paving
  | 0, _, _, _ => none
  | fuel + 1, p, B, c =>
    if cellSubset m c p.sub then some p
    else
      (contract R P (cellBox (gridMap R o l) c) fuel B).bind fun r =>
        if r.1 then some p
        else if disjointBox (image P.f r.2) (cellBox (gridMap R o l) c) || disjointBox P.c (image P.g r.2) then some p
        else if splitsDomain R l P maxDepth r.2 c (cellBox (gridMap R o l) c) then
          (lipschitzIndex R (P.jac r.2) r.2).bind fun j =>
            (reduceRec o l P maxDepth fuel p (splitAt (.ofRounding R) r.2 j).1 c).bind fun p' =>
              reduceRec o l P maxDepth fuel p' (splitAt (.ofRounding R) r.2 j).2 c
        else if maxDepth ≤ depth m c then p.adjoinCell m c
        else
          (reduceRec o l P maxDepth fuel p r.2 (c.split false)).bind fun p' =>
            reduceRec o l P maxDepth fuel p' r.2 (c.split true)

/-- `procedure_constraint_adjoin_outer_approximation` (paver.cpp 618-634), called by
`ReducePaver::adjoin_outer_approximation` (669-671). -/
def reducePaver (o l : Fin m → K) (gfuel : ℕ) (P : Problem n m k K) (fineness fuel : ℕ) (p : Paving) (d : Box n K) :
    Option Paving :=
  (rootCell R o l gfuel (image P.f d)).bind fun b =>
    (reduceRec R o l P ((fineness * m : ℕ) : ℤ) fuel p d b).map fun q => ⟨q.extent, q.tree.recombine⟩

/-! ## The constraint paver -/

/-- `radius()` of a box (box.tpl.hpp 127-136); the dimension is not zero. -/
def boxRadius (B : Box m K) : Ext K :=
  (List.finRange m).foldl (fun r i => Ext.max r (VSet.radius (.ofRounding R) (B i)))
    (VSet.radius (.ofRounding R) (B 0))

/-- `widen(bx,1)` (box.hpp 545-551, interval.inl.hpp 182-183). -/
def widen (B : Box k K) : Box k K := fun i =>
  ⟨Ext.sub (XRounding.ofRounding R).down (B i).l (fin 1), Ext.add (XRounding.ofRounding R).up (B i).u (fin 1)⟩

/-- `rc` (paver.cpp 608-609, 640): the codomain met with the widened range of the constraint function. -/
def reducedCodomain (P : Problem n m k K) (d : Box n K) : Box k K := interBox (widen R (image P.g d)) P.c

/-- `hotstarted_constraint_adjoin_outer_approximation_recursion` (paver.cpp 333-489).  The variables `t` and
`z` stay zero: the steps do nothing, the loop on lines 384-401 ends since the products `x.z` are zero, the test
`t<inf` succeeds, `t<TERR` fails since `TERR` is negative, and `t<=0` succeeds.  Simplification: the radii on line
465 are compared as numbers rounded upwards. -/
def constraintRec (o l : Fin m → K) (P : Problem n m k K) (rc : Box k K) (fineness : ℕ) :
    ℕ → Paving → Box n K → Cell → Option Paving
  | 0, _, _, _ => none
  | fuel + 1, p, d, b =>
    if cellSubset m b p.sub then some p
    else if disjointBox (image P.f d) (cellBox (gridMap R o l) b) || disjointBox (image P.g d) rc then some p
    else if Ext.lt (boxRadius R (cellBox (gridMap R o l) b)) (boxRadius R (image P.f d)) then
      (split (.ofRounding R) d).bind fun s =>
        (constraintRec o l P rc fineness fuel p s.1 b).bind fun p' => constraintRec o l P rc fineness fuel p' s.2 b
    else if ((fineness * m : ℕ) : ℤ) ≤ depth m b then p.adjoinCell m b
    else
      (constraintRec o l P rc fineness fuel p d (b.split false)).bind fun p' =>
        constraintRec o l P rc fineness fuel p' d (b.split true)

/-- `constraint_adjoin_outer_approximation` (paver.cpp 601-616), called by
`ConstraintPaver::adjoin_outer_approximation` (673-675). -/
def constraintPaver (o l : Fin m → K) (gfuel : ℕ) (P : Problem n m k K) (fineness fuel : ℕ) (p : Paving)
    (d : Box n K) : Option Paving :=
  (rootCell R o l gfuel (image P.f d)).bind fun b =>
    constraintRec R o l P (reducedCodomain R P d) fineness fuel p d b

/-! ## The optimal constraint paver -/

/-- The evaluation and the contractor of the combined function `xg` of paver.cpp 539-549, from the domain, the
multipliers `x` and the box `bx`. -/
structure Dual (n r : ℕ) (K : Type*) where
  ev : Box n K → (Fin ((r + n) * 2) → K) → Box r K → Fn n K
  hull : Box n K → (Fin ((r + n) * 2) → K) → Box r K → Contractor n K

/-- The new multipliers (paver.cpp 572, 586, 589), rounded to nearest. -/
def relax {r : ℕ} (x : Fin r → K) : Fin r → K :=
  fun i => R.near (R.near ((1 - 1 / 8) * x i) + R.near (1 / 8 / r))

/-- `hotstarted_optimal_constraint_adjoin_outer_approximation_recursion` (paver.cpp 492-595).  Since the steps do
nothing, `t` is zero, which is less than `TERR = 2^-10`, so that lines 534-577 are always executed. -/
def optimalRec (o l : Fin m → K) (D : Dual n (m + k) K) (rc : Box k K) (fineness : ℕ) :
    ℕ → Paving → Box n K → Cell → (Fin ((m + k + n) * 2) → K) → Option Paving
  | 0, _, _, _, _ => none
  | fuel + 1, p, d, b, x =>
    if cellSubset m b p.sub then some p
    else
      let bx : Box (m + k) K := Fin.append (cellBox (gridMap R o l) b) rc
      let nd := D.hull d x bx d
      if boxEmpty nd then some p
      else
        (boxReduceVars (.ofRounding R) (D.ev d x bx) ⟨fin 0, .pinf⟩ (List.finRange n) nd).bind fun r =>
          if r.1 then some p
          else
            (split (.ofRounding R) d).bind fun s =>
              (optimalRec o l D rc fineness fuel p s.1 b (relax R x)).bind fun p1 =>
                (optimalRec o l D rc fineness fuel p1 s.2 b x).bind fun p2 =>
                  if ((fineness * m : ℕ) : ℤ) ≤ depth m b then p2.adjoinCell m b
                  else
                    (optimalRec o l D rc fineness fuel p2 d (b.split false) (relax R x)).bind fun p3 =>
                      optimalRec o l D rc fineness fuel p3 d (b.split true) (relax R x)

/-- `optimal_constraint_adjoin_outer_approximation` (paver.cpp 636-664), called by
`OptimalConstraintPaver::adjoin_outer_approximation` (677-679) with the reduced domain.  The primary cell is the one
of the *constraint* function (639); the types of the code allow for any number `k` of constraints there, which is the
dimension of the grid of the cell only if `k = m`, so that here `k` is `m`. -/
def optimalPaver (o l : Fin m → K) (gfuel : ℕ) (P : Problem n m m K) (D : Dual n (m + m) K) (fineness fuel : ℕ)
    (p : Paving) (d : Box n K) : Option Paving :=
  (rootCell R o l gfuel (image P.g d)).bind fun b =>
    optimalRec R o l D (reducedCodomain R P d) fineness fuel p d b fun _ => R.near (1 / ((m + m + n) * 2 : ℕ))

end
end Verif.Paver
