import Verif.Affine.Convert
import Verif.LinearProgram.Props
import Verif.Paver.Props

/-!
# Affine constrained image sets

`ValidatedAffineConstrainedImageSet`, `source/geometry/affine_set.cpp`; line numbers without a file refer to this file.
The set consists of the points `f(p)` for parameters `p` in `[-1,+1]^np` with `l<=g(p)<=u`, where `f` and `g` are given
by affine models.

The coefficients and errors of the models and the boxes of cells are finite; boxes and bounds of constraints may be
infinite.  The rounding of the linear program and of the boxes is an `XRounding`, with overflow; that of the ranges of
models has no overflow (`Verif.Affine.Model`).  The steps of the linear solver are arbitrary, as in
`Verif.LinearProgram.Model`.  The variant with the simplex solver (458-640) and the drawing functions (641-860) are not
modelled.
-/

namespace Verif.AffineSet

open Ariadne (Ext Bounds XRounding Rounding)
open Ariadne.Ext (fin)
open Verif.Affine (AM)
open Verif.TaylorModel (Num)
open Verif.LinearProgram (Iter feasible)
open Verif.Grid (Cell Paving gridMap spaceBox cellSubset)
open Verif.ConstraintSolver (Box)

variable {K : Type*} [Field K] [LinearOrder K] [IsStrictOrderedRing K] {nx np nc : ℕ}

/-- `Constraint<AffineModel,Bounds>` (`source/function/constraint.hpp` 86-88): `lo<=fn<=hi`. -/
structure Con (np : ℕ) (K : Type*) where
  fn : AM np K
  lo : Bounds K
  hi : Bounds K

/-- The data (`affine_set.hpp` 104-106); the list of constraints is a family. -/
structure ASet (nx np nc : ℕ) (K : Type*) where
  domain : Fin np → K × K
  space : Fin nx → AM np K
  cons : Fin nc → Con np K

/-! ## Constructors -/

/-- Lines 155-163, 165-169 and 171-175: from models. -/
def ofModels (d : Fin np → K × K) (f : Fin nx → AM np K) (c : Fin nc → Con np K) : ASet nx np nc K := ⟨d, f, c⟩

/-- Lines 182-195: `construct`, the set `{Gy+h | y in D}`.  The domain is stored, but the models are those of functions
on the unit box. -/
def ofMatrix (d : Fin np → K × K) (G : Fin nx → Fin np → K) (h : Fin nx → K) : ASet nx np 0 K :=
  ⟨d, fun i => ⟨h i, G i, 0⟩, Fin.elim0⟩

/-- Lines 117-120: the set of the points of a box. -/
def ofBox (R : Rounding K) (d : Fin nx → K × K) : Option (Fin nx → AM nx K) :=
  if h : ∀ i, (Affine.scaling R nx i (d i).1 (d i).2).isSome then
    some fun i => (Affine.scaling R nx i (d i).1 (d i).2).get (h i)
  else none

/-- Lines 123-133: the set `{f(s) | s in D}`.  If `D` is not the unit box the models remain zero. -/
def ofAffines (R : Rounding K) (d : Fin np → K × K) (c : Fin nx → Num K) (g : Fin nx → Fin np → Num K) :
    Option (ASet nx np 0 K) :=
  if ∀ j, d j = (-1, 1) then
    if h : ∀ i, (Affine.ofAffine R (c i) (g i)).isSome then
      some ⟨d, fun i => (Affine.ofAffine R (c i) (g i)).get (h i), Fin.elim0⟩
    else none
  else some ⟨d, fun _ => Affine.zero np, Fin.elim0⟩

/-- Lines 93-100: `make_domain` for an interval with balls `l±le` and `u±ue` as end points.  `single` rounds to single
precision.  Line 98 takes the maximum of *two equal* terms, both for the lower end point. -/
def makeDomain (R : Rounding K) (single : K → K) (l le u : K) : (K × K) × K :=
  let dl := single l
  let du := single u
  let m := max |R.down (l - dl)| |R.up (l - dl)|
  ((dl, du), max (R.up (m + le)) (R.up (m + le)))

/-- Lines 102-115: the set of the points of a box whose end points are balls. -/
def ofBalls (R : Rounding K) (single : K → K) (b : Fin nx → (K × K) × (K × K)) (i : Fin nx) : Option (AM nx K) :=
  let d := makeDomain R single (b i).1.1 (b i).1.2 (b i).2.1
  (Affine.scaling R nx i d.1.1 d.1.2).bind fun a => (Affine.eadd R a.err d.2).map fun e => { a with err := e }

/-! ## Linear programs -/

/-- Lines 388-415: the matrix `(-I G 0; 0 C I)`, for the variables `x`, `p`, `s`. -/
def matrix (S : ASet nx np nc K) : Fin (nx + nc) → Fin (nx + np + nc) → K :=
  Fin.append
    (fun i => Fin.append (Fin.append (fun j => if j = i then -1 else 0) (S.space i).grad) fun _ => 0)
    (fun i => Fin.append (Fin.append (fun _ => 0) (S.cons i).fn.grad) fun j => if j = i then 1 else 0)

/-- Lines 401, 414: the right-hand side. -/
def rhs (S : ASet nx np nc K) : Fin (nx + nc) → K :=
  Fin.append (fun i => -(S.space i).val) fun i => -(S.cons i).fn.val

/-- Lines 417-426: the lower bounds, with the bounds `l` on `x`.  The domain is ignored (418-419), as are the errors of
the models of the constraints; of the bounds of a constraint only `value()` is used. -/
def lower (X : XRounding K) (S : ASet nx np nc K) (l : Fin nx → Ext K) : Fin (nx + np + nc) → Ext K :=
  Fin.append (Fin.append l fun _ => fin (-1)) fun i => Ext.neg (Bounds.value X (S.cons i).hi)

/-- Lines 417-426: the upper bounds. -/
def upper (X : XRounding K) (S : ASet nx np nc K) (u : Fin nx → Ext K) : Fin (nx + np + nc) → Ext K :=
  Fin.append (Fin.append u fun _ => fin 1) fun i => Ext.neg (Bounds.value X (S.cons i).lo)

/-- Lines 269-280 and 321-338: feasibility of the linear program for a box, whose bounds are moved outwards by the errors
of the models. -/
def meets (X : XRounding K) (S : ASet nx np nc K) (b : Box nx K) (s : ℕ → Iter (nx + nc) (nx + np + nc) K) :
    Option (Option Bool) :=
  feasible X (lower X S fun i => Ext.sub X.down (b i).l (fin (S.space i).err))
    (upper X S fun i => Ext.add X.up (b i).u (fin (S.space i).err)) (matrix S) (rhs S) s

/-! ## Predicates -/

/-- Lines 253-260: `bounding_box`. -/
def boundingBox (R : Rounding K) (S : ASet nx np nc K) : Option (Fin nx → Num K) :=
  if h : ∀ i, (Affine.range R (S.space i)).isSome then some fun i => (Affine.range R (S.space i)).get (h i) else none

/-- The bounding box as a box of floating-point data. -/
def asBox (b : Fin nx → Num K) : Box nx K := fun i => ⟨fin (b i).l, fin (b i).u⟩

/-- Lines 266-285: `separated`.  `w` is the smallest positive number, by which `widen` moves the bounds
(`source/geometry/box.hpp` 561-567, `interval.inl.hpp` 184-187).  The outer `none` is an exception, the inner `none` is
indeterminate. -/
def separated (X : XRounding K) (w : K) (S : ASet nx np nc K) (b : Box nx K)
    (s : ℕ → Iter (nx + nc) (nx + np + nc) K) : Option (Option Bool) :=
  (meets X S (fun i => Bounds.widen X w (b i)) s).map fun r => r.map fun v => !v

/-- Lines 287-289: `is_empty`; the disjunction with indeterminate leaves `true` only. -/
def isEmpty (R : Rounding K) (X : XRounding K) (w : K) (S : ASet nx np nc K)
    (s : ℕ → Iter (nx + nc) (nx + np + nc) K) : Option (Option Bool) :=
  (boundingBox R S).bind fun b => (separated X w S (asBox b) s).map fun r => if r = some true then some true else none

/-- Lines 291-294: `inside`, whether it is certainly true: the widened bounding box has its end points strictly between
those of the box (`source/geometry/interval.inl.hpp` 112-113). -/
def inside (R : Rounding K) (X : XRounding K) (w : K) (S : ASet nx np nc K) (b : Box nx K) : Option Bool :=
  (boundingBox R S).map fun bb => (List.finRange nx).all fun i =>
    Ext.lt (b i).l (Bounds.widen X w (asBox bb i)).l && Ext.lt (Bounds.widen X w (asBox bb i)).u (b i).u

/-! ## Outer approximation -/

/-- Lines 311-352: `_adjoin_outer_approximation_to`.  `s` are the steps of the linear solver for a cell. -/
def adjoinRec [NeZero nx] (R : Rounding K) (X : XRounding K) (o l : Fin nx → K) (S : ASet nx np nc K)
    (s : Cell → ℕ → Iter (nx + nc) (nx + np + nc) K) (fineness : ℕ) : ℕ → Paving → Cell → Option Paving
  | 0, _, _ => none
  | fuel + 1, p, c =>
    if cellSubset nx c p.sub then some p
    else (meets X S (Paver.cellBox (gridMap R o l) c) (s c)).bind fun r =>
      if r = some false then some p
      else if ((fineness * nx : ℕ) : ℤ) ≤ Paver.depth nx c then p.adjoinCell nx c
      else (adjoinRec R X o l S s fineness fuel p (c.split false)).bind fun q =>
        adjoinRec R X o l S s fineness fuel q (c.split true)

/-- Lines 438-453: `adjoin_outer_approximation_to`. -/
def adjoinOuter [NeZero nx] (R : Rounding K) (X : XRounding K) (o l : Fin nx → K) (gfuel : ℕ) (S : ASet nx np nc K)
    (s : Cell → ℕ → Iter (nx + nc) (nx + np + nc) K) (fineness fuel : ℕ) (p : Paving) : Option Paving :=
  (boundingBox R S).bind fun b => (Paver.rootCell R o l gfuel (asBox b)).bind fun c =>
    adjoinRec R X o l S s fineness fuel p c

/-- Lines 303-308: `outer_approximation`. -/
def outerApproximation [NeZero nx] (R : Rounding K) (X : XRounding K) (o l : Fin nx → K) (gfuel : ℕ)
    (S : ASet nx np nc K) (s : Cell → ℕ → Iter (nx + nc) (nx + np + nc) K) (fineness fuel : ℕ) : Option Paving :=
  adjoinOuter R X o l gfuel S s fineness fuel (Paving.init false)

end Verif.AffineSet
