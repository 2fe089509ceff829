import Verif.ConstraintSolver.Dual

/-!
# Constraint sets and constrained image sets

Model of source/geometry/function_set.cpp and function_set.hpp.

Simplifications.

* A function is a pair of its real values and its interval evaluation (`Func`).  That the second
  encloses the first is a hypothesis of the theorems (`Func.Ok`), not part of the model.
* `RealBox`, and the bounds of an `EffectiveConstraint` or `ValidatedConstraint`, have end points in an
  ordered field `K` (or infinite) which need not be floating-point numbers.  Conversion to
  `ExactBoxType` rounds them once.
* The dimensions of boxes and functions are part of the types, so that the assertions about sizes are
  not modelled, except where the sizes really differ in the code.
* The hull contractor, the optimiser of the constraint solver and the optimiser used by `overlaps` are
  parameters.  The contractions and the feasibility test themselves are those of
  `Verif.ConstraintSolver.Model`; `none` has the meaning it has there.
* `Effort` is not used by the code, and is left out; so are drawing, printing, the affine
  approximations and `join`.
-/

namespace Verif.FunctionSet

open Ariadne Ariadne.Logical Verif.ConstraintSolver
open Ariadne.Ext (fin)

variable {n m k : ℕ} {K : Type*} [Field K] [LinearOrder K] [IsStrictOrderedRing K]

/-- `EffectiveScalarMultivariateFunction`, `ValidatedScalarMultivariateFunction`. -/
structure Func (n : ℕ) (K : Type*) where
  val : (Fin n → K) → K
  ev : Fn n K

/-- `compose(h,f)`. -/
def compose (h : Func m K) (f : Fin m → Func n K) : Func n K :=
  ⟨fun p => h.val fun i => (f i).val p, fun B => h.ev fun i => (f i).ev B⟩

/-- The identity function, component by component. -/
def ident (i : Fin n) : Func n K := ⟨fun p => p i, fun B => B i⟩

/-- `EffectiveConstraint`, `ValidatedConstraint` (function/constraint.hpp 40-89): `bnd` holds
`_lower_bound` and `_upper_bound`. -/
structure Constr (n : ℕ) (K : Type*) where
  fn : Func n K
  bnd : Bounds K

variable (R : XRounding K)

/-- Rounding of an end point. -/
def roundExt (r : K → Ext K) : Ext K → Ext K
  | fin x => r x
  | e => e

/-- `over_approximation` of an interval (function_set.cpp 205-207, and one component of 214-217);
also `Constraint::bounds()` (constraint.hpp 84). -/
def over (b : Bounds K) : Bounds K := ⟨roundExt R.down b.l, roundExt R.up b.u⟩

/-- `under_approximation` (function_set.cpp 209-212), one component. -/
def under (b : Bounds K) : Bounds K := ⟨roundExt R.up b.l, roundExt R.down b.u⟩

/-- `over_approximation(RealBox)` (function_set.cpp 214-217). -/
def overBox (B : Box n K) : Box n K := fun i => over R (B i)

/-- `under_approximation(RealBox)` (function_set.cpp 209-212). -/
def underBox (B : Box n K) : Box n K := fun i => under R (B i)

/-- `intersection` of boxes (box.hpp 344-348). -/
def interBox (A B : Box n K) : Box n K := fun i => Bounds.refinement (A i) (B i)

/-- `disjoint` of boxes (box.hpp 372-376). -/
def disjointBox (A B : Box n K) : Bool := (List.finRange n).any fun i => disjoint (A i) (B i)

/-- `intersect` of boxes (box.hpp 379-383, interval.inl.hpp 102-103). -/
def intersectBox (A B : Box n K) : Bool :=
  (List.finRange n).all fun i => Ext.le (A i).l (B i).u && Ext.le (B i).l (A i).u

/-- `inside` of intervals (interval.inl.hpp 112-113). -/
def insideIvl (a b : Bounds K) : Bool := Ext.lt b.l a.l && Ext.lt a.u b.u

/-- `inside` of boxes (box.hpp 428-431). -/
def insideBox (A B : Box n K) : Bool := (List.finRange n).all fun i => insideIvl (A i) (B i)

/-- `covers` of boxes (box.hpp 407-411, interval.inl.hpp 115-116). -/
def coversBox (A B : Box n K) : Bool :=
  (List.finRange n).all fun i => Ext.lt (A i).l (B i).l && Ext.lt (B i).u (A i).u

/-- `subset` of intervals (interval.inl.hpp 93-94). -/
def subsetIvl (a b : Bounds K) : Bool := Ext.le b.l a.l && Ext.le a.u b.u

/-- The external tools: the hull contractor for a list of constraints; the optimiser of the constraint
solver, with the evaluation and the contractor of the combined function; the number of rounds; and the
answer of `NonlinearInfeasibleInteriorPointOptimiser::feasible(D,g,C)`. -/
structure Tools (n : ℕ) (K : Type*) where
  hull : List (Func n K × Bounds K) → Contractor n K
  opt : (cs : List (Func n K × Bounds K)) → Box n K → OptResult n cs.length K
  txg : (cs : List (Func n K × Bounds K)) → Box n K → (Fin ((cs.length + n) * 2) → K) → Fn n K
  dhull : (cs : List (Func n K × Bounds K)) → Box n K → (Fin ((cs.length + n) * 2) → K) → Contractor n K
  fuel : ℕ
  optimiser : Box n K → List (Func n K × Bounds K) → LV

/-- `ConstraintSolver::reduce(domain,function,codomain)` for the components `cs`. -/
def reduceAll (T : Tools n K) (cs : List (Func n K × Bounds K)) (B : Box n K) : Option (Bool × Box n K) :=
  ConstraintSolver.reduce R (T.hull cs) (cs.map fun c => (c.1.ev, c.2)) T.fuel B

/-- `ConstraintSolver::feasible(domain,constraints).first` (constraint_solver.cpp 82-96); line 93 takes
`bounds()`, which rounds outwards. -/
def feasibleAll (T : Tools n K) (cs : List (Constr n K)) (d : Box n K) : Option LV :=
  let l := cs.map fun c => (c.fn, over R c.bnd)
  (feasibleList R (T.opt l) (T.txg l) (T.dhull l) (fun j => (l.get j).1.ev) (fun j => (l.get j).2)
    T.fuel d).map Prod.fst

/-- The second part of `satisfies` (function_set.cpp 625-636, 1125-1136), for the composed function `g`
with bounds `b` on the domain `d` with constraints `cs`.  The variable `result` is initialised by the
default constructor, which is `true` (logical.hpp 503). -/
def satisfiesBounds (T : Tools n K) (cs : List (Constr n K)) (g : Func n K) (b : Bounds K) (d : Box n K) :
    Option LV :=
  let lower (res : LV) : Option LV :=
    if Ext.lt .ninf b.l then
      (feasibleAll R T (cs ++ [⟨g, ⟨.ninf, b.l⟩⟩]) d).map fun r => LV.not_ (LV.or_ res r)
    else some (LV.not_ res)
  if Ext.lt b.u .pinf then
    (feasibleAll R T (cs ++ [⟨g, ⟨b.u, .pinf⟩⟩]) d).bind fun r =>
      if LV.definitely r then some .false_ else lower r
  else lower .true_

/-! ## Validated constrained image sets -/

/-- `ValidatedConstrainedImageSet` (function_set.hpp 286-293). -/
structure VSet (n m : ℕ) (K : Type*) where
  dom : Box n K
  red : Box n K
  fn : Fin m → Func n K
  cs : List (Constr n K)

namespace VSet

/-- The constructors (function_set.hpp 298-308). -/
def make (d : Box n K) (f : Fin m → Func n K) (cs : List (Constr n K)) : VSet n m K := ⟨d, d, f, cs⟩

/-- `apply(h)` (function_set.hpp 325-327). -/
def apply (s : VSet n m K) (h : Fin k → Func m K) : VSet n k K :=
  ⟨s.dom, s.red, fun i => compose (h i) s.fn, s.cs⟩

/-- `new_parameter_constraint(c)` (function_set.hpp 330-333). -/
def newParameterConstraint (s : VSet n m K) (c : Constr n K) : VSet n m K :=
  { s with cs := s.cs ++ [c] }

/-- `new_space_constraint(c)` (function_set.hpp 336-339). -/
def newSpaceConstraint (s : VSet n m K) (c : Constr m K) : VSet n m K :=
  { s with cs := s.cs ++ [⟨compose c.fn s.fn, c.bnd⟩] }

/-- `constraint_function()` with `constraint_bounds()` (function_set.cpp 895-907). -/
def conds (s : VSet n m K) : List (Func n K × Bounds K) := s.cs.map fun c => (c.fn, over R c.bnd)

/-- `reduce()` (function_set.cpp 1010-1016). -/
def reduce (T : Tools n K) (s : VSet n m K) : Option (VSet n m K) :=
  (reduceAll R T (s.conds R) s.red).map fun r => { s with red := r.2 }

/-- `is_empty()` (function_set.cpp 1018-1022); the set is changed as well. -/
def isEmpty (T : Tools n K) (s : VSet n m K) : Option (LV × VSet n m K) :=
  (s.reduce R T).map fun s' => (LV.ofBool (boxEmpty s'.red), s')

/-- `bounding_box()` (function_set.cpp 910-914). -/
def boundingBox (s : VSet n m K) : Box m K := fun i => ConstraintSolver.apply (s.fn i).ev s.red

/-- `inside(bx)` (function_set.cpp 1024-1027). -/
def inside (s : VSet n m K) (bx : Box m K) : Bool := insideBox s.boundingBox bx

/-- The function and codomain of lines 1032-1036 and 1048-1053. -/
def joined (s : VSet n m K) (bx : Box m K) (c : List (Func n K × Bounds K)) : List (Func n K × Bounds K) :=
  (List.finRange m).map (fun i => (s.fn i, bx i)) ++ c

/-- `separated(bx)` (function_set.cpp 1029-1040). -/
def separated (T : Tools n K) (s : VSet n m K) (bx : Box m K) : Option Bool :=
  (reduceAll R T (s.joined bx (s.conds R)) s.red).map fun r => boxEmpty r.2

/-- The loop of `overlaps` (function_set.cpp 1063-1078), with the stack of subdomains; both pieces of a
split subdomain are pushed, the second on top.  `none` when the stack is not exhausted. -/
def overlapsLoop (T : Tools n K) (cs : List (Func n K × Bounds K)) :
    ℕ → List (ℕ × Box n K) → Option Bool
  | _, [] => some false
  | 0, _ => none
  | fuel + 1, (s, d) :: rest =>
    match T.optimiser d cs with
    | .true_ => some true
    | .false_ => overlapsLoop T cs fuel rest
    | _ =>
      if s = 2 then overlapsLoop T cs fuel rest
      else (split R d).bind fun p => overlapsLoop T cs fuel ((s + 1, p.2) :: (s + 1, p.1) :: rest)

/-- `overlaps(bx)` (function_set.cpp 1042-1080): `MAX_SPLITTINGS` is 2, so that at most seven
subdomains are considered. -/
def overlaps (T : Tools n K) (s : VSet n m K) (bx : Box m K) : Option Bool :=
  let cb := (s.conds R).map fun c => (c.1, Bounds.refinement c.2 (ConstraintSolver.apply c.1.ev s.red))
  overlapsLoop R T (s.joined bx cb) 8 [(0, s.red)]

/-- `split(j)` (function_set.cpp 957-974). -/
def splitAt (s : VSet n m K) (j : Fin n) : VSet n m K × VSet n m K :=
  let p := ConstraintSolver.splitAt R s.dom j
  (make (interBox p.1 s.red) s.fn s.cs, make (interBox p.2 s.red) s.fn s.cs)

/-- `radius()` of an interval (interval.inl.hpp 49), rounded upwards. -/
def radius (b : Bounds K) : Ext K :=
  Ext.max (Ext.sub R.up b.u (Bounds.value R b)) (Ext.sub R.up (Bounds.value R b) b.l)

/-- The search for the coordinate of greatest radius (function_set.cpp 979-987); `none` stands for the
index `number_of_parameters()`, which is out of range. -/
def widest (d : Box n K) : Option (Fin n) :=
  ((List.finRange n).foldl (fun (r : Option (Fin n) × Ext K) j =>
    if Ext.lt r.2 (radius R (d j)) then (some j, radius R (d j)) else r) (none, .ninf)).1

/-- `split()` (function_set.cpp 976-989). -/
def split (s : VSet n m K) : Option (VSet n m K × VSet n m K) := (widest R s.dom).map (s.splitAt R)

/-- `restriction(new_domain)` (function_set.cpp 996-1008): `none` if the assertion on line 999 fails. -/
def restriction (s : VSet n m K) (d : Box n K) : Option (VSet n m K) :=
  if (List.finRange n).all fun i => subsetIvl (d i) (s.dom i) then some (make d s.fn s.cs) else none

/-- `satisfies(c)` (function_set.cpp 1113-1137). -/
def satisfies (T : Tools n K) (s : VSet n m K) (c : Constr m K) : Option LV :=
  if subsetIvl (ConstraintSolver.apply c.fn.ev s.boundingBox) (over R c.bnd) then some .true_
  else satisfiesBounds R T s.cs (compose c.fn s.fn) (over R c.bnd) s.dom

end VSet

/-! ## Constrained image sets -/

/-- `ConstrainedImageSet` (function_set.hpp 190-192). -/
structure ISet (n m : ℕ) (K : Type*) where
  dom : Box n K
  fn : Fin m → Func n K
  cs : List (Constr n K)

namespace ISet

/-- `apply(h)` (function_set.hpp 224-226); `image(set,h)` (function_set.cpp 725-727). -/
def apply (s : ISet n m K) (h : Fin k → Func m K) : ISet n k K := ⟨s.dom, fun i => compose (h i) s.fn, s.cs⟩

/-- `new_parameter_constraint(c)` (function_set.hpp 229-231). -/
def newParameterConstraint (s : ISet n m K) (c : Constr n K) : ISet n m K := { s with cs := s.cs ++ [c] }

/-- `new_space_constraint(c)` (function_set.hpp 234-236). -/
def newSpaceConstraint (s : ISet n m K) (c : Constr m K) : ISet n m K :=
  { s with cs := s.cs ++ [⟨compose c.fn s.fn, c.bnd⟩] }

/-- `bounding_box()` (function_set.cpp 580-583). -/
def boundingBox (s : ISet n m K) : Box m K := fun i => ConstraintSolver.apply (s.fn i).ev (overBox R s.dom)

/-- `inside(bx,eff)` (function_set.cpp 659-661). -/
def inside (s : ISet n m K) (bx : Box m K) : Bool := insideBox (s.boundingBox R) bx

/-- `separated(bx,eff)` (function_set.cpp 663-671). -/
def separated (T : Tools n K) (s : ISet n m K) (bx : Box m K) : Option Bool :=
  (VSet.make (overBox R s.dom) s.fn s.cs).separated R T bx

/-- `overlaps(bx,eff)` (function_set.cpp 673-676). -/
def overlaps (T : Tools n K) (s : ISet n m K) (bx : Box m K) : Option Bool :=
  (VSet.make (underBox R s.dom) s.fn s.cs).overlaps R T bx

/-- `split(j)` (function_set.cpp 703-713), in exact arithmetic. -/
def splitAt (s : ISet n m K) (j : Fin n) (mid : K) : ISet n m K × ISet n m K :=
  (⟨Function.update s.dom j ⟨(s.dom j).l, fin mid⟩, s.fn, s.cs⟩,
   ⟨Function.update s.dom j ⟨fin mid, (s.dom j).u⟩, s.fn, s.cs⟩)

/-- `satisfies(c,eff)` (function_set.cpp 612-637). -/
def satisfies (T : Tools n K) (s : ISet n m K) (c : Constr m K) : Option LV :=
  if subsetIvl (ConstraintSolver.apply c.fn.ev (s.boundingBox R)) (over R c.bnd) then some .true_
  else satisfiesBounds R T s.cs (compose c.fn s.fn) c.bnd (overBox R s.dom)

end ISet

/-! ## Constraint sets -/

/-- `ConstraintSet` (function_set.hpp 81-85): `dim` is `_dimension`.  The functions of the constraints
have `n` arguments. -/
structure CSet (n : ℕ) (K : Type*) where
  dim : ℕ
  cs : List (Constr n K)

namespace CSet

/-- `constraints(f,b)` (function_set.cpp 261-268). -/
def constraints (f : Fin m → Func n K) (b : Box m K) : List (Constr n K) :=
  (List.finRange m).map fun i => ⟨f i, b i⟩

/-- `ConstraintSet(f,b)` (function_set.cpp 290-294). -/
def ofFunction (f : Fin m → Func n K) (b : Box m K) : CSet n K := ⟨n, constraints f b⟩

/-- `ConstraintSet(c)` with `get_argument_size` (function_set.cpp 227-233, 296-299). -/
def ofList (cs : List (Constr n K)) : CSet n K := ⟨if cs.isEmpty then 0 else n, cs⟩

/-- `intersection(cs1,cs2)` (function_set.cpp 371-375). -/
def intersection (a b : CSet n K) : CSet n K := ofList (a.cs ++ b.cs)

/-- The image set of `bx` under the constraint function: its components with the rounded bounds are
tested instead of the box (function_set.cpp 346-347). -/
def separated (T : Tools n K) (a : CSet n K) (bx : Box n K) : Option Bool :=
  (reduceAll R T (a.cs.map fun c => (c.fn, over R c.bnd)) bx).map fun r => boxEmpty r.2

/-- `overlaps(bx,eff)` (function_set.cpp 350-355). -/
def overlaps (T : Tools n K) (a : CSet n K) (bx : Box n K) : Option Bool :=
  VSet.overlapsLoop R T (a.cs.map fun c => (c.fn, under R c.bnd)) 8 [(0, bx)]

/-- `covers(bx,eff)` (function_set.cpp 357-362). -/
def covers (a : CSet n K) (bx : Box n K) : Bool :=
  a.cs.all fun c => insideIvl (ConstraintSolver.apply c.fn.ev bx) (under R c.bnd)

end CSet

/-- `BoundedConstraintSet` (function_set.hpp 131-132). -/
structure BSet (n : ℕ) (K : Type*) where
  dom : Box n K
  cs : List (Constr n K)

namespace BSet

/-- `constraint_bounds()` (function_set.cpp 253-259, 404-407). -/
def constraintBounds (a : BSet n K) : List (Bounds K) := a.cs.map Constr.bnd

/-- A list of intervals used as the domain of a set in dimension `n`; `none` if the dimension differs. -/
def boxOfList (n : ℕ) (l : List (Bounds K)) : Option (Box n K) :=
  if h : l.length = n then some fun i => l[i.1]'(by omega) else none

/-- `intersection` of boxes whose dimensions may differ (box.hpp 344-348): `none` if the second is read
out of range. -/
def interList (a b : List (Bounds K)) : Option (List (Bounds K)) :=
  if a.length ≤ b.length then some (List.zipWith Bounds.refinement a b) else none

/-- `intersection(cs,bx)` (function_set.cpp 504-514). -/
def ofSetBox (c : CSet n K) (bx : Box n K) : BSet n K := ⟨bx, c.cs⟩

/-- `intersection(bcs1,bcs2)` (function_set.cpp 516-520): the domain of the result is made from the
bounds of the constraints.  `none` if it does not have the dimension of the constraint functions. -/
def inter (a b : BSet n K) : Option (BSet n K) :=
  (interList a.constraintBounds b.constraintBounds).bind fun l =>
    (boxOfList n l).map fun d => ⟨d, a.cs ++ b.cs⟩

/-- `intersection(bcs,bx)` (function_set.cpp 522-532). -/
def interBx (a : BSet n K) (bx : Box n K) : Option (BSet n K) :=
  (interList a.constraintBounds (List.ofFn bx)).bind fun l => (boxOfList n l).map fun d => ⟨d, a.cs⟩

/-- `intersection(bcs,cs)` (function_set.cpp 534-544). -/
def interCSet (a : BSet n K) (c : CSet n K) : Option (BSet n K) :=
  (boxOfList n a.constraintBounds).map fun d => ⟨d, a.cs ++ c.cs⟩

/-- `separated(bx,eff)` (function_set.cpp 447-454). -/
def separated (T : Tools n K) (a : BSet n K) (bx : Box n K) : Option Bool :=
  if disjointBox (overBox R a.dom) bx then some true
  else CSet.separated R T ⟨n, a.cs⟩ (interBox bx (overBox R a.dom))

/-- `overlaps(bx,eff)` (function_set.cpp 457-465). -/
def overlaps (T : Tools n K) (a : BSet n K) (bx : Box n K) : Option Bool :=
  if disjointBox (overBox R a.dom) bx then some false
  else if a.cs.isEmpty && intersectBox (underBox R a.dom) bx then some true
  else CSet.overlaps R T ⟨n, a.cs⟩ (interBox bx (underBox R a.dom))

/-- `covers(bx,eff)` (function_set.cpp 468-475). -/
def covers (a : BSet n K) (bx : Box n K) : Bool :=
  if !coversBox (underBox R a.dom) bx then false else CSet.covers R ⟨n, a.cs⟩ bx

/-- `inside(bx,eff)` (function_set.cpp 477-481). -/
def inside (a : BSet n K) (bx : Box n K) : Bool := insideBox (overBox R a.dom) bx

/-- `bounding_box()` (function_set.cpp 483-488), with `eps` the least positive number
(`widen`, interval.inl.hpp 182-187). -/
def boundingBox (eps : K) (a : BSet n K) : Box n K := fun i =>
  ⟨Ext.sub R.down (over R (a.dom i)).l (fin eps), Ext.add R.up (over R (a.dom i)).u (fin eps)⟩

/-- `ConstrainedImageSet(set)` (function_set.cpp 556-562). -/
def toImage (a : BSet n K) : ISet n n K := ⟨overBox R a.dom, ident, a.cs⟩

/-- `image(set,function)` (function_set.cpp 716-723). -/
def image (a : BSet n K) (f : Fin m → Func n K) : ISet n m K := ⟨a.dom, f, a.cs⟩

end BSet

end Verif.FunctionSet
