import Verif.FunctionSet.Model
import Verif.ConstraintSolver.Actual

/-!
# Enclosures

Model of source/dynamics/enclosure.cpp and enclosure.hpp.

Simplifications.

* A validated function patch is the relation between arguments and the values it allows, together with
  its interval evaluation (`Patch`).  That the evaluation encloses the allowed values is an invariant of
  the class, and is a field.  Validated functions on Euclidean space are treated in the same way.
* The function factory and the operations on function patches are parameters (`Calc`), as they are
  reached through interfaces in the code.  Their laws are hypotheses of the theorems.  All patches of an
  enclosure have the domain of the enclosure, which is passed to the operations where it is needed.
  Exceptions raised because an argument lies outside the domain of a patch are not modelled.
* Dimensions and numbers of parameters are part of the types, so that the assertions about sizes and
  `_check` (lines 164-173) are not modelled; neither are the auxiliary mapping, the kinds of the
  variables, labels, drawing and printing.
* The bounds of a constraint have end points in an ordered field, and are rounded outwards by `bounds()`.
* `_reduced_domain` and `_is_fully_reduced` are mutable; functions changing them return the new set.
* The contraction and the feasibility test are those of `Verif.ConstraintSolver`; `none` has the meaning
  it has there.  The feasibility test uses the optimiser of the code (`midOpt`).
-/

namespace Verif.Enclosure

open Ariadne Ariadne.Logical Verif.ConstraintSolver
open Verif.FunctionSet (over interBox subsetIvl)
open Ariadne.Ext (fin)

variable {n m k : ℕ} {K : Type*} [Field K] [LinearOrder K] [IsStrictOrderedRing K]

/-- `ValidatedScalarMultivariateFunctionPatch` and `ValidatedScalarMultivariateFunction`. -/
structure Patch (n : ℕ) (K : Type*) [Field K] [LinearOrder K] [IsStrictOrderedRing K] where
  has : (Fin n → K) → K → Prop
  ev : Fn n K
  ok : ∀ p y, has p y → EnclosesAt ev y p

/-- The function factory (`EnclosureConfiguration::function_factory`) and the operations on function
patches used by enclosures.  `range` is `codomain()` and `range()` of a patch, `slope f B j` is the
magnitude of the range of the partial derivative of `f` on `B`, and `hull` is
`ConstraintSolver::hull_reduce` for one constraint. -/
structure Calc (K : Type*) [Field K] [LinearOrder K] [IsStrictOrderedRing K] where
  coord : {n : ℕ} → Box n K → Fin n → Patch n K
  const : {n : ℕ} → Box n K → K → Patch n K
  create : {n : ℕ} → Box n K → Patch n K → Patch n K
  compose : {n m : ℕ} → Box n K → Patch m K → (Fin m → Patch n K) → Patch n K
  partialEval : {m : ℕ} → Patch (m + 1) K → K → Patch m K
  embed : {n : ℕ} → (k : ℕ) → Patch n K → Patch (n + k) K
  embedLeft : {n : ℕ} → (k : ℕ) → Patch n K → Patch (k + n) K
  restrict : {n : ℕ} → Box n K → Patch n K → Patch n K
  add : {n : ℕ} → Patch n K → Patch n K → Patch n K
  sub : {n : ℕ} → Patch n K → Patch n K → Patch n K
  addBounds : {n : ℕ} → Patch n K → Bounds K → Patch n K
  scale : {n : ℕ} → Patch n K → K → Patch n K
  error : {n : ℕ} → Patch n K → K
  clobber : {n : ℕ} → Patch n K → Patch n K
  range : {n : ℕ} → Box n K → Patch n K → Bounds K
  slope : {n : ℕ} → Patch n K → Box n K → Fin n → K
  hull : {n : ℕ} → Patch n K → Bounds K → Contractor n K
  fuel : ℕ

/-- A flow model: `phi.domain()` is the box `dom` and the time interval from `t0` to `h`. -/
structure Flow (m : ℕ) (K : Type*) [Field K] [LinearOrder K] [IsStrictOrderedRing K] where
  dom : Box m K
  t0 : K
  h : K
  fn : Fin m → Patch (m + 1) K

/-- `Enclosure` (enclosure.hpp 105-112): a set given by functions on a box of parameters. -/
structure Encl (n m : ℕ) (K : Type*) [Field K] [LinearOrder K] [IsStrictOrderedRing K] where
  dom : Box n K
  red : Box n K
  fn : Fin m → Patch n K
  time : Patch n K
  dwell : Patch n K
  cs : List (Patch n K × Bounds K)
  full : Bool

/-- A point with one more coordinate. -/
abbrev ext {α : Type*} (x : Fin m → α) (t : α) : Fin (m + 1) → α := Fin.append x fun _ : Fin 1 => t

/-- The interval between two numbers. -/
def between (a b : K) : Bounds K := ⟨fin a, fin b⟩

variable (R : XRounding K) (C : Calc K)

/-! ## Construction -/

/-- `make_domain(Interval<Real>)` (affine_set.cpp 82-91).  `r` is the conversion to single precision and
back; `d` holds the lower and upper bounds of the end points in double precision. -/
def makeDomain (r : K → K) (dlo dhi : Bounds K) (la ua : K) : Bounds K × Ext K :=
  let dl := r la
  let du := r ua
  (between dl du,
    Ext.max (Ext.max (Ext.sub R.up dhi.u (fin du)) (Ext.sub R.up (fin du) dhi.l))
      (Ext.max (Ext.sub R.up dlo.u (fin dl)) (Ext.sub R.up (fin dl) dlo.l)))

/-- `Enclosure(BoundedConstraintSet)` (lines 265-280) with `make_identity` (lines 104-118), for the
domain `d` and the errors `e` computed by `make_domain`. -/
def ofSet (d : Box n K) (e : Fin n → K) (cs : List (Patch n K × Bounds K)) : Encl n n K :=
  let f := fun i => C.addBounds (C.coord d i) (between (-e i) (e i))
  { dom := d, red := d, fn := f, time := C.const d 0, dwell := C.const d 0,
    cs := cs.map fun c => (C.compose d c.1 f, c.2), full := true }

/-- `Enclosure(ExactBoxType)` (lines 282-297). -/
def ofBox (d : Box n K) : Encl n n K :=
  { dom := d, red := d, fn := C.coord d, time := C.const d 0, dwell := C.const d 0, cs := [], full := true }

namespace Encl

/-! ## Constraints -/

/-- `new_state_time_bound(gamma)` (lines 548-553). -/
def newStateTimeBound (E : Encl n m K) (g : Patch m K) : Encl n m K :=
  { E with full := false, cs := E.cs ++ [(C.sub (C.compose E.dom g E.fn) E.time, ⟨.ninf, fin 0⟩)] }

/-- `new_state_constraint(c)` (lines 555-563). -/
def newStateConstraint (E : Encl n m K) (g : Patch m K) (b : Bounds K) : Encl n m K :=
  { E with full := false, cs := E.cs ++ [(C.compose E.dom g E.fn, b)] }

/-- `new_state_time_constraint(c)` (lines 565-573). -/
def newStateTimeConstraint (E : Encl n m K) (g : Patch (m + 1) K) (b : Bounds K) : Encl n m K :=
  { E with full := false, cs := E.cs ++ [(C.compose E.dom g (ext E.fn E.time), b)] }

/-- `new_parameter_constraint(c)` (lines 575-583). -/
def newParameterConstraint (E : Encl n m K) (g : Patch n K) (b : Bounds K) : Encl n m K :=
  { E with full := false, cs := E.cs ++ [(C.create E.dom g, b)] }

/-- `new_positive_state_constraint(g)` (lines 585-591). -/
def newPositiveStateConstraint (E : Encl n m K) (g : Patch m K) : Encl n m K :=
  { E with full := false, cs := E.cs ++ [(C.compose E.dom g E.fn, ⟨fin 0, .pinf⟩)] }

/-- `new_negative_state_constraint(g)` (lines 593-599). -/
def newNegativeStateConstraint (E : Encl n m K) (g : Patch m K) : Encl n m K :=
  { E with full := false, cs := E.cs ++ [(C.compose E.dom g E.fn, ⟨.ninf, fin 0⟩)] }

/-- `new_zero_state_constraint(g)` (lines 601-607). -/
def newZeroStateConstraint (E : Encl n m K) (g : Patch m K) : Encl n m K :=
  { E with full := false, cs := E.cs ++ [(C.compose E.dom g E.fn, ⟨fin 0, fin 0⟩)] }

/-- `new_negative_parameter_constraint(g)` (lines 609-615). -/
def newNegativeParameterConstraint (E : Encl n m K) (g : Patch n K) : Encl n m K :=
  { E with full := false, cs := E.cs ++ [(C.create E.dom g, ⟨.ninf, fin 0⟩)] }

/-- `new_zero_parameter_constraint(g)` (lines 617-623). -/
def newZeroParameterConstraint (E : Encl n m K) (g : Patch n K) : Encl n m K :=
  { E with full := false, cs := E.cs ++ [(C.create E.dom g, ⟨fin 0, fin 0⟩)] }

/-! ## Maps and flows -/

/-- `_unchecked_new_variable(ivl)` (lines 392-406): the new variable is also a component of the state. -/
def newVariable (E : Encl n m K) (ivl : Bounds K) : Encl (n + 1) (m + 1) K :=
  let d := ext E.dom ivl
  { dom := d, red := ext E.red ivl,
    fn := ext (fun i => C.embed 1 (E.fn i)) (C.coord d (Fin.natAdd n 0)),
    time := C.embed 1 E.time, dwell := C.embed 1 E.dwell,
    cs := E.cs.map fun c => (C.embed 1 c.1, c.2), full := E.full }

/-- `clear_time()` (lines 408-413). -/
def clearTime (E : Encl n m K) : Encl n m K := { E with time := C.const E.dom 0, dwell := C.const E.dom 0 }

/-- `apply_map(map)` (lines 415-421); also lines 423-431. -/
def applyMap (E : Encl n m K) (f : Fin k → Patch m K) : Encl n k K :=
  { dom := E.dom, red := E.red, fn := fun i => C.compose E.dom (f i) E.fn, time := E.time,
    dwell := C.const E.dom 0, cs := E.cs, full := E.full }

/-- `apply_discrete_time_map_step(map)` (lines 434-438). -/
def applyMapStep (E : Encl n m K) (f : Fin m → Patch m K) : Encl n m K :=
  let E1 := E.applyMap C f
  { E1 with time := C.addBounds E1.time (between 1 1) }

/-- `apply_fixed_evolve_step(flow,time)` (lines 441-455): `patch` says whether the flow is a function
patch. -/
def applyFixedEvolveStep (E : Encl n m K) (patch : Bool) (φ : Fin m → Patch (m + 1) K) (h : K) : Encl n m K :=
  { E with
    fn := if patch then fun i => C.compose E.dom (C.partialEval (φ i) h) E.fn
      else fun i => C.compose E.dom (φ i) (ext E.fn (C.const E.dom h))
    time := C.addBounds E.time (between h h), dwell := C.addBounds E.dwell (between h h) }

/-- The new state, time and dwell time after the time `τ`, common to the next three functions. -/
def evolveFor (E : Encl n m K) (φ : Fin m → Patch (m + 1) K) (τ : Patch n K) : Encl n m K :=
  { E with fn := fun i => C.compose E.dom (φ i) (ext E.fn τ), time := C.add E.time τ, dwell := C.add E.dwell τ }

/-- `apply_space_evolve_step(flow,time)` (lines 457-466). -/
def applySpaceEvolveStep (E : Encl n m K) (φ : Fin m → Patch (m + 1) K) (τ : Patch m K) : Encl n m K :=
  E.evolveFor C φ (C.compose E.dom τ E.fn)

/-- `apply_spacetime_evolve_step(flow,time)` (lines 468-477). -/
def applySpacetimeEvolveStep (E : Encl n m K) (φ : Fin m → Patch (m + 1) K) (τ : Patch (m + 1) K) :
    Encl n m K :=
  E.evolveFor C φ (C.compose E.dom τ (ext E.fn E.time))

/-- `apply_parameter_evolve_step(flow,time)` (lines 479-488).  Simplification: `time` is converted to a
patch once, where the code adds the function itself to the time functions. -/
def applyParameterEvolveStep (E : Encl n m K) (φ : Fin m → Patch (m + 1) K) (τ : Patch n K) : Encl n m K :=
  E.evolveFor C φ (C.create E.dom τ)

/-- `apply_finishing_parameter_evolve_step(flow,finishing_time)` (lines 490-500). -/
def applyFinishingParameterEvolveStep (E : Encl n m K) (φ : Fin m → Patch (m + 1) K) (ω : Patch n K) :
    Encl n m K :=
  let w := C.create E.dom ω
  { E with
    fn := fun i => C.compose E.dom (φ i) (ext E.fn (C.sub w E.time))
    dwell := C.add E.dwell (C.sub w E.time), time := w }

/-- `apply_parameter_reach_step(phi,elps)` (lines 523-546): `apply_map` on line 536 sets the dwell time
to zero. -/
def applyParameterReachStep (E : Encl n m K) (φ : Flow m K) (elps : Patch n K) : Encl (n + 1) m K :=
  let E1 := (E.newVariable C (between 0 φ.h)).applyMap C φ.fn
  let t := C.coord E1.dom (Fin.natAdd n 0)
  let E2 := { E1 with time := C.add E1.time t, dwell := C.add E1.dwell t }
  if φ.t0 < φ.h then
    E2.newNegativeParameterConstraint C (C.sub t (C.embed 1 (C.create E.dom elps)))
  else E2

/-- `apply_full_reach_step(phi)` (lines 502-512). -/
def applyFullReachStep (E : Encl n m K) (φ : Flow m K) : Encl (n + 1) m K :=
  E.applyParameterReachStep C φ (C.const E.dom φ.h)

/-- `apply_spacetime_reach_step(phi,elps)` (lines 514-521). -/
def applySpacetimeReachStep (E : Encl n m K) (φ : Flow m K) (elps : Patch (m + 1) K) : Encl (n + 1) m K :=
  E.applyParameterReachStep C φ (C.compose E.dom elps (ext E.fn E.time))

/-! ## Tests -/

/-- `bounding_box()` (lines 721-723). -/
def boundingBox (E : Encl n m K) : Box m K := fun i => C.range E.dom (E.fn i)

/-- The contractors used by `reduce()`. -/
def hulls (E : Encl n m K) : List (Contractor n K) := E.cs.map fun c => C.hull c.1 (over R c.2)

/-- `is_nan` of line 805. -/
def hasNaN (b : Bounds K) : Bool :=
  match b with
  | ⟨.nan, _⟩ => true
  | ⟨_, .nan⟩ => true
  | _ => false

/-- `reduce()` (lines 796-809). -/
def reduce (E : Encl n m K) : Option (Encl n m K) :=
  (reduceList R (E.hulls R C) C.fuel E.red).map fun r =>
    { E with red := fun i => if hasNaN (r.2 i) then E.dom i else r.2 i }

/-- Line 757. -/
def emptied (E : Encl n m K) : Encl n m K :=
  { E with red := fun i => if i.1 = 0 then between 1 (-1) else E.red i }

/-- `is_empty()` (lines 748-763). -/
def isEmpty (E : Encl n m K) : Option (LV × Encl n m K) :=
  if boxEmpty E.red then some (.true_, E)
  else if E.cs.isEmpty then some (LV.ofBool (boxEmpty E.dom), E)
  else
    (if E.full then some E else
      (E.reduce R C).bind fun E1 => (E1.reduce R C).bind fun E2 => E2.reduce R C).map fun E' =>
        if E'.cs.any fun c => disjoint (ConstraintSolver.apply c.1.ev E'.red) (over R c.2) then
          (.true_, E'.emptied)
        else if boxEmpty E'.red then (.true_, E')
        else (.indeterminate, E')

/-- `codomain()` (lines 640-642), with `eps` the least positive number (`widen`, interval.inl.hpp
182-187). -/
def codomain (eps : K) (E : Encl n m K) : Box m K := fun i =>
  ⟨Ext.sub R.down (C.range E.dom (E.fn i)).l (fin eps), Ext.add R.up (C.range E.dom (E.fn i)).u (fin eps)⟩

/-- `satisfies(function)` (lines 339-345). -/
def satisfiesFn (eps : K) (E : Encl n m K) (g : Patch m K) : LV :=
  let r := ConstraintSolver.apply g.ev (E.codomain R C eps)
  if Ext.lt r.u (fin 0) then .false_ else if Ext.lt (fin 0) r.l then .true_ else .indeterminate

/-- `satisfies(constraint)` (lines 734-741). -/
def satisfies (E : Encl n m K) (g : Patch m K) (b : Bounds K) : Option LV :=
  ((E.newStateConstraint C g b).isEmpty R C).map fun r =>
    if LV.definitely r.1 then .false_ else .indeterminate

/-- The image of the reduced domain under the state function, compared with a box. -/
def imageSubset (E : Encl n m K) (bx : Box m K) : Bool :=
  (List.finRange m).all fun i => subsetIvl (ConstraintSolver.apply (E.fn i).ev E.red) (bx i)

/-- `inside(bx)` (lines 765-768). -/
def inside (E : Encl n m K) (bx : Box m K) : Bool := E.imageSubset bx

/-- `subset(bx)` (lines 770-775): true or indeterminate. -/
def subset (E : Encl n m K) (bx : Box m K) : Option (Bool × Encl n m K) :=
  (E.reduce R C).map fun E' => (E'.imageSubset bx, E')

/-- The constraints of lines 780 and 787-792. -/
def stateConstraints (E : Encl n m K) (bx : Box m K) : List (Patch n K × Bounds K) :=
  E.cs ++ (List.finRange m).flatMap fun i =>
    [(E.fn i, ⟨(bx i).l, .pinf⟩), (E.fn i, ⟨.ninf, (bx i).u⟩)]

/-- `separated(bx)` (lines 777-793). -/
def separated (E : Encl n m K) (bx : Box m K) : Option (LV × Encl n m K) :=
  (reduceList R (E.hulls R C) C.fuel E.red).bind fun r =>
    let E' := { E with red := r.2 }
    if boxEmpty r.2 then some (.true_, E')
    else
      let l := E.stateConstraints bx
      (feasibleList R (midOpt R) (fun _ _ _ => ⟨.ninf, .pinf⟩) (fun _ _ B => B) (fun j => (l.get j).1.ev)
        (fun j => over R (l.get j).2) C.fuel r.2).map fun q => (LV.not_ q.1, E')

/-! ## Splitting and restriction -/

/-- One of the pieces made by `split(d)` (lines 927-957), for a subdomain.  Without constraints the
reduction made by the constructor (line 331) leaves the domain as it is; `full` is not initialised by
this constructor. -/
def piece (full : Bool) (E : Encl n m K) (d : Box n K) : Encl n m K :=
  { dom := d, red := d, fn := fun i => C.create d (C.restrict d (E.fn i)), time := C.restrict d E.time,
    dwell := C.restrict d E.dwell, cs := E.cs.map fun c => (C.restrict d c.1, c.2), full := full }

/-- `split(d)` (lines 917-958). -/
def splitAt (full : Bool) (E : Encl n m K) (j : Fin n) : Encl n m K × Encl n m K :=
  let p := ConstraintSolver.splitAt R E.dom j
  (E.piece C full p.1, E.piece C full p.2)

/-- The norm of a column (lines 864-868), with `up` the rounded arithmetic of errors. -/
def columnNorm (up : K → K) (E : Encl n m K) (rad : Bounds K → K) (j : Fin n) : K :=
  up (((List.finRange m).foldl (fun s i => up (s + C.slope (E.fn i) E.red j)) 0) * rad (E.red j))

/-- `splitting_index_zeroth_order()` (lines 854-876): `none` stands for `number_of_parameters()`. -/
def splittingIndex (up : K → K) (rad : Bounds K → K) (E : Encl n m K) : Option (Fin n) :=
  ((List.finRange n).foldl (fun (r : Option (Fin n) × K) j =>
    if r.2 < E.columnNorm C up rad j then (some j, E.columnNorm C up rad j) else r) (none, 0)).1

/-- `split()` (lines 832-835, 911-915): `none` if the precondition on line 920 fails. -/
def split (up : K → K) (rad : Bounds K → K) (full : Bool) (E : Encl n m K) :
    Option (Encl n m K × Encl n m K) :=
  (E.splittingIndex C up rad).map (E.splitAt R C full)

/-- `restrict(subdomain)` (lines 1208-1226): `none` if the assertion on line 1211 fails. -/
def restrict (E : Encl n m K) (d : Box n K) : Option (Encl n m K) :=
  if (List.finRange n).all fun i => subsetIvl (d i) (E.dom i) then
    Encl.reduce R C { E with
      dom := d, red := interBox E.red d, fn := fun i => C.restrict d (E.fn i),
      time := C.restrict d E.time, dwell := C.restrict d E.dwell,
      cs := E.cs.map fun c => (C.restrict d c.1, c.2) }
  else none

/-! ## Reconditioning -/

/-- `large_error_indices` (lines 1021-1028), with `ε` the number `MAXIMUM_ERROR` (line 1018). -/
def largeErrors (ε : K) (E : Encl n m K) : List (Fin m) :=
  (List.finRange m).filter fun i => ε < C.error (E.fn i)

/-- `uniform_error_recondition()` (lines 1015-1064): the error of each component in `l`, the components
with a large error, is replaced by a new parameter.  Simplification: embedding does not change the
error, so that the comparison on line 1049 gives the result of the one on line 1025. -/
def errorRecondition (E : Encl n m K) (l : List (Fin m)) : Encl (n + l.length) m K :=
  let d := Fin.append E.dom fun _ : Fin l.length => between (-1) 1
  { dom := d, red := Fin.append E.red fun _ => between (-1) 1,
    fn := fun i =>
      if h : i ∈ l then
        C.add (C.clobber (C.embed l.length (E.fn i)))
          (C.scale (C.coord d (Fin.natAdd n ⟨l.idxOf i, List.idxOf_lt_length_of_mem h⟩)) (C.error (E.fn i)))
      else C.embed l.length (E.fn i)
    time := C.embed l.length E.time, dwell := C.embed l.length E.dwell,
    cs := E.cs.map fun c => (C.embed l.length c.1, c.2), full := E.full }

/-- `uniform_error_recondition()`: the number of parameters depends on the errors. -/
def uniformErrorRecondition (ε : K) (E : Encl n m K) : Σ k, Encl k m K := ⟨_, E.errorRecondition C (E.largeErrors C ε)⟩

/-! ## Products -/

/-- `product(set,box)` (lines 1310-1325); `product(set,ivl)` (lines 1293-1308) is the case of one
dimension. -/
def prodBox (full : Bool) (E : Encl n m K) (bx : Box k K) : Encl (n + k) (m + k) K :=
  let d := Fin.append E.dom bx
  { dom := d, red := d,
    fn := fun i => C.create d ((Fin.append (fun i => C.embed k (E.fn i)) fun j => C.coord d (Fin.natAdd n j)) i),
    time := C.embed k E.time, dwell := C.embed k E.dwell,
    cs := E.cs.map fun c => (C.embed k c.1, c.2), full := full }

/-- `same` (line 1328). -/
def sameIvl (a b : Bounds K) : Bool := decide (a = b)

/-- `product(set1,set2)` (lines 1327-1351): `none` if the assertions on lines 1328-1329 fail.  The time
functions of the result are those of the first set. -/
def prod {n₂ m₂ : ℕ} (full : Bool) (E : Encl n m K) (E₂ : Encl n₂ m₂ K) : Option (Encl (n + n₂) (m + m₂) K) :=
  if sameIvl (C.range E.dom E.time) (C.range E₂.dom E₂.time) &&
      sameIvl (C.range E.dom E.dwell) (C.range E₂.dom E₂.dwell) then
    let d := Fin.append E.dom E₂.dom
    some
      { dom := d, red := d,
        fn := fun i => C.create d
          ((Fin.append (fun i => C.embed n₂ (E.fn i)) fun j => C.embedLeft n (E₂.fn j)) i),
        time := C.embed n₂ E.time, dwell := C.embed n₂ E.dwell,
        cs := E.cs.map (fun c => (C.embed n₂ c.1, c.2)) ++ E₂.cs.map fun c => (C.embedLeft n c.1, c.2),
        full := full }
  else none

end Encl

end Verif.Enclosure
