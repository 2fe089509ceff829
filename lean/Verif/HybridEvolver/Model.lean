import Verif.Evolver.Model

/-!
# Evolution of hybrid systems

Model of source/hybrid/hybrid_evolver.cpp (cited as "lines") and of the parts of source/hybrid/hybrid_enclosure.cpp
it uses, on the enclosures of `Verif.Enclosure` and the thread pool of `Verif.Evolver`.

Simplifications.

* Locations and events are elements of types `L` and `Ev`; `dim q` is the dimension of the state space in the
  location `q`.  State spaces, auxiliary functions, logging and the progress indicator are not modelled.
* A location has a list of transitions, in the order of `Map<DiscreteEvent,TransitionData>`.  The guard of a
  transition comes with its first and second Lie derivative along the dynamics, and with the negation of the first,
  as functions given by their values and interval evaluation.
* The integrator and the solver are parameters (`flowStep`, `implicit`).  Exceptions of the integrator are not
  modelled.
* The final time is a real number of which the evolver uses bounds `final`.  A comparison with a real number is
  decided by these bounds.
* `none` stands for an exception raised by the evolver, for a contraction which does not end
  (see `Verif.ConstraintSolver`), and, if `strict` is set, for undefined behaviour: the evolver erases the element an
  iterator of a loop refers to (line 746), and appends to a vector while iterating over it (lines 1081 and 1084).
  If `strict` is not set then these loops are taken to go on with the following element.
* `TIME_CREEP` and `ALLOW_UNWIND` are false in the code, and lines 1799-1839 and 1937-1959 are left out.
* The evolution time is the composition of the spacial and the temporal evolution time with the state and the
  time of the set (lines 1926 and 1933); the model composes before it multiplies.  Without creeping the spacial
  part is the step size by which the product is divided, and is left out.
-/

namespace Verif.HybridEvolver

open Ariadne Ariadne.Logical Verif.ConstraintSolver Verif.Enclosure Verif.Evolver
open Ariadne.Ext (fin)

variable {L Ev : Type*} {dim : L → ℕ} {n m : ℕ} {K : Type*} [Field K] [LinearOrder K] [IsStrictOrderedRing K]

/-- `EventKind` (hybrid_automaton_interface.hpp line 50). -/
inductive Kind
  | invariant | progress | permissive | urgent | impact
  deriving DecidableEq

/-- `is_blocking` (lines 173-182). -/
def Kind.blocking : Kind → Bool
  | .permissive => false
  | _ => true

/-- `is_activating` (lines 185-194). -/
def Kind.activating : Kind → Bool
  | .permissive | .urgent | .impact => true
  | _ => false

/-- `TransitionData` (hybrid_evolver.hpp lines 478-503). -/
structure Trans (L Ev : Type*) (dim : L → ℕ) (K : Type*) [Field K] [LinearOrder K] [IsStrictOrderedRing K] (q : L) where
  event : Ev
  kind : Kind
  guard : Patch (dim q) K
  dguard : Patch (dim q) K
  ndguard : Patch (dim q) K
  ddguard : Patch (dim q) K
  target : L
  reset : Fin (dim target) → Patch (dim q) K

/-- `HybridEnclosure`: a location, the previous events, and an enclosure. -/
structure HSet (L Ev : Type*) (dim : L → ℕ) (K : Type*) [Field K] [LinearOrder K] [IsStrictOrderedRing K] where
  loc : L
  events : List Ev
  n : ℕ
  set : Encl n (dim loc) K

/-- `CrossingData` (hybrid_evolver.hpp lines 541-560).  The kinds `POSITIVE` and `NEGATIVE` are never used. -/
inductive Crossing (m : ℕ) (K : Type*) [Field K] [LinearOrder K] [IsStrictOrderedRing K]
  | transverse (γ : Patch m K)
  | increasing
  | decreasing
  | convex
  | concave
  | grazing (μ : Patch m K) (range : Bounds K)
  | degenerate

/-- Whether the guard is applied late (lines 1354-1355). -/
def Crossing.late : Crossing m K → Bool
  | .transverse _ => true
  | .increasing => true
  | _ => false

/-- The outcome of `SolverInterface::implicit`: a function, a `SolverException`, or another exception. -/
inductive Solved (m : ℕ) (K : Type*) [Field K] [LinearOrder K] [IsStrictOrderedRing K]
  | ok (f : Patch m K)
  | failed
  | error

/-- `FinishingKind`; `AFTER_FINAL_TIME` is never used. -/
inductive Finish
  | before | at_ | straddle
  deriving DecidableEq

/-- `TimingData`: `constant` says whether the kind of the step is `CONSTANT_EVOLUTION_TIME`, `finishing` whether it is
one of the kinds ending in `FINISHING_TIME`. -/
structure Timing (n : ℕ) (K : Type*) [Field K] [LinearOrder K] [IsStrictOrderedRing K] where
  constant : Bool
  finishing : Bool
  kind : Finish
  evo : Patch n K
  fin : Patch n K

/-- The operations used by the evolver, and the options. -/
structure Tools (K : Type*) [Field K] [LinearOrder K] [IsStrictOrderedRing K] where
  X : XRounding K
  C : Calc K
  up : K → K
  rad : Bounds K → K
  radius : {m : ℕ} → Box m K → Ext K
  kuhn : {m : ℕ} → ESet m K → ESet m K
  mul : {n : ℕ} → Patch n K → Patch n K → Patch n K
  implicit : {m : ℕ} → Patch (m + 1) K → Box m K → Bounds K → Solved m K
  /-- line 1881, from the step size and the lower bounds of the derivative and of the guard -/
  alpha : K → Ext K → Ext K → K
  errorTolerance : K
  maximumRadius : K
  maximumError : K
  reconditioning : Bool
  subdivisions : Bool
  /-- whether the semantics is `UPPER` -/
  upper : Bool
  strict : Bool
  final : Bounds K
  maximumSteps : ℕ
  /-- a bound on the halvings on line 1706 -/
  halvings : ℕ

variable (τ : Tools K)

/-! ## Enclosures -/

/-- `time_range()` (hybrid_enclosure.cpp lines 248-252). -/
def timeRange (E : Encl n m K) : Bounds K := ConstraintSolver.apply E.time.ev E.red

/-- `range_of(g)` (hybrid_enclosure.cpp lines 242-246). -/
def Tools.rangeOf (E : Encl n m K) (g : Patch m K) : Bounds K :=
  ConstraintSolver.apply (τ.C.compose E.dom g E.fn).ev E.red

/-- `definitely(time_range.lower_bound()>=final_time)` (lines 1141 and 1225). -/
def Tools.late (E : Encl n m K) : Bool := Ext.le τ.final.u (timeRange E).l

/-- `possibly(time_range.upper_bound()>final_time)` (lines 1424, 1444 and 1495). -/
def Tools.over (E : Encl n m K) : Bool := !Ext.le (timeRange E).u τ.final.l

/-- `time_function()-tmax` (hybrid_enclosure.cpp lines 385 and 395). -/
def Tools.pastFinal (E : Encl n m K) : Patch n K := τ.C.addBounds E.time (Bounds.neg τ.final)

/-- `bound_time(tmax)` (hybrid_enclosure.cpp lines 383-387). -/
def Tools.boundTime (E : Encl n m K) : Encl n m K :=
  if τ.over E then E.newNegativeParameterConstraint τ.C (τ.pastFinal E) else E

/-- `set_time(time)` (hybrid_enclosure.cpp lines 393-396). -/
def Tools.setTime (E : Encl n m K) : Encl n m K := E.newZeroParameterConstraint τ.C (τ.pastFinal E)

/-- `f<=g` as a constraint on the parameters. -/
def Tools.newLe (E : Encl n m K) (f g : Patch n K) : Encl n m K :=
  E.newParameterConstraint τ.C (τ.C.sub f g) ⟨.ninf, fin 0⟩

/-- `f<=zero` as a constraint on the parameters. -/
def Tools.newNonpos (E : Encl n m K) (f : Patch n K) : Encl n m K := E.newParameterConstraint τ.C f ⟨.ninf, fin 0⟩

/-- `f>=zero` as a constraint on the parameters. -/
def Tools.newNonneg (E : Encl n m K) (f : Patch n K) : Encl n m K := E.newParameterConstraint τ.C f ⟨fin 0, .pinf⟩

/-- `split()` (hybrid_enclosure.cpp lines 511-520) with `splitting_subdomains_zeroth_order()` (enclosure.cpp lines
838-851). -/
def Tools.split (E : Encl n m K) : Option (List (Encl n m K)) :=
  match E.splittingIndex τ.C τ.up τ.rad with
  | none => (E.restrict τ.X τ.C E.red).map fun F => [F]
  | some j =>
    let P := ConstraintSolver.splitAt τ.X E.red j
    (E.restrict τ.X τ.C P.1).bind fun F => (E.restrict τ.X τ.C P.2).map fun G => [F, G]

/-! ## Starting events -/

/-- The test `possibly(set.satisfies(guard>=0))` (lines 469 and 507). -/
def Tools.maybe (E : Encl n m K) (g : Patch m K) : Option Bool :=
  (E.satisfies τ.X τ.C g ⟨fin 0, .pinf⟩).map LV.possibly

/-- `_apply_invariants` (lines 451-474). -/
def Tools.applyInvariants {q : L} : List (Trans L Ev dim K q) → Encl n (dim q) K → Option (Encl n (dim q) K)
  | [], E => some E
  | tr :: l, E =>
    if tr.kind = .invariant then
      (τ.maybe E tr.guard).bind fun b =>
        Tools.applyInvariants l (if b then E.newNegativeStateConstraint τ.C tr.guard else E)
    else Tools.applyInvariants l E

/-- `apply_reset` (hybrid_enclosure.cpp lines 331-337). -/
def Tools.reset {q : L} (events : List Ev) (tr : Trans L Ev dim K q) (E : Encl n (dim q) K) : HSet L Ev dim K :=
  ⟨tr.target, events ++ [tr.event], n, E.applyMap τ.C tr.reset⟩

/-- The actions of the hybrid evolver.  A set which has not just jumped is paired with `false`. -/
abbrev HAction (L Ev : Type*) (dim : L → ℕ) (K : Type*) [Field K] [LinearOrder K] [IsStrictOrderedRing K] :=
  Action (HSet L Ev dim K) (HSet L Ev dim K × Bool)

/-- Lines 508-520: the immediate jump by an event. -/
def Tools.immediate {q : L} (events : List Ev) (I : Encl n (dim q) K) (tr : Trans L Ev dim K q) :
    Option (List (HAction L Ev dim K)) :=
  if tr.kind = .progress then some []
  else
    ((I.newPositiveStateConstraint τ.C tr.guard).isEmpty τ.X τ.C).map fun r =>
      if LV.definitely r.1 then []
      else [.reach ⟨q, events, n, r.2⟩, .inter (τ.reset events tr r.2), .push (τ.reset events tr r.2, true)]

/-- The loop of `_process_starting_events` (lines 494-526), for the set `E`, its part `I` satisfying the invariants,
and the part `F` found so far in which evolution can go on. -/
def Tools.startingLoop {q : L} (events : List Ev) (E I : Encl n (dim q) K) : List (Trans L Ev dim K q) →
    Encl n (dim q) K → Option (List (HAction L Ev dim K) × Encl n (dim q) K)
  | [], F => some ([], F)
  | tr :: l, F =>
    if tr.kind = .invariant ∨ tr.kind = .impact then Tools.startingLoop events E I l F
    else
      (τ.maybe E tr.guard).bind fun b =>
        if b then
          (τ.immediate events I tr).bind fun as =>
            (Tools.startingLoop events E I l
              (if tr.kind = .permissive then F else F.newNegativeStateConstraint τ.C tr.guard)).map fun r =>
                (as ++ r.1, r.2)
        else Tools.startingLoop events E I l F

/-- `_process_starting_events` (lines 476-532). -/
def Tools.starting {q : L} (sys : List (Trans L Ev dim K q)) (events : List Ev) (E : Encl n (dim q) K) :
    Option (List (HAction L Ev dim K)) :=
  (τ.applyInvariants sys E).bind fun I =>
    (τ.startingLoop events E I sys I).bind fun r =>
      (r.2.isEmpty τ.X τ.C).map fun f =>
        r.1 ++ if LV.definitely f.1 then [] else [.push (⟨q, events, n, f.2⟩, false)]

/-- `_process_jumped_set` (lines 1126-1180).  A set past the final time is dropped. -/
def Tools.jumped (terminating : Ev → Bool) (sys : (q : L) → List (Trans L Ev dim K q)) (S : HSet L Ev dim K) :
    Option (List (HAction L Ev dim K)) :=
  if τ.late S.set then some [.drop (S, true)]
  else if τ.maximumSteps ≤ S.events.length ∨ (S.events.getLast?.map terminating).getD false = true then
    (τ.applyInvariants (sys S.loc) S.set).map fun I => [.final ⟨S.loc, S.events, S.n, I⟩]
  else τ.starting (sys S.loc) S.events S.set

/-! ## Crossings -/

/-- The domain of a flow model. -/
def flowDom (φ : Flow m K) : Box (m + 1) K := ext φ.dom (between 0 φ.h)

/-- `flow.range()`. -/
def Tools.flowBounds (φ : Flow m K) : Box m K := fun i => τ.C.range (flowDom φ) (φ.fn i)

/-- `intersection(ivl1,ivl2)`. -/
def interIvl (a b : Bounds K) : Bounds K := ⟨Ext.max a.l b.l, Ext.min a.u b.u⟩

/-- One event of `_compute_active_events` (lines 579-599), for the set `F` reached by the flow. -/
def Tools.active {q : L} (F : Encl n (dim q) K) (tr : Trans L Ev dim K q) : Option Bool :=
  if Ext.le (fin 0) (ConstraintSolver.apply tr.guard.ev (F.boundingBox τ.C)).u then
    ((F.newPositiveStateConstraint τ.C tr.guard).isEmpty τ.X τ.C).map fun r => !LV.definitely r.1
  else some false

/-- `_compute_active_events` (lines 564-601). -/
def Tools.activeEvents {q : L} (F : Encl n (dim q) K) : List (Trans L Ev dim K q) → Option (List (Trans L Ev dim K q))
  | [] => some []
  | tr :: l => (τ.active F tr).bind fun b => (Tools.activeEvents F l).map fun r => if b then tr :: r else r

/-- The guard along the flow. -/
def Tools.alongFlow (φ : Flow m K) (g : Patch m K) : Patch (m + 1) K := τ.C.compose (flowDom φ) g φ.fn

/-- The time domain of lines 763-765, up to rounding. -/
def shortDomain (b : Bounds K) : Bounds K :=
  match b.u with
  | .fin u => between 0 (15 / 16 * u)
  | _ => ⟨fin 0, b.u⟩

/-- Lines 727-796: the second derivative is negative.  The inner `none` means that the event is erased.  An exception
other than a `SolverException` raised on line 770 is caught on line 793. -/
def Tools.concave (φ : Flow m K) (E : Encl n m K) (g dg : Patch m K) : Option (Crossing m K) :=
  match τ.implicit (τ.alongFlow φ dg) φ.dom (between 0 φ.h) with
  | .ok μ =>
    let F := E.applySpaceEvolveStep τ.C φ.fn μ
    let r := interIvl (ConstraintSolver.apply g.ev (F.boundingBox τ.C)) (τ.rangeOf F g)
    if Ext.lt r.u (fin 0) then none
    else if Ext.lt (fin 0) r.l then
      match τ.implicit (τ.alongFlow φ g) φ.dom (shortDomain (τ.C.range φ.dom μ)) with
      | .ok γ => some (.transverse γ)
      | .failed => some (.grazing μ r)
      | .error => some .concave
    else some (.grazing μ r)
  | _ => some .concave

/-- One event of `_compute_crossings` (lines 622-804). -/
def Tools.crossing {q : L} (φ : Flow (dim q) K) (E : Encl n (dim q) K) (tr : Trans L Ev dim K q) :
    Option (Option (Crossing (dim q) K)) :=
  let r := ConstraintSolver.apply tr.dguard.ev (τ.flowBounds φ)
  if Ext.lt (fin 0) r.l then
    match τ.implicit (τ.alongFlow φ tr.guard) φ.dom (between 0 φ.h) with
    | .ok γ => some (some (.transverse γ))
    | .failed => some (some .increasing)
    | .error => none
  else if Ext.lt r.u (fin 0) then some (some .decreasing)
  else
    let r2 := interIvl (ConstraintSolver.apply tr.ddguard.ev (τ.flowBounds φ))
      (τ.C.range (flowDom φ) (τ.alongFlow φ tr.ddguard))
    if Ext.lt (fin 0) r2.l then some (some .convex)
    else if Ext.lt r2.u (fin 0) then
      match τ.concave φ E tr.guard tr.dguard with
      | none => if τ.strict then none else some none
      | some c => some (some c)
    else some (some .degenerate)

/-- `_compute_crossings` (lines 604-809). -/
def Tools.crossings {q : L} (φ : Flow (dim q) K) (E : Encl n (dim q) K) : List (Trans L Ev dim K q) →
    Option (List (Trans L Ev dim K q × Crossing (dim q) K))
  | [] => some []
  | tr :: l => (τ.crossing φ E tr).bind fun c => (Tools.crossings φ E l).map fun r =>
      match c with
      | some c => (tr, c) :: r
      | none => r

/-! ## Timing -/

/-- Lines 1705-1706: the factor is halved while the time is too long. -/
def Tools.halve (u : Ext K) (h : K) : ℕ → K → Option K
  | 0, _ => none
  | k + 1, s => if Ext.le (Ext.mul τ.X.up u (fin s)) (fin h) then some s else Tools.halve u h k (s / 2)

/-- `final_time_bounds-time_identity`, composed with the time of the set. -/
def Tools.toFinal (E : Encl n m K) : Patch n K := τ.C.scale (τ.pastFinal E) (-1)

/-- Lines 1667-1713: whether the step is constant, whether it is given by a finishing time, the kind, and the
temporal evolution time. -/
def Tools.temporal (E : Encl n m K) (h : K) : Option (Bool × Bool × Finish × Patch n K) :=
  let r := Bounds.sub τ.X τ.final (timeRange E)
  if Ext.lt r.l (fin 0) then
    if Ext.le r.u (fin h) then some (false, true, .at_, τ.toFinal E)
    else some (true, false, .straddle, τ.C.const E.dom h)
  else if Ext.le r.u (fin h) then some (false, true, .at_, τ.toFinal E)
  else if Ext.le r.l (fin h) then
    (τ.halve r.u h τ.halvings 1).map fun s => (false, true, .before, τ.C.scale (τ.toFinal E) s)
  else some (true, false, .before, τ.C.const E.dom h)

/-- The loop on lines 1740-1789, for the step size `h`: whether to creep. -/
def Tools.wantsCreep {q : L} (φ : Flow (dim q) K) : List (Trans L Ev dim K q × Crossing (dim q) K) → Bool → Bool
  | [], b => b
  | (tr, .transverse γ) :: l, b =>
    if tr.kind = .permissive then Tools.wantsCreep φ l b
    else
      let r := τ.C.range φ.dom γ
      if tr.kind.blocking && Ext.lt r.u (fin φ.h) then false
      else if Ext.le r.l (fin 0) then false
      else if Ext.le (fin φ.h) r.l then Tools.wantsCreep φ l b
      else Tools.wantsCreep φ l true
  | _ :: l, b => Tools.wantsCreep φ l b

/-- Lines 1725-1795.  The set on lines 1737-1748 is only needed if the loop is not left early. -/
def Tools.creep {q : L} (φ : Flow (dim q) K) (E : Encl n (dim q) K)
    (cr : List (Trans L Ev dim K q × Crossing (dim q) K)) : Option Bool :=
  if τ.wantsCreep φ cr false then
    let F := (cr.filter fun c => c.1.kind.blocking).foldl (fun F c => F.newNegativeStateConstraint τ.C c.1.guard)
      (E.applyFixedEvolveStep τ.C true φ.fn φ.h)
    (F.isEmpty τ.X τ.C).map fun r => !LV.definitely r.1
  else some false

/-- One event of the loop on lines 1868-1914: the time in which the guard is crept up to, if it is known. -/
def Tools.creepTime {q : L} (φ : Flow (dim q) K) (tr : Trans L Ev dim K q) : Option (Option (Patch (dim q) K)) :=
  let g := (τ.C.range (flowDom φ) (τ.alongFlow φ tr.guard)).l
  let d := (τ.C.range (flowDom φ) (τ.alongFlow φ tr.dguard)).l
  if Ext.lt g (fin 0) then
    let α := τ.alpha φ.h d g
    if 0 < α ∧ α ≤ 1 then
      match τ.implicit (τ.C.sub (τ.alongFlow φ tr.guard)
          (τ.C.scale (τ.C.compose (flowDom φ) tr.guard fun i => τ.C.coord (flowDom φ) (Fin.castAdd 1 i)) α))
          φ.dom (between 0 φ.h) with
      | .ok f => some (some f)
      | _ => some none
    else some none
  else none

/-- The loop on lines 1868-1914: the spacial evolution time and the remaining crossings. -/
def Tools.creepLoop {q : L} (φ : Flow (dim q) K) : List (Trans L Ev dim K q × Crossing (dim q) K) → Patch (dim q) K →
    Option (Patch (dim q) K × List (Trans L Ev dim K q × Crossing (dim q) K))
  | [], s => some (s, [])
  | c :: l, s =>
    if c.1.kind = .permissive then (Tools.creepLoop φ l s).map fun r => (r.1, c :: r.2)
    else
      (τ.creepTime φ c.1).bind fun f =>
        match f with
        | some f => Tools.creepLoop φ l (τ.mul s (τ.C.scale f (1 / φ.h)))
        | none => (Tools.creepLoop φ l s).map fun r => (r.1, c :: r.2)

/-- `GeneralHybridEvolver::_estimate_timing` (lines 1616-1965): the timing, and the crossings which remain. -/
def Tools.timing {q : L} (φ : Flow (dim q) K) (E : Encl n (dim q) K)
    (cr : List (Trans L Ev dim K q × Crossing (dim q) K)) :
    Option (Timing n K × List (Trans L Ev dim K q × Crossing (dim q) K)) :=
  (τ.temporal E φ.h).bind fun t =>
    (if t.2.2.1 = .at_ then some false else τ.creep φ E cr).bind fun b =>
      if b then
        (τ.creepLoop φ cr (τ.C.const φ.dom (φ.h * (15 / 16)))).map fun r =>
          let evo := τ.mul (τ.C.compose E.dom (τ.C.clobber r.1) E.fn) (τ.C.scale t.2.2.2 (1 / φ.h))
          (⟨false, false, .before, evo, τ.C.add evo E.time⟩, r.2)
      else some (⟨t.1, t.2.1, t.2.2.1, t.2.2.2, τ.C.add t.2.2.2 E.time⟩, cr)

/-! ## Guards -/

/-- `_apply_guard` (lines 975-1124) for one set: the set which takes its place, and the sets which are appended.  The
starting state and the elapsed time are functions of the parameters of the set. -/
def Tools.guardOne (φ : Flow m K) (start : Fin m → Patch n K) (el : Patch n K) (g : Patch m K) (E : Encl n m K) :
    Crossing m K → Option (Encl n m K × List (Encl n m K))
  | .transverse γ => some (τ.newLe E el (τ.C.compose E.dom γ start), [])
  | .convex => some (E.newNegativeStateConstraint τ.C g, [])
  | .increasing => some (E.newNegativeStateConstraint τ.C g, [])
  | .grazing μ range =>
    let crit := τ.C.compose E.dom μ start
    let final := τ.C.compose E.dom g fun i => τ.C.compose E.dom (φ.fn i) (ext start el)
    let maximal := τ.C.compose E.dom g fun i => τ.C.compose E.dom (φ.fn i) (ext start crit)
    ((τ.newNonneg (τ.newLe E el crit) maximal).isEmpty τ.X τ.C).bind fun r =>
      if LV.definitely r.1 then some (E, [])
      else
        ((τ.newNonpos (τ.newLe E crit el) final).isEmpty τ.X τ.C).bind fun r =>
          if LV.definitely r.1 then some (τ.newNonpos E final, [])
          else
            ((τ.newNonpos (τ.newLe (τ.newNonneg E maximal) el crit) final).reduce τ.X τ.C).bind fun hitting =>
              ((τ.newNonpos E maximal).reduce τ.X τ.C).bind fun missing =>
                ((τ.newNonpos (τ.newNonneg E maximal) crit).reduce τ.X τ.C).bind fun past =>
                  (missing.isEmpty τ.X τ.C).bind fun rm => (hitting.isEmpty τ.X τ.C).bind fun rh =>
                    (past.isEmpty τ.X τ.C).map fun rp =>
                      let pasts := if LV.definitely rp.1 then [] else [rp.2]
                      if Ext.lt (fin 0) range.l || LV.definitely rm.1 then (hitting, pasts)
                      else if LV.definitely rh.1 then (rm.2, pasts)
                      else (rm.2, rh.2 :: pasts)
  | .degenerate | .concave =>
    if τ.upper then
      let at_ := fun a : K => τ.C.compose E.dom g fun i => τ.C.compose E.dom (φ.fn i) (ext start (τ.C.scale el a))
      some (τ.newNonpos (τ.newNonpos E (at_ (1 / 2))) (at_ 1), [])
    else some (τ.newNonpos E (τ.C.const E.dom 1), [])
  | .decreasing => some (E, [])

/-- `_apply_guard` (lines 975-1124). -/
def Tools.applyGuard (φ : Flow m K) (start : Fin m → Patch n K) (el : Patch n K) (g : Patch m K) (c : Crossing m K)
    (l : List (Encl n m K)) : Option (List (Encl n m K)) :=
  (l.mapM fun E => τ.guardOne φ start el g E c).bind fun r =>
    if τ.strict && r.any fun x => !x.2.isEmpty then none
    else some (r.map Prod.fst ++ r.flatMap Prod.snd)

/-- The guards of several events, one after the other. -/
def Tools.applyGuards {q : L} (φ : Flow (dim q) K) (start : Fin (dim q) → Patch n K) (el : Patch n K) :
    List (Trans L Ev dim K q × Crossing (dim q) K) → List (Encl n (dim q) K) → Option (List (Encl n (dim q) K))
  | [], l => some l
  | c :: cs, l => (τ.applyGuard φ start el c.1.guard c.2 l).bind fun l => Tools.applyGuards φ start el cs l

/-- The guards which are applied late do not split the set (lines 1369-1382). -/
def Tools.lateGuards {q : L} (φ : Flow (dim q) K) (start : Fin (dim q) → Patch n K) (el : Patch n K)
    (cs : List (Trans L Ev dim K q × Crossing (dim q) K)) (E : Encl n (dim q) K) : Option (Encl n (dim q) K) :=
  (τ.applyGuards φ start el cs [E]).bind List.head?

/-- A set of states about to jump, with the starting state and the elapsed time; `none` if the elapsed time has one
more argument than the set (lines 1473-1490), which makes the assertion on line 1001 fail. -/
structure Jump (m : ℕ) (K : Type*) [Field K] [LinearOrder K] [IsStrictOrderedRing K] where
  n : ℕ
  set : Encl n m K
  start : Fin m → Patch n K
  el : Option (Patch n K)

/-- A step over the whole evolution time (`apply_parameter_reach_step`), followed by further constraints. -/
def Tools.reachJump (φ : Flow m K) (E : Encl n m K) (t : Timing n K) (f : Encl (n + 1) m K → Encl (n + 1) m K) : Jump m K :=
  ⟨n + 1, f (E.applyParameterReachStep τ.C φ t.evo), fun i => τ.C.embed 1 (E.fn i),
    some (τ.C.coord (ext E.dom (between 0 φ.h)) (Fin.natAdd n 0))⟩

/-- `_apply_guard_step` (lines 859-946), without the treatment of impacts.  The empty set on line 935 is made by a
constraint on the parameters. -/
def Tools.guardStep {q : L} (φ : Flow (dim q) K) (E : Encl n (dim q) K) (t : Timing n K) (tr : Trans L Ev dim K q)
    (c : Crossing (dim q) K) : Jump (dim q) K :=
  if tr.kind = .permissive then
    τ.reachJump φ E t fun F => F.newPositiveStateConstraint τ.C tr.guard
  else
    match c with
    | .transverse γ =>
      let s := τ.C.compose E.dom γ E.fn
      let E' := if !t.constant && !Ext.le (τ.C.range E.dom (τ.C.sub s t.evo)).u (fin 0) then τ.newLe E s t.evo else E
      ⟨n, E'.applyParameterEvolveStep τ.C φ.fn s, E.fn, some s⟩
    | .increasing => τ.reachJump φ E t fun F => F.newZeroStateConstraint τ.C tr.guard
    | .convex => τ.reachJump φ E t fun F => F.newZeroStateConstraint τ.C tr.guard
    | .grazing _ _ => τ.reachJump φ E t fun F =>
        (F.newZeroStateConstraint τ.C tr.guard).newNegativeStateConstraint τ.C tr.ndguard
    | .concave => τ.reachJump φ E t fun F =>
        (F.newZeroStateConstraint τ.C tr.guard).newNegativeStateConstraint τ.C tr.ndguard
    | .degenerate =>
      if τ.upper then τ.reachJump φ E t fun F =>
        (F.newZeroStateConstraint τ.C tr.guard).newNegativeStateConstraint τ.C tr.ndguard
      else ⟨n, τ.newNonpos E (τ.C.const E.dom 1), E.fn, none⟩
    | .decreasing => ⟨n, E, E.fn, none⟩

/-- Lines 948-960: the derivative must not be negative at an impact. -/
def Tools.impact {q : L} (tr : Trans L Ev dim K q) (J : Jump (dim q) K) : Option (Jump (dim q) K) :=
  if tr.kind = .impact then
    let F := if Ext.le (ConstraintSolver.apply tr.dguard.ev (J.set.boundingBox τ.C)).l (fin 0) then
      J.set.newPositiveStateConstraint τ.C tr.dguard else J.set
    (F.isEmpty τ.X τ.C).map fun r => { J with set := r.2 }
  else some J

/-- Lines 1492-1514: the bound on the time, and the guards of the other events. -/
def Tools.otherGuards {q : L} (φ : Flow (dim q) K) (others : List (Trans L Ev dim K q × Crossing (dim q) K))
    (J : Jump (dim q) K) : Option (List (Encl J.n (dim q) K)) :=
  (if τ.over J.set then ((τ.boundTime J.set).isEmpty τ.X τ.C).map Prod.snd else some J.set).bind fun F =>
    if others.isEmpty then some [F]
    else J.el.bind fun el => τ.applyGuards φ J.start el others [F]

/-- Lines 1517-1529. -/
def Tools.jumpAll {q : L} (events : List Ev) (tr : Trans L Ev dim K q) : List (Encl n (dim q) K) →
    Option (List (HAction L Ev dim K))
  | [] => some []
  | F :: l => (F.isEmpty τ.X τ.C).bind fun r => (Tools.jumpAll events tr l).map fun as =>
      if LV.definitely r.1 then as else .push (τ.reset events tr r.2, true) :: as

/-- Lines 1465-1529: the jumps by one event. -/
def Tools.jump [DecidableEq Ev] {q : L} (φ : Flow (dim q) K) (events : List Ev) (E : Encl n (dim q) K) (t : Timing n K)
    (blocking : List (Trans L Ev dim K q × Crossing (dim q) K)) (c : Trans L Ev dim K q × Crossing (dim q) K) :
    Option (List (HAction L Ev dim K)) :=
  (τ.impact c.1 (τ.guardStep φ E t c.1 c.2)).bind fun J =>
    (τ.otherGuards φ (blocking.filter fun o => o.1.event ≠ c.1.event) J).bind fun l => τ.jumpAll events c.1 l

/-- The jumps by several events (lines 1462-1530). -/
def Tools.jumps [DecidableEq Ev] {q : L} (φ : Flow (dim q) K) (events : List Ev) (E : Encl n (dim q) K) (t : Timing n K)
    (blocking : List (Trans L Ev dim K q × Crossing (dim q) K)) :
    List (Trans L Ev dim K q × Crossing (dim q) K) → Option (List (HAction L Ev dim K))
  | [] => some []
  | c :: l => (τ.jump φ events E t blocking c).bind fun as =>
      (Tools.jumps φ events E t blocking l).map fun bs => as ++ bs

/-! ## The evolution step -/

/-- `_apply_evolve_step` (lines 834-857). -/
def Tools.evolveStep (φ : Flow m K) (E : Encl n m K) (t : Timing n K) : Encl n m K :=
  if t.finishing then E.applyFinishingParameterEvolveStep τ.C φ.fn t.fin
  else E.applyParameterEvolveStep τ.C φ.fn t.evo

/-- Lines 1387-1396: the evolved sets at the final time. -/
def Tools.finals {q : L} (events : List Ev) : List (Encl n (dim q) K) → Option (List (HAction L Ev dim K))
  | [] => some []
  | F :: l => (F.isEmpty τ.X τ.C).bind fun r => (Tools.finals events l).map fun as =>
      if LV.definitely r.1 then as else .final ⟨q, events, n, r.2⟩ :: as

/-- Lines 1405-1438: the evolved sets, each with the set from which the evolution goes on. -/
def Tools.evolved {q : L} (events : List Ev) : List (Encl n (dim q) K × Encl n (dim q) K) →
    Option (List (HAction L Ev dim K))
  | [] => some []
  | (next, F) :: l =>
    if Ext.lt τ.final.u (timeRange F).l then Tools.evolved events l
    else
      ((if τ.over F then τ.boundTime F else F).isEmpty τ.X τ.C).bind fun r => (Tools.evolved events l).map fun as =>
        if LV.definitely r.1 then as
        else .push (⟨q, events, n, next⟩, false) :: .inter ⟨q, events, n, r.2⟩ :: as

/-- Lines 1439-1456: the reached sets. -/
def Tools.reached {q : L} (events : List Ev) (kind : Finish) : List (Encl n (dim q) K) → Option (List (HAction L Ev dim K))
  | [] => some []
  | F :: l =>
    (if τ.over F && !(kind = .before) then ((τ.setTime F).isEmpty τ.X τ.C).map fun r =>
        if LV.definitely r.1 then [] else [.final ⟨q, events, n, r.2⟩]
      else some []).bind fun fs =>
        (Tools.reached events kind l).map fun as => fs ++ .reach ⟨q, events, n, τ.boundTime F⟩ :: as

/-- `_apply_evolution_step` (lines 1297-1536). -/
def Tools.apply [DecidableEq Ev] {q : L} (φ : Flow (dim q) K) (events : List Ev) (E : Encl n (dim q) K) (t : Timing n K)
    (cr : List (Trans L Ev dim K q × Crossing (dim q) K)) : Option (List (HAction L Ev dim K)) :=
  (E.isEmpty τ.X τ.C).bind fun r =>
    if LV.definitely r.1 then some []
    else
      let blocking := cr.filter fun c => c.1.kind.blocking
      let coord := τ.C.coord (ext E.dom (between 0 φ.h)) (Fin.natAdd n 0)
      (τ.applyGuards φ (fun i => τ.C.embed 1 (E.fn i)) coord blocking [E.applyParameterReachStep τ.C φ t.evo]).bind fun reach =>
        (τ.applyGuards φ E.fn t.evo (blocking.filter fun c => !c.2.late) [τ.evolveStep φ E t]).bind fun next =>
          (next.mapM (τ.lateGuards φ E.fn t.evo (blocking.filter fun c => c.2.late))).bind fun evolve =>
            (if t.kind = .at_ then
              (τ.finals events evolve).map fun as => as ++ reach.map fun F => .reach ⟨q, events, n + 1, F⟩
            else
              (τ.evolved events (next.zip evolve)).bind fun as => (τ.reached events t.kind reach).map fun bs => as ++ bs).bind
                fun as => (τ.jumps φ events E t blocking (cr.filter fun c => c.1.kind.activating)).map fun bs => as ++ bs

/-- The norm of the errors (line 1236). -/
def Tools.errorNorm (E : Encl n m K) : K := (List.finRange m).foldl (fun s i => max s (τ.C.error (E.fn i))) 0

/-- Line 1253. -/
def Tools.pushAll (q : L) (events : List Ev) : List (Encl n (dim q) K) → Option (List (HAction L Ev dim K))
  | [] => some []
  | F :: l => (F.isEmpty τ.X τ.C).bind fun r => (Tools.pushAll q events l).map fun as =>
      if LV.definitely r.1 then as else .push (⟨q, events, n, r.2⟩, false) :: as

/-- `_evolution_step` (lines 1200-1294). -/
def Tools.evolution [DecidableEq Ev] (sys : (q : L) → List (Trans L Ev dim K q))
    (flowStep : (q : L) → Box (dim q) K → Flow (dim q) K) (S : HSet L Ev dim K) : Option (List (HAction L Ev dim K)) :=
  (S.set.isEmpty τ.X τ.C).bind fun r =>
    if LV.definitely r.1 then some []
    else
      let E := r.2
      if τ.late E then some [.drop (S, false)]
      else if τ.reconditioning && decide (τ.maximumError < τ.errorNorm E) then
        let F := τ.kuhn (E.uniformErrorRecondition τ.C τ.errorTolerance)
        some [.push (⟨S.loc, S.events, F.1, F.2⟩, false)]
      else if !Ext.le (τ.radius (E.boundingBox τ.C)) (fin τ.maximumRadius) && (!τ.upper || τ.subdivisions) then
        if τ.upper then (τ.split E).bind (τ.pushAll S.loc S.events) else some [.drop (S, false)]
      else
        let φ := flowStep S.loc (E.boundingBox τ.C)
        (τ.activeEvents (E.applyFullReachStep τ.C φ) (sys S.loc)).bind fun active =>
          (τ.crossings φ E active).bind fun cr =>
            (τ.timing φ E cr).bind fun t => τ.apply φ S.events E t.1 t.2

/-- `_process_working_set` (lines 1182-1198). -/
def Tools.process [DecidableEq Ev] (terminating : Ev → Bool) (sys : (q : L) → List (Trans L Ev dim K q))
    (flowStep : (q : L) → Box (dim q) K → Flow (dim q) K) (x : HSet L Ev dim K × Bool) :
    Option (List (HAction L Ev dim K)) :=
  if x.2 then τ.jumped terminating sys x.1 else τ.evolution sys flowStep x.1

/-- `orbit(initial,termination,semantics)` (lines 273-291): the state before `process()`. -/
def orbitInit (S : HSet L Ev dim K) : WState (HSet L Ev dim K) (HSet L Ev dim K × Bool) :=
  ⟨[(S, true)], [], Orbit.none⟩

end Verif.HybridEvolver
