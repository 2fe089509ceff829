import Verif.Simulator.Model
import Verif.Hybrid.Automaton

/-!
# The hybrid simulator

Model of `source/hybrid/hybrid_simulator.cpp` lines 65-97 and 198-439, of the orbits of hybrid points
(`source/hybrid/hybrid_set.cpp` lines 67-98 and 113-139) and of the comparison of hybrid times
(`source/hybrid/hybrid_time.hpp` lines 109-112).

A system is what the simulator asks of a hybrid automaton; `none` is a thrown exception.  The points are
of any type: the step of the integrator (`C100`) and the reset are functions on them, and the extension by
auxiliary variables (`C100_auxiliary_point`) is left out.  The values of guards are exact elements of an
ordered type instead of `FloatDPApproximation`, for which `probably` decides comparisons.
-/

namespace Verif.Simulator.Hybrid

open Verif.Hybrid (Kind)

/-- What the simulator uses of `HybridAutomatonInterface` and of the integrator. -/
structure Sys (L E P K : Type*) where
  /-- `events(location)`, in increasing order -/
  events : L → Option (List E)
  /-- `event_kind(location,event)` -/
  kind : L → E → Option Kind
  /-- `guard_function(location,event)` -/
  guard : L → E → Option (P → K)
  /-- `target(location,event)` -/
  target : L → E → Option L
  /-- `reset_function(location,event)` -/
  reset : L → E → Option (P → P)
  /-- the step of the integrator with `dynamic_function(location)` -/
  flow : L → Option (P → P)

/-- The state of the loop: `location`, `point`, `t` and the last element of `event_trace`. -/
structure State (L E P K : Type*) where
  loc : L
  pt : P
  time : K
  steps : ℕ
  last : Option E
  deriving DecidableEq

/-- How the loop ends: `fuel` is only for the model. -/
inductive Status | ended | threw | fuel
  deriving DecidableEq

section

variable {L E P K : Type*} [LinearOrder K] [Zero K]

/-- The kinds which are not activated, line 71 and line 84 -/
def blocking : Kind → Bool
  | .invariant => true
  | .progress => true
  | _ => false

/-- The loop of `_guard_functions`, lines 69-73 -/
def guardLoop (S : Sys L E P K) (l : L) : List E → Option (List (E × (P → K)))
  | [] => some []
  | e :: es => match S.kind l e with
    | none => none
    | some k =>
      if blocking k then guardLoop S l es
      else match S.guard l e, guardLoop S l es with
        | some g, some gs => some ((e, g) :: gs)
        | _, _ => none

/-- `_guard_functions`, lines 65-75 -/
def guards (S : Sys L E P K) (l : L) : Option (List (E × (P → K))) := (S.events l).bind (guardLoop S l)

/-- The loop of `_satisfies_invariants`, lines 81-88: the guard function is obtained for every event. -/
def invariantLoop (S : Sys L E P K) (l : L) (x : P) : List E → Option Bool
  | [] => some true
  | e :: es => match S.kind l e, S.guard l e with
    | some k, some g => if blocking k && decide (g x < 0) then some false else invariantLoop S l x es
    | _, _ => none

/-- `_satisfies_invariants`, lines 77-90 -/
def satisfies (S : Sys L E P K) (l : L) (x : P) : Option Bool := (S.events l).bind (invariantLoop S l x)

variable [Add K]

/-- The body of the loop, lines 237-273 (386-430 for a list of points): `some none` is the `break`.  The
functions of the new location are obtained when it is entered. -/
def iterate (S : Sys L E P K) (h : K) (s : State L E P K) : Option (Option (State L E P K)) :=
  match satisfies S s.loc s.pt with
  | none => none
  | some false => some none
  | some true => match guards S s.loc with
    | none => none
    | some gs => match gs.find? (fun g => decide (0 < g.2 s.pt)) with
      | some g => match S.target s.loc g.1, S.reset s.loc g.1 with
        | some l, some r => match S.flow l, guards S l with
          | some _, some _ => some (some ⟨l, r s.pt, s.time, s.steps + 1, some g.1⟩)
          | _, _ => none
        | _, _ => none
      | none => match S.flow s.loc with
        | some f => some (some ⟨s.loc, f s.pt, s.time + h, s.steps, s.last⟩)
        | none => none

/-- The condition of the loop, line 227 (369 for a list of points): `before` is `possibly(·<tmax)` for the continuous
time and `nmax` is the maximal number of steps; hybrid times are compared as in hybrid_time.hpp lines 109-112. -/
def continues (before : K → Bool) (nmax : ℤ) (term : E → Bool) (s : State L E P K) : Bool :=
  before s.time && decide ((s.steps : ℤ) < nmax) && !(s.last.any term)

/-- The loop, lines 227-276: the states after each iteration, and how it ends. -/
def run (S : Sys L E P K) (before : K → Bool) (nmax : ℤ) (term : E → Bool) (h : K) :
    ℕ → State L E P K → List (State L E P K) × Status
  | 0, _ => ([], .fuel)
  | n + 1, s =>
    if continues before nmax term s then
      match iterate S h s with
      | none => ([], .threw)
      | some none => ([], .ended)
      | some (some s') => let r := run S before nmax term h n s'; (s' :: r.1, r.2)
    else ([], .ended)

/-- `orbit` of a point, lines 198-279: the event trace is empty at the start. -/
def simulate (S : Sys L E P K) (before : K → Bool) (nmax : ℤ) (term : E → Bool) (h : K) (fuel : ℕ) (l : L) (x : P) :
    List (State L E P K) × Status :=
  match S.flow l, guards S l with
  | some _, some _ => run S before nmax term h fuel ⟨l, x, 0, 0, none⟩
  | _, _ => ([], .threw)

/-- The simulation of one point of a list, lines 367-435.  By line 345 its event trace is
`List<DiscreteEvent>(DiscreteEvent())`, the list of one default event (container.hpp line 81,
discrete_event.hpp line 38). -/
def simulateListed (S : Sys L E P K) (before : K → Bool) (nmax : ℤ) (term : E → Bool) (h : K) (dflt : E) (fuel : ℕ)
    (l : L) (x : P) : List (State L E P K) × Status :=
  run S before nmax term h fuel ⟨l, x, 0, 0, some dflt⟩

end

section Orbit

variable {L P T : Type*} [LinearOrder T]

/-- `Orbit<HybridApproximatePoint>`: for every number of steps a location and an interpolated curve. -/
abbrev Curves (L P T : Type*) := List (L × List (T × P))

/-- `Orbit<HybridApproximatePoint>::insert`, hybrid_set.cpp lines 87-98; `none` is the failed assertion.  The
rounding of the time is left to the caller. -/
def insertCurve (n : ℕ) (t : T) (l : L) (p : P) (o : Curves L P T) : Option (Curves L P T) :=
  if o.length < n then none
  else if o.length = n then some (o ++ [(l, [(t, p)])])
  else some (o.modify n fun c => (c.1, insert t p c.2))

/-- The insertions of line 274, with the rounding `fl` of times (hybrid_set.cpp line 92) -/
def insertStates {E K : Type*} (fl : K → T) : List (State L E P K) → Curves L P T → Option (Curves L P T)
  | [], o => some o
  | s :: l, o => (insertCurve s.steps (fl s.time) s.loc s.pt o).bind (insertStates fl l)

/-- The orbit which is returned: lines 219-220 (hybrid_set.cpp lines 67-69) and 274 -/
def orbit {E K : Type*} [Zero K] (fl : K → T) (zero : T) (l : L) (x : P) (w : List (State L E P K)) :
    Option (Curves L P T) := insertStates fl w [(l, [(zero, x)])]

/-- `Orbit<Vector<HybridApproximatePoint>>`, hybrid_set.cpp lines 113-120: `vhpt.at(0)` of an empty vector is out of range. -/
def listOrbit (zero : T) : List (L × P) → Option (List (Curves L P T))
  | [] => none
  | ps => some (ps.map fun p => [(p.1, [(zero, p.2)])])

end Orbit

end Verif.Simulator.Hybrid
