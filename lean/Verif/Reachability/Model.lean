import Mathlib.Data.Finset.Union
import Mathlib.Data.Finset.SDiff
import Mathlib.Data.Finset.Lattice.Basic
import Mathlib.Algebra.Order.Monoid.Canonical.Defs
import Mathlib.Algebra.Order.Sub.Defs

/-!
# Reachability analysis on a grid

Model of source/dynamics/reachability_analyser.tpl.hpp.

Simplifications.  A storage (paving) is the finite set of its cells of the maximal
fineness; `mince` and `recombine` change only the representation of the set and are
left out.  The evolver is an oracle: `reach c t` and `final c t` are the cells
adjoined for the orbit of length `t` of the enclosure of cell `c` (the calls of
`orbit(...).reach()`, `orbit(...).final()` and `adjoin_outer_approximation_to`).
Times are not negative.  Loops which need not end take a bound on the number of
iterations; `none` means that the bound was reached.
-/

namespace Ariadne.Reachability

/-- `ChainOverspillPolicy` (reachability_analyser.hpp 64) -/
inductive Policy | ignore | warning | error
deriving DecidableEq

/-- The evolver and the parts of the configuration used by the analyser. -/
structure Analyser (C T : Type*) where
  reach : C → T → Finset C
  final : C → T → Finset C
  /-- the cells within the maximum grid extent -/
  extent : Finset C
  /-- outer approximation of the bounding domain; empty if there is none -/
  bounding : Finset C

variable {C T : Type*} [DecidableEq C]

namespace Analyser
variable (A : Analyser C T)

def reachOf (S : Finset C) (t : T) : Finset C := S.biUnion fun c => A.reach c t
/-- `_upper_evolve` (reachability_analyser.tpl.hpp 148-167) -/
def finalOf (S : Finset C) (t : T) : Finset C := S.biUnion fun c => A.final c t

/-- `_adjoin_upper_reach_evolve` (reachability_analyser.tpl.hpp 170-199); the set evolved
is copied first (line 181), so it may be the same object as `evolve`. -/
def adjoinReachEvolve (reach evolve set : Finset C) (t : T) : Finset C × Finset C :=
  (reach ∪ A.reachOf set t, evolve ∪ A.finalOf set t)

/-- `_checked_restriction` (reachability_analyser.tpl.hpp 676-699); `error ()`: exception -/
def checkedRestriction (p : Policy) (set : Finset C) : Except Unit (Finset C) :=
  let r := set ∩ A.extent
  let r := if A.bounding ≠ ∅ then r ∩ A.bounding else r
  if p = .error ∧ set \ r ≠ ∅ then .error () else .ok r

/-! ### Chain reachability -/

/-- the loop of `outer_chain_reach` (reachability_analyser.tpl.hpp 568-585) -/
def chainLoop (p : Policy) (lock : T) : ℕ → (reach evolve starting acc : Finset C) →
    Option (Except Unit (Finset C))
  | 0, reach, _, starting, _ => if starting = ∅ then some (.ok reach) else none
  | n + 1, reach, evolve, starting, acc =>
    if starting = ∅ then some (.ok reach) else
      let re := A.adjoinReachEvolve reach evolve starting lock
      match A.checkedRestriction p re.2 with
      | .error e => some (.error e)
      | .ok evolve =>
        let starting := evolve \ acc
        chainLoop p lock n re.1 evolve starting (acc ∪ starting)

/-- `outer_chain_reach` (reachability_analyser.tpl.hpp 516-588).  `init` is the outer
approximation of the initial set (544); `transient = some t` if the transient time is
definitely positive (550). -/
def outerChainReach (p : Policy) (lock : T) (transient : Option T) (init : Finset C) (fuel : ℕ) :
    Option (Except Unit (Finset C)) :=
  match A.checkedRestriction p init with
  | .error e => some (.error e)
  | .ok init =>
    let start : Except Unit (Finset C × Finset C) :=
      match transient with
      | some t =>
        let re := A.adjoinReachEvolve ∅ ∅ init t
        match A.checkedRestriction p re.2 with
        | .error e => .error e
        | .ok evolve => .ok (re.1, evolve)
      | none => .ok (∅, init)
    match start with
    | .error e => some (.error e)
    | .ok (reach, evolve) =>
      match A.chainLoop p lock fuel reach evolve evolve evolve with
      | none => none
      | some (.error e) => some (.error e)
      | some (.ok reach) => some (A.checkedRestriction p reach)

/-! ### Safety -/

/-- the verdict of a `SafetyCertificate`, with its cells -/
inductive Certificate (C : Type*)
  | indeterminate (reach safe : Finset C)
  | safe (reach safe : Finset C)
deriving DecidableEq

/-- the loop of `verify_safety` (reachability_analyser.tpl.hpp 651-670).  The restriction in
line 664 is applied to the initial cells, not to the evolved cells, and so has no effect
on the loop. -/
def safetyLoop (lock : T) (safe : Finset C) : ℕ → (reach evolve starting acc : Finset C) →
    Option (Finset C × Bool)
  | 0, reach, _, starting, _ => if starting = ∅ then some (reach, true) else none
  | n + 1, reach, evolve, starting, acc =>
    if starting = ∅ then some (reach, true) else
    if ¬ reach ⊆ safe then some (reach, false) else
      let re := A.adjoinReachEvolve reach evolve starting lock
      let starting := re.2 \ acc
      safetyLoop lock safe n re.1 re.2 starting (acc ∪ starting)

/-- `verify_safety` (reachability_analyser.tpl.hpp 591-673).  `safe` is the inner
approximation of the safe set (601). -/
def verifySafety (lock : T) (transient : Option T) (init safe : Finset C) (fuel : ℕ) :
    Option (Except Unit (Certificate C)) :=
  match A.checkedRestriction .error init with
  | .error e => some (.error e)
  | .ok init =>
    if ¬ init ⊆ safe then some (.ok (.indeterminate init safe)) else
    let start : Finset C × Finset C :=
      match transient with
      | some t => A.adjoinReachEvolve ∅ ∅ init t
      | none => (∅, init)
    match A.safetyLoop lock safe fuel start.1 start.2 start.2 start.2 with
    | none => none
    | some (reach, false) => some (.ok (.indeterminate reach safe))
    | some (reach, true) =>
      match A.checkedRestriction .error reach with
      | .error e => some (.error e)
      | .ok reach => some (.ok (.safe reach safe))

/-! ### Finite time -/

/-- `upper_evolve` (reachability_analyser.tpl.hpp 381-411).  `steps` is the computed number
of time steps (394), `rem` the remainder time (395) if it is possibly positive (404). -/
def upperEvolve (lock : T) (steps : ℕ) (rem : Option T) (init : Finset C) : Finset C :=
  let e := (fun S => A.finalOf S lock)^[steps] init
  match rem with
  | none => e
  | some r => if e = ∅ then e else A.finalOf e r

/-- the loop of `upper_reach` (reachability_analyser.tpl.hpp 441-453); the components are
`found_cells`, `evolve_cells`, `accumulated_evolve_cells`, `reach_cells`. -/
def upperReachLoop (lock : T) : ℕ → Finset C × Finset C × Finset C × Finset C →
    Finset C × Finset C × Finset C × Finset C
  | 0, s => s
  | n + 1, (found, evolve, acc, reach) =>
    let acc := acc ∪ found
    let fe := A.adjoinReachEvolve found evolve evolve lock
    let found := fe.1
    let evolve := fe.2 \ acc
    let reach := reach ∪ found
    let acc := acc ∪ evolve
    if evolve = ∅ then (found, evolve, acc, reach) else upperReachLoop lock n (found, evolve, acc, reach)

/-- `upper_reach` after the loop (reachability_analyser.tpl.hpp 454-464) -/
def upperReachFinish (rem : Option T) (s : Finset C × Finset C × Finset C × Finset C) : Finset C :=
  match s, rem with
  | (_, evolve, _, reach), none => reach ∪ evolve
  | (found, evolve, acc, reach), some r =>
    (if evolve = ∅ then reach else reach ∪ (A.adjoinReachEvolve found acc evolve r).1) ∪ evolve

/-- `upper_reach` (reachability_analyser.tpl.hpp 415-465) -/
def upperReach (lock : T) (steps : ℕ) (rem : Option T) (init : Finset C) : Finset C :=
  A.upperReachFinish rem (A.upperReachLoop lock steps (∅, init, ∅, init))

/-- the loop of `upper_reach_evolve` (reachability_analyser.tpl.hpp 495-501); the components
are `found_cells`, `evolve_cells`, `reach_cells`. -/
def upperReachEvolveLoop (lock : T) : ℕ → Finset C × Finset C × Finset C → Finset C × Finset C × Finset C
  | 0, s => s
  | n + 1, (found, evolve, reach) =>
    let fe := A.adjoinReachEvolve found evolve evolve lock
    upperReachEvolveLoop lock n (fe.1, fe.2, reach ∪ fe.1)

/-- `upper_reach_evolve` (reachability_analyser.tpl.hpp 469-513) -/
def upperReachEvolve (lock : T) (steps : ℕ) (rem : Option T) (init : Finset C) : Finset C × Finset C :=
  let s := A.upperReachEvolveLoop lock steps (∅, init, init)
  let found := s.1; let evolve := s.2.1; let reach := s.2.2
  match rem with
  | none => (reach, evolve)
  | some r =>
    if evolve = ∅ then (reach, evolve) else
      let fe := A.adjoinReachEvolve found evolve evolve r
      (reach ∪ fe.1, fe.2)

end Analyser

/-- `compute_time_steps` (reachability_analyser.tpl.hpp 376-378) for integer times: the
quotient rounded to the nearest integer. -/
def computeTimeSteps (time lock : ℕ) : ℕ := (2 * time + lock) / (2 * lock)

/-- the remainder time if positive (reachability_analyser.tpl.hpp 395, 404), integer times -/
def remainderTime (time lock : ℕ) : Option ℕ :=
  if (time : Int) - computeTimeSteps time lock * lock > 0
  then some (time - computeTimeSteps time lock * lock) else none

end Ariadne.Reachability
