import Verif.Bounds.Model
import Verif.Rounding.Props
import Mathlib.Data.List.Sort

/-!
# The evolver for differential inclusions

Model of `DifferentialInclusionEvolver::orbit` and of the state `InclusionEvolverState` that decides which
approximations of the inputs are tried in a step (source/dynamics/differential_inclusion_evolver.cpp).

The flow tubes, the functions for the reached and the evolved sets and their volumes come from the
integrator (see `Verif.Inclusion` for the errors of the approximations); here they are parameters.
-/

namespace Verif.InclusionEvolver

open Ariadne (Ext Rounding)

/-! ## Approximations and their schedule -/

/-- The approximations of the inputs (source/solvers/inclusion_integrator.hpp 186-215).  Integrators are
equal if they are for the same approximation (inclusion_integrator.cpp 273-275). -/
inductive Kind
  | zero | constant | affine | sinusoidal | piecewise
deriving DecidableEq

/-- `index()` (inclusion_integrator.hpp 189, 195, 201, 207, 213). -/
def Kind.index : Kind → ℕ
  | .zero => 0
  | .constant => 1
  | .affine => 2
  | .sinusoidal => 3
  | .piecewise => 4

/-- `is_reach_rigorous()` (inclusion_integrator.hpp 187, 193, 199, 205, 211). -/
def Kind.rigorous : Kind → Bool
  | .zero => true
  | .constant => true
  | .affine => false
  | .sinusoidal => false
  | .piecewise => false

/-- `ScheduledApproximator` (differential_inclusion_evolver.cpp 59-65). -/
structure Entry where
  step : ℕ
  appr : Kind
deriving DecidableEq

/-- `InclusionEvolverState` (75-81).  The type `Nat` of the steps, offsets and delays has 32 bits; here
they are not bounded (`C82_no_overflow` shows when this makes no difference). -/
structure State where
  step : ℕ
  schedule : List Entry
  delay : Kind → ℕ
  globalCount : Kind → ℕ
  localCount : Kind → ℕ

/-- The approximations that are used: those of the configuration, and the constant one if none of them
gives rigorous reachable sets (87-102). -/
def withRigorous (as : List Kind) : List Kind :=
  if as.any Kind.rigorous then as else as ++ [.constant]

/-- The constructor (83-103). -/
def init (as : List Kind) : State where
  step := 0
  schedule := (withRigorous as).map fun a => ⟨0, a⟩
  delay := fun _ => 0
  globalCount := fun _ => 0
  localCount := fun _ => 0

/-- The loop of `approximators_to_use` (139-146) over the schedule, from its back. -/
def useBack (k : ℕ) : List Entry → List Kind
  | [] => []
  | e :: r => if e.step = k then e.appr :: useBack k r else if k < e.step then [] else useBack k r

/-- `approximators_to_use` (137-148). -/
def toUse (s : State) : List Kind := useBack s.step s.schedule.reverse

/-- `max_reach_rigorous_index` (117-120). -/
def maxRigorous (as : List Kind) : ℕ :=
  as.foldl (fun k a => if a.rigorous then max k a.index else k) 0

/-- The new delay of an approximation (122-127). -/
def newDelay (best : Kind) (mx : ℕ) (a : Kind) (d : ℕ) : ℕ :=
  if best = a then 0 else if !best.rigorous && decide (a.index = mx) then 0 else d + 1

/-- The loop over the approximations that were used (121-131): the delays, and the new entries. -/
def reschedule (best : Kind) (mx k : ℕ) : List Kind → (Kind → ℕ) → (Kind → ℕ) × List Entry
  | [], d => (d, [])
  | a :: as, d =>
    let n := newDelay best mx a (d a)
    let r := reschedule best mx k as (Function.update d a n)
    (r.1, ⟨k + 2 ^ n, a⟩ :: r.2)

/-- `update_with_best` (116-135); `sort` is `std::sort` with the comparator of 70-73. -/
def updateWithBest (sort : List Entry → List Entry) (s : State) (best : Kind) : State :=
  let r := reschedule best (maxRigorous (toUse s)) s.step (toUse s) s.delay
  { s with
    schedule := sort (s.schedule ++ r.2)
    delay := r.1
    globalCount := Function.update s.globalCount best (s.globalCount best + 1)
    localCount := Function.update s.localCount best (s.localCount best + 1) }

/-- The loop of `next_step` (151-158) over the schedule, from its back; `none` if it does not terminate. -/
def popBack (k : ℕ) : List Entry → Option (List Entry)
  | [] => some []
  | e :: r => if e.step = k then popBack k r else if k < e.step then some (e :: r) else none

/-- `next_step` (150-160). -/
def nextStep (s : State) : Option State :=
  (popBack s.step s.schedule.reverse).map fun l => { s with schedule := l.reverse, step := s.step + 1 }

/-- `std::sort` gives some permutation that is sorted; the order of entries with the same step is not
specified. -/
def Sorts (sort : List Entry → List Entry) : Prop :=
  ∀ l, (sort l).Perm l ∧ (sort l).Pairwise fun a b => b.step ≤ a.step

/-! ## The choice of the best approximation -/

/-- What is computed for an approximation: `current_reach.at(0)`, `current_evolve` and `current_volume`
(271-274). -/
structure Cand (F G K : Type*) where
  appr : Kind
  reach : G
  evolve : F
  volume : Ext K

/-- The variables of the loop (260-266).  Functions are handles, which are null until they are assigned. -/
structure Sel (F G K : Type*) where
  best : Kind
  reach : Option G
  evolve : Option F
  volume : Ext K
  rigReach : Option G
  rigVolume : Ext K

variable {F G K : Type*} [Field K] [LinearOrder K] [IsStrictOrderedRing K]

/-- One round of the loop (268-289). -/
def selStep (s : Sel F G K) (c : Cand F G K) : Sel F G K :=
  let s1 : Sel F G K :=
    if Ext.lt c.volume s.volume then
      { s with
        best := c.appr
        reach := if c.appr.rigorous then some c.reach else s.reach
        evolve := some c.evolve
        volume := c.volume }
    else s
  if c.appr.rigorous && Ext.lt c.volume s1.rigVolume then
    { s1 with rigReach := some c.reach, rigVolume := c.volume }
  else s1

/-- The choice (260-292): the best approximation, its reached set and its evolved set. -/
def select (first : Kind) (cs : List (Cand F G K)) : Kind × Option G × Option F :=
  let s := cs.foldl selStep ⟨first, none, none, .pinf, none, .pinf⟩
  (s.best, if s.best.rigorous then s.reach else s.rigReach, s.evolve)

/-! ## Orbits -/

/-- The parts of a step that are not modelled. -/
structure Method (F G K : Type*) where
  /-- the step size of `bounder.compute` (255) -/
  stepSize : F → K
  /-- `approximator.reach(domx,evolve_function,B,t,h).at(0)` (271), with `h` and `B` from the bounder -/
  reach : Kind → F → K → K → G
  /-- `approximator.evolve(reach,new_t)` (272) -/
  evolve : Kind → G → K → F
  /-- `volume(current_evolve.range())` (274) -/
  volume : F → Ext K
  /-- `reduce_parameters` after `update_from` (198-199) -/
  reduce : State → F → F
  /-- `incorporate_errors` (204) -/
  incorporate : F → F
  /-- `std::sort` -/
  sort : List Entry → List Entry

/-- The variables of `orbit` and its results (225-231). -/
structure Run (F G K : Type*) where
  time : K
  evolve : F
  state : State
  reached : List (K × K × G)
  intermediate : List (K × F)

/-- `must_reduce_parameters` (345-348). -/
def mustReduce (freq : ℕ) (s : State) : Bool := freq != 0 && s.step % freq == freq - 1

/-- `_recondition_and_update` (196-206). -/
def recondition (M : Method F G K) (freq : ℕ) (f : F) (s : State) : F × State :=
  if mustReduce freq s then (M.incorporate (M.reduce s f), { s with localCount := fun _ => 0 })
  else (M.incorporate f, s)

/-- One round of the loop of `orbit` (235-318).  The result is `none` if the code would use a null
function or an element of an empty list, or would not terminate. -/
def orbitStep (R : Rounding K) (M : Method F G K) (freq : ℕ) (r : Run F G K) :
    Option (Run F G K) :=
  let h := M.stepSize r.evolve
  let t' := R.down (r.time + h)
  let cs := (toUse r.state).map fun a =>
    let g := M.reach a r.evolve r.time h
    let f := M.evolve a g t'
    (⟨a, g, f, M.volume f⟩ : Cand F G K)
  (toUse r.state).head?.bind fun first =>
    let c := select first cs
    c.2.1.bind fun g => c.2.2.bind fun f =>
      let q := recondition M freq f (updateWithBest M.sort r.state c.1)
      (nextStep q.2).map fun s =>
        ⟨t', q.1, s, r.reached ++ [(r.time, t', g)], r.intermediate ++ [(t', q.1)]⟩

/-- The loop of `orbit` (235-318); `none` also if the fuel is not enough. -/
def orbitLoop (R : Rounding K) (M : Method F G K) (freq : ℕ) (tmax : K) :
    ℕ → Run F G K → Option (Run F G K)
  | 0, _ => none
  | n + 1, r =>
    if r.time < R.down tmax then (orbitStep R M freq r).bind (orbitLoop R M freq tmax n) else some r

/-- `orbit` (208-324), for the initial function `f`. -/
def orbit (R : Rounding K) (M : Method F G K) (freq : ℕ) (as : List Kind) (tmax : K)
    (f : F) (n : ℕ) : Option (Run F G K) :=
  orbitLoop R M freq tmax n ⟨0, f, init as, [], []⟩

end Verif.InclusionEvolver
