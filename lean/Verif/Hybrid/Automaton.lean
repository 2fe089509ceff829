import Verif.Hybrid.Location
import Verif.AlgebraicSort.Props

/-!
# Hybrid automata: construction and queries

Model of `HybridAutomaton` (hybrid/hybrid_automaton.hpp, hybrid_automaton.cpp).  Real-valued expressions and predicates
are elements of types `E` and `P`, of which construction and checking only use the variables which occur in them and the
negation of predicates (`Lang`).  Sets of variables of expressions are finite sets.  Printing, names of automata, and
the unused vector of discrete variables (288-293) are not modelled.  Functions taking the same arguments in a different
order, or supplying default arguments, are modelled once.
-/

namespace Verif.Hybrid

open Verif.Container Ariadne.AlgebraicSort

/-- What the automaton uses of expressions and predicates. -/
structure Lang (V E P : Type*) where
  /-- `RealExpression::arguments` -/
  eargs : E → Finset V
  /-- `ContinuousPredicate::arguments` -/
  pargs : P → Finset V
  /-- `operator!(ContinuousPredicate)` -/
  pnot : P → P
  /-- `ContinuousPredicate(true)` -/
  ptrue : P

/-- `EventKind` (hybrid_automaton_interface.hpp 50) -/
inductive Kind | invariant | progress | permissive | urgent | impact
  deriving DecidableEq

/-- The exceptions thrown. -/
inductive Err
  | indistinguishableMode | specification | algebraicLoop | assertion | nonExistentMode | multipleGuard
  | multipleTransition | overspecifiedReset | unhandledKind | underspecifiedDynamic | underspecifiedConstraint
  | underspecifiedReset | missingGuard | overspecifiedDynamic | multipleUrgent | urgentWithGuards
  deriving DecidableEq

/-- `DiscreteMode` (hybrid_automaton.hpp 139-163) -/
structure Mode (κ ν V ε E P : Type*) [LinearOrder κ] where
  loc : Loc κ ν
  aux : List (V × E)
  sortedAux : List (V × E)
  dyn : List (V × E)
  invs : List (ε × P)
  guards : List (ε × P)
  kinds : List (ε × Kind)
  targets : List (ε × Loc κ ν)
  resets : List (ε × List (V × E))

variable {κ ν V ε E P : Type*} [LinearOrder κ] [LinearOrder ν] [LinearOrder V] [LinearOrder ε]

/-! ### Sorting the algebraic equations -/

/-- The variables an equation uses. -/
def toEq (L : Lang V E P) (a : V × E) : Equation V := ⟨a.1, L.eargs a.2⟩

/-- The loop of `algebraic_sort` (hybrid_automaton.cpp 196-216) on the assignments themselves; see
`Ariadne.AlgebraicSort.sortLoop`.  The first argument bounds the number of iterations. -/
def sortAssignments (aux : List (V × E)) : ℕ → List V → (V → Finset V) → List (V × E) → List (V × E)
  | 0, _, _, out => out
  | n + 1, lhs, deps, out =>
    match lhs.find? (fun v => deps v = ∅) with
    | none => out
    | some v => sortAssignments aux n (lhs.erase v) (fun w => (deps w).erase v)
        (out ++ (aux.find? fun a => a.1 = v).toList)

/-- `algebraic_sort` (hybrid_automaton.cpp 179-224). -/
def sortAux (L : Lang V E P) (aux : List (V × E)) : Except Err (List (V × E)) :=
  let lhs := aux.map Prod.fst
  let out := sortAssignments aux lhs.length lhs (dependencies (aux.map (toEq L))) []
  if lhs ≠ [] ∧ out = [] then .error .algebraicLoop
  else if aux.length = out.length then .ok out
  else .error .assertion

/-! ### Construction -/

/-- `HybridAutomaton::_modes` (hybrid_automaton.hpp 257) -/
abbrev Automaton (κ ν V ε E P : Type*) [LinearOrder κ] := List (Loc κ ν × Mode κ ν V ε E P)

/-- `DiscreteMode(location,auxiliary,dynamic)` (hybrid_automaton.cpp 58-65) -/
def mkMode (L : Lang V E P) (l : Loc κ ν) (aux dyn : List (V × E)) : Except Err (Mode κ ν V ε E P) :=
  match sortAux L aux with
  | .error e => .error e
  | .ok s => .ok ⟨l, aux, s, dyn, [], [], [], [], []⟩

/-- A call leaves the automaton in some state, and may throw an exception. -/
abbrev Res (κ ν V ε E P : Type*) [LinearOrder κ] := Automaton κ ν V ε E P × Option Err

/-- `_new_mode` (hybrid_automaton.cpp 299-338).  Both loops (316-333) insert into one set and throw the same exception
for a variable already in it. -/
def newMode (L : Lang V E P) (A : Automaton κ ν V ε E P) (l : Loc κ ν) (aux dyn : List (V × E)) : Res κ ν V ε E P :=
  if A.any fun p => !l.areDistinguishable p.1 then (A, some .indistinguishableMode)
  else if !uniqueElements (aux.map Prod.fst ++ dyn.map Prod.fst) then (A, some .specification)
  else match mkMode L l aux dyn with
    | .error e => (A, some e)
    | .ok m => (minsert l m A, none)

/-- `has_location` (hybrid_automaton.cpp 468-472) -/
def hasLocation (A : Automaton κ ν V ε E P) (l : Loc κ ν) : Bool := hasKey l A

/-- `_new_invariant` (hybrid_automaton.cpp 341-354) -/
def newInvariant (A : Automaton κ ν V ε E P) (l : Loc κ ν) (inv : P) (e : ε) : Res κ ν V ε E P :=
  match find l A with
  | none => (A, some .nonExistentMode)
  | some m =>
    if hasKey e m.kinds then (A, some .multipleGuard)
    else (mset l { m with invs := minsert e inv m.invs, kinds := minsert e .invariant m.kinds } A, none)

/-- `_new_guard` (hybrid_automaton.cpp 356-369) -/
def newGuard (A : Automaton κ ν V ε E P) (l : Loc κ ν) (e : ε) (g : P) (k : Kind) : Res κ ν V ε E P :=
  match find l A with
  | none => (A, some .nonExistentMode)
  | some m =>
    if hasKey e m.kinds then (A, some .multipleGuard)
    else (mset l { m with guards := minsert e g m.guards, kinds := minsert e k m.kinds } A, none)

/-- `_new_action` (hybrid_automaton.cpp 372-391) -/
def newAction (A : Automaton κ ν V ε E P) (l : Loc κ ν) (inv : P) (e : ε) (g : P) (k : Kind) : Res κ ν V ε E P :=
  match find l A with
  | none => (A, some .nonExistentMode)
  | some m =>
    if hasKey e m.kinds then (A, some .multipleGuard)
    else (mset l { m with invs := minsert e inv m.invs, guards := minsert e g m.guards,
                          kinds := minsert e k m.kinds } A, none)

/-- `set_invariant` (hybrid_automaton.hpp 395-401); `Map::value` (container.hpp 252-254) throws for a missing key. -/
def setInvariant (A : Automaton κ ν V ε E P) (l : Loc κ ν) (inv : P) (e : ε) : Res κ ν V ε E P :=
  match find l A with
  | none => (A, some .assertion)
  | some m => (mset l { m with invs := mset e inv m.invs, kinds := mset e .invariant m.kinds } A, none)

/-- `set_guard` (hybrid_automaton.hpp 412-419) -/
def setGuard (A : Automaton κ ν V ε E P) (l : Loc κ ν) (e : ε) (g : P) (k : Kind) : Res κ ν V ε E P :=
  match find l A with
  | none => (A, some .assertion)
  | some m => (mset l { m with guards := mset e g m.guards, kinds := mset e k m.kinds } A, none)

/-- `mode` (hybrid_automaton.cpp 546-560): the first mode whose location is a restriction of the given one; `none` is
the exception `SystemSpecificationError`. -/
def modeOf (A : Automaton κ ν V ε E P) (l : Loc κ ν) : Option (Mode κ ν V ε E P) :=
  (A.find? fun p => p.1.isRestriction l).map Prod.snd

/-- Changing the mode to which `mode(location)` (hybrid_automaton.cpp 533-537) refers. -/
def updateMode (A : Automaton κ ν V ε E P) (l : Loc κ ν) (f : Mode κ ν V ε E P → Mode κ ν V ε E P) :
    Automaton κ ν V ε E P :=
  match A with
  | [] => []
  | p :: A => if p.1.isRestriction l then (p.1, f p.2) :: A else p :: updateMode A l f

/-- `_new_update` (hybrid_automaton.cpp 394-437).  The sets of lines 430-432 are not used. -/
def newUpdate (A : Automaton κ ν V ε E P) (s : Loc κ ν) (e : ε) (t : Loc κ ν) (reset : List (V × E)) :
    Res κ ν V ε E P :=
  if !hasLocation A s then (A, some .nonExistentMode)
  else if !hasLocation A t then (A, some .nonExistentMode)
  else match modeOf A s with
    | none => (A, some .specification)
    | some m =>
      if hasKey e m.targets then (A, some .multipleTransition)
      else match modeOf A t with
        | none => (A, some .specification)
        | some mt =>
          if !memberDisjoint (ofList (mt.aux.map Prod.fst)) (reset.map Prod.fst) then (A, some .overspecifiedReset)
          else if !uniqueElements (reset.map Prod.fst) then (A, some .overspecifiedReset)
          else (updateMode A s fun m =>
            { m with targets := minsert e t m.targets, resets := minsert e reset m.resets }, none)

/-- `_new_transition` (hybrid_automaton.cpp 440-456): an exception of the first part is propagated; one of the second
part leaves the changes of the first. -/
def newTransition (L : Lang V E P) (A : Automaton κ ν V ε E P) (s : Loc κ ν) (e : ε) (t : Loc κ ν)
    (reset : List (V × E)) (g : P) (k : Kind) : Res κ ν V ε E P :=
  let r := if k = .urgent ∨ k = .impact then newAction A s (L.pnot g) e g k
    else if k = .permissive then newGuard A s e g k
    else (A, some .unhandledKind)
  match r.2 with
  | some err => (r.1, some err)
  | none => newUpdate r.1 s e t reset

/-- The public functions which change an automaton (hybrid_automaton.hpp 318-524). -/
inductive Op (κ ν V ε E P : Type*) [LinearOrder κ]
  | mode (l : Loc κ ν) (aux dyn : List (V × E))
  /-- `new_action` with an invariant (369-376) -/
  | permissiveAction (l : Loc κ ν) (inv : P) (e : ε) (g : P) (k : Kind)
  /-- `new_action` without an invariant (379-385) -/
  | urgentAction (l : Loc κ ν) (e : ε) (g : P) (k : Kind)
  | invariant (l : Loc κ ν) (inv : P) (e : ε)
  | setInvariant (l : Loc κ ν) (inv : P) (e : ε)
  | guard (l : Loc κ ν) (e : ε) (g : P) (k : Kind)
  | setGuard (l : Loc κ ν) (e : ε) (g : P) (k : Kind)
  | update (s : Loc κ ν) (e : ε) (t : Loc κ ν) (reset : List (V × E))
  | transition (s : Loc κ ν) (e : ε) (t : Loc κ ν) (reset : List (V × E)) (g : P) (k : Kind)

/-- One call (hybrid_automaton.hpp 318-524). -/
def step (L : Lang V E P) (A : Automaton κ ν V ε E P) : Op κ ν V ε E P → Res κ ν V ε E P
  | .mode l aux dyn => newMode L A l aux dyn
  | .permissiveAction l inv e g k => if k = .permissive then newAction A l inv e g k else (A, some .assertion)
  | .urgentAction l e g k => if k = .urgent ∨ k = .impact then newGuard A l e g k else (A, some .assertion)
  | .invariant l inv e => newInvariant A l inv e
  | .setInvariant l inv e => setInvariant A l inv e
  | .guard l e g k => newGuard A l e g k
  | .setGuard l e g k => setGuard A l e g k
  | .update s e t reset => newUpdate A s e t reset
  | .transition s e t reset g k => newTransition L A s e t reset g k

/-- A sequence of calls on an empty automaton (hybrid_automaton.cpp 277-286), exceptions being caught. -/
def build (L : Lang V E P) (ops : List (Op κ ν V ε E P)) : Automaton κ ν V ε E P :=
  ops.foldl (fun A op => (step L A op).1) []

/-! ### Queries -/

/-- `has_mode` (hybrid_automaton.cpp 474-485) -/
def hasMode (A : Automaton κ ν V ε E P) (l : Loc κ ν) : Bool := A.any fun p => p.1.areSame l

/-- `has_partial_mode` (hybrid_automaton.cpp 487-498) -/
def hasPartialMode (A : Automaton κ ν V ε E P) (l : Loc κ ν) : Bool := A.any fun p => p.1.isRestriction l

/-- `has_transition` (hybrid_automaton.cpp 500-504) -/
def hasTransition (A : Automaton κ ν V ε E P) (l : Loc κ ν) (e : ε) : Bool :=
  match modeOf A l with
  | none => false
  | some m => hasPartialMode A l && hasKey e m.targets

/-- `has_invariant` (hybrid_automaton.cpp 506-510) -/
def hasInvariant (A : Automaton κ ν V ε E P) (l : Loc κ ν) (e : ε) : Bool :=
  match modeOf A l with
  | none => false
  | some m => hasPartialMode A l && hasKey e m.invs

/-- `has_guard` (hybrid_automaton.cpp 513-517) -/
def hasGuard (A : Automaton κ ν V ε E P) (l : Loc κ ν) (e : ε) : Bool :=
  match modeOf A l with
  | none => false
  | some m => hasPartialMode A l && hasKey e m.guards

/-- `target` (hybrid_automaton.cpp 657-664) -/
def target (A : Automaton κ ν V ε E P) (l : Loc κ ν) (e : ε) : Option (Loc κ ν) :=
  if hasTransition A l e then (modeOf A l).bind fun m => find e m.targets else some l

/-- `reset_assignments` (hybrid_automaton.cpp 685-697); `var` is the expression of a variable.  `none` is an exception. -/
def resetAssignments (var : V → E) (A : Automaton κ ν V ε E P) (l : Loc κ ν) (e : ε) : Option (List (V × E)) :=
  if hasTransition A l e then (modeOf A l).bind fun m => find e m.resets
  else (modeOf A l).map fun m => m.dyn.map fun a => (a.1, var a.1)

/-- `invariant_predicate` (hybrid_automaton.cpp 699-707) -/
def invariantPredicate (L : Lang V E P) (A : Automaton κ ν V ε E P) (l : Loc κ ν) (e : ε) : Option P :=
  (modeOf A l).map fun m => (find e m.invs).getD L.ptrue

/-- `guard_predicate` (hybrid_automaton.cpp 709-717) -/
def guardPredicate (L : Lang V E P) (A : Automaton κ ν V ε E P) (l : Loc κ ν) (e : ε) : Option P :=
  (modeOf A l).map fun m => (find e m.guards).getD L.ptrue

/-- `event_kind` (hybrid_automaton.cpp 755-757): `none` for a missing mode or event (failed assertion). -/
def eventKind (A : Automaton κ ν V ε E P) (l : Loc κ ν) (e : ε) : Option Kind :=
  (modeOf A l).bind fun m => find e m.kinds

/-- `events` (hybrid_automaton.cpp 738-741) of a mode -/
def Mode.events (m : Mode κ ν V ε E P) : List ε := adjoin (adjoin (keys m.invs) (keys m.guards)) (keys m.targets)

/-- `events` (hybrid_automaton.cpp 738-741) -/
def events (A : Automaton κ ν V ε E P) (l : Loc κ ν) : Option (List ε) := (modeOf A l).map Mode.events

/-- `state_variables` (hybrid_automaton.cpp 601-609) -/
def stateVariables (A : Automaton κ ν V ε E P) (l : Loc κ ν) : Option (List V) :=
  (modeOf A l).map fun m => m.dyn.map Prod.fst

/-- `auxiliary_variables` (hybrid_automaton.cpp 611-619) -/
def auxiliaryVariables (A : Automaton κ ν V ε E P) (l : Loc κ ν) : Option (List V) :=
  (modeOf A l).map fun m => m.aux.map Prod.fst

/-- `input_variables` (hybrid_automaton.cpp 621-654) of a mode: the variables used and not defined. -/
def Mode.inputs (L : Lang V E P) (m : Mode κ ν V ε E P) : Finset V :=
  let exprs := m.aux.map Prod.snd ++ m.dyn.map Prod.snd
  let preds := m.invs.map Prod.snd ++ m.guards.map Prod.snd
  let rsts := m.resets.flatMap fun r => r.2.map Prod.snd
  let used := (exprs.map L.eargs ++ preds.map L.pargs ++ rsts.map L.eargs).foldl (· ∪ ·) ∅
  used.filter fun v => v ∉ m.aux.map Prod.fst ∧ v ∉ m.dyn.map Prod.fst

/-! ### Checking -/

/-- `subset(arguments,defined_variables)` -/
def argsDefined (defined : List V) (args : Finset V) : Bool := decide (args ⊆ defined.toFinset)

/-- `check_mode` (hybrid_automaton.cpp 785-851): `none` if no exception is thrown.  `mode._targets[event]` (835) and
`state_variables(target)` (837) fail if there is no such target or mode. -/
def checkMode (L : Lang V E P) (A : Automaton κ ν V ε E P) (l : Loc κ ν) : Option Err :=
  match modeOf A l with
  | none => some .specification
  | some m =>
    let defined := m.dyn.map Prod.fst ++ m.aux.map Prod.fst
    if m.aux.any fun a => !argsDefined defined (L.eargs a.2) then some .underspecifiedDynamic
    else if m.dyn.any fun a => !argsDefined defined (L.eargs a.2) then some .underspecifiedDynamic
    else if m.invs.any fun a => !argsDefined defined (L.pargs a.2) then some .underspecifiedConstraint
    else if m.guards.any fun a => !argsDefined defined (L.pargs a.2) then some .underspecifiedConstraint
    else if m.resets.any fun r => r.2.any fun a => !argsDefined defined (L.eargs a.2) then some .underspecifiedReset
    else m.resets.findSome? fun r =>
      match find r.1 m.targets with
      | none => some .assertion
      | some t => match stateVariables A t with
        | none => some .specification
        | some tv =>
          let rv := ofList (r.2.map Prod.fst)
          let tv := ofList tv
          if !Container.subset rv tv then some .underspecifiedDynamic
          else if !Container.subset tv rv then some .underspecifiedReset
          else none

/-- The result of a computation bounded by fuel. -/
inductive Reach (α : Type*)
  | ok (a : α)
  | thrown (e : Err)
  | outOfFuel

/-- One location of `working` (hybrid_automaton.cpp 877-890): the pair is `(reached,found)`. -/
def reachEvents (tgt : ε → Option (Loc κ ν)) : List ε → List (Loc κ ν) × List (Loc κ ν) →
    Option (List (Loc κ ν) × List (Loc κ ν))
  | [], s => some s
  | e :: es, (reached, found) =>
    match tgt e with
    | none => none
    | some t =>
      if !contains t reached then reachEvents tgt es (Container.insert t reached, Container.insert t found)
      else reachEvents tgt es (reached, found)

/-- The loop over `working` (hybrid_automaton.cpp 877-890) -/
def reachLocs (evs : Loc κ ν → Option (List ε)) (tgt : Loc κ ν → ε → Option (Loc κ ν)) :
    List (Loc κ ν) → List (Loc κ ν) × List (Loc κ ν) → Option (List (Loc κ ν) × List (Loc κ ν))
  | [], s => some s
  | l :: ls, s =>
    match evs l with
    | none => none
    | some es => match reachEvents (tgt l) es s with
      | none => none
      | some s' => reachLocs evs tgt ls s'

/-- The loop `while(!working.empty())` (hybrid_automaton.cpp 875-893).  The map `steps` is not used. -/
def reachLoop (evs : Loc κ ν → Option (List ε)) (tgt : Loc κ ν → ε → Option (Loc κ ν)) :
    ℕ → List (Loc κ ν) → List (Loc κ ν) → Reach (List (Loc κ ν))
  | 0, _, _ => .outOfFuel
  | n + 1, reached, working =>
    if working.isEmpty then .ok reached
    else match reachLocs evs tgt working (reached, []) with
      | none => .thrown .specification
      | some (reached', found) => reachLoop evs tgt n reached' found

/-- `discrete_reachability` (hybrid_automaton.cpp 861-896) -/
def discreteReachability (A : Automaton κ ν V ε E P) (fuel : ℕ) (init : List (Loc κ ν)) : Reach (List (Loc κ ν)) :=
  reachLoop (events A) (target A) fuel init init

/-- `check_reachable_modes` (hybrid_automaton.cpp 854-859): the exception thrown, if any. -/
def checkReachable (L : Lang V E P) (A : Automaton κ ν V ε E P) (fuel : ℕ) (init : List (Loc κ ν)) :
    Reach Unit :=
  match discreteReachability A fuel init with
  | .outOfFuel => .outOfFuel
  | .thrown e => .thrown e
  | .ok ls => match ls.findSome? (checkMode L A) with
    | some e => .thrown e
    | none => .ok ()

end Verif.Hybrid
