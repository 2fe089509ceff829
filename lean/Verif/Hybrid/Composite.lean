import Verif.Hybrid.FunctionsDefined

/-!
# Parallel composition of hybrid automata

Model of `CompositeHybridAutomaton` (hybrid/hybrid_automaton-composite.hpp, hybrid_automaton-composite.cpp).  The modes
cache (194-198) is not modelled: the components never change, so that `mode` is a function of the location (C13 is
about the cache itself).  Printing is not modelled.
-/

namespace Verif.Hybrid

open Verif.Container Ariadne.AlgebraicSort

variable {N κ ν V ε E P : Type*} [LinearOrder N] [LinearOrder κ] [LinearOrder ν] [LinearOrder V] [LinearOrder ε]

/-- What the composition uses of expressions and predicates. -/
structure CLang (V E P : Type*) extends Lang V E P where
  /-- `operator&&` -/
  pand : P → P → P
  /-- `is_constant(p,true)` -/
  isTrue : P → Bool
  /-- `is_constant(p,false)` -/
  isFalse : P → Bool
  /-- a variable as an expression -/
  evar : V → E

/-- `_components` (hybrid_automaton-composite.hpp), with their names. -/
abbrev Composite (N κ ν V ε E P : Type*) [LinearOrder κ] := List (N × Automaton κ ν V ε E P)

/-- The empty location. -/
def Loc.empty : Loc κ ν := ⟨[], SortedKeys.nil⟩

/-- `has_partial_mode` (hybrid_automaton-composite.cpp 151-159) -/
def cHasPartialMode (C : Composite N κ ν V ε E P) (l : Loc κ ν) : Bool := C.all fun c => hasPartialMode c.2 l

/-- The loop of `has_mode` (hybrid_automaton-composite.cpp 140-146); `none` if a component has no mode. -/
def cHasModeLoop (l : Loc κ ν) : Composite N κ ν V ε E P → Loc κ ν → Option (Loc κ ν)
  | [], acc => some acc
  | c :: C, acc =>
    if !hasPartialMode c.2 l then none
    else match modeOf c.2 l with
      | none => none
      | some m => cHasModeLoop l C (acc.join m.loc)

/-- `has_mode` (hybrid_automaton-composite.cpp 138-149); `none` is the failed assertion (147). -/
def cHasMode (C : Composite N κ ν V ε E P) (l : Loc κ ν) : Option Bool :=
  match cHasModeLoop l C Loc.empty with
  | none => some false
  | some al => if al.isRestriction l then some (al.areSame l) else none

/-- `has_invariant` (hybrid_automaton-composite.cpp 161-170) -/
def cHasInvariant (C : Composite N κ ν V ε E P) (l : Loc κ ν) (e : ε) : Bool := C.any fun c => hasInvariant c.2 l e

/-- `has_guard` (hybrid_automaton-composite.cpp 172-181) -/
def cHasGuard (C : Composite N κ ν V ε E P) (l : Loc κ ν) (e : ε) : Bool := C.any fun c => hasGuard c.2 l e

/-- `has_transition` (hybrid_automaton-composite.cpp 183-191) -/
def cHasTransition (C : Composite N κ ν V ε E P) (l : Loc κ ν) (e : ε) : Bool := C.any fun c => hasTransition c.2 l e

/-- The default `DiscreteMode()` (hybrid_automaton.cpp 45-47) -/
def emptyMode : Mode κ ν V ε E P := ⟨Loc.empty, [], [], [], [], [], [], [], []⟩

/-- The part of `_cache_mode` for one component (hybrid_automaton-composite.cpp 209-244) -/
def mergeMode (acc m : Mode κ ν V ε E P) : Mode κ ν V ε E P :=
  { acc with
    loc := acc.loc.join m.loc
    aux := acc.aux ++ m.aux
    dyn := acc.dyn ++ m.dyn
    invs := madjoin acc.invs m.invs
    guards := madjoin acc.guards m.guards
    kinds := madjoin acc.kinds m.kinds
    targets := m.targets.foldl (fun r p => mset p.1 (((find p.1 r).getD Loc.empty).join p.2) r) acc.targets
    resets := m.resets.foldl (fun r p => mset p.1 (((find p.1 r).getD []) ++ p.2) r) acc.resets }

/-- The modes of the components in a location; an exception if one of these has none. -/
def cModes (l : Loc κ ν) : Composite N κ ν V ε E P → Except Err (List (Mode κ ν V ε E P))
  | [] => .ok []
  | c :: C => match modeOf c.2 l with
    | none => .error .specification
    | some m => match cModes l C with
      | .error e => .error e
      | .ok ms => .ok (m :: ms)

/-- `mode` (hybrid_automaton-composite.cpp 194-275) -/
def cMode (C : Composite N κ ν V ε E P) (l : Loc κ ν) : Except Err (Mode κ ν V ε E P) :=
  match cModes l C with
  | .error e => .error e
  | .ok ms =>
    let m := ms.foldl mergeMode emptyMode
    if adjoin (keys m.invs) (keys m.guards) ≠ keys m.kinds then .error .assertion
    else if keys m.targets ≠ keys m.resets then .error .assertion
    else if !Container.subset (keys m.guards) (keys m.resets) then .error .assertion
    else if keys m.guards ≠ keys m.resets then .error .missingGuard
    else .ok m

/-- `events` (hybrid_automaton-composite.cpp 278-283) -/
def cEvents (C : Composite N κ ν V ε E P) (l : Loc κ ν) : Option (List ε) :=
  match cMode C l with
  | .error _ => none
  | .ok m => some m.events

/-- `event_kind` (hybrid_automaton-composite.cpp 285-289) -/
def cEventKind (C : Composite N κ ν V ε E P) (l : Loc κ ν) (e : ε) : Option Kind :=
  match cMode C l with
  | .error _ => none
  | .ok m => find e m.kinds

/-- The loop of `target` (hybrid_automaton-composite.cpp 296-303) -/
def cTargetLoop (l : Loc κ ν) (e : ε) : Composite N κ ν V ε E P → Loc κ ν → Option (Loc κ ν)
  | [], acc => some acc
  | c :: C, acc => match modeOf c.2 l with
    | none => none
    | some m => match find e m.targets with
      | some t => cTargetLoop l e C (acc.join t)
      | none => cTargetLoop l e C (acc.join m.loc)

/-- `target` (hybrid_automaton-composite.cpp 293-305) -/
def cTarget (C : Composite N κ ν V ε E P) (l : Loc κ ν) (e : ε) : Option (Loc κ ν) := cTargetLoop l e C Loc.empty

/-- Appending what each component gives; an exception if one of these throws. -/
def cAppend {α : Type*} (f : Automaton κ ν V ε E P → Option (List α)) : Composite N κ ν V ε E P → Option (List α)
  | [] => some []
  | c :: C => match f c.2, cAppend f C with
    | some x, some xs => some (x ++ xs)
    | _, _ => none

/-- `state_variables` (hybrid_automaton-composite.cpp 343-352) -/
def cStateVariables (C : Composite N κ ν V ε E P) (l : Loc κ ν) : Option (List V) :=
  cAppend (fun A => stateVariables A l) C

/-- `auxiliary_assignments` (hybrid_automaton-composite.cpp 365-372) -/
def cAuxiliary (C : Composite N κ ν V ε E P) (l : Loc κ ν) : Option (List (V × E)) :=
  cAppend (fun A => (modeOf A l).map (·.aux)) C

/-- `dynamic_assignments` (hybrid_automaton-composite.cpp 380-388) -/
def cDynamic (C : Composite N κ ν V ε E P) (l : Loc κ ν) : Option (List (V × E)) :=
  cAppend (fun A => (modeOf A l).map (·.dyn)) C

/-- `reset_assignments` (hybrid_automaton-composite.cpp 391-398) -/
def cResets (L : CLang V E P) (C : Composite N κ ν V ε E P) (l : Loc κ ν) (e : ε) : Option (List (V × E)) :=
  cAppend (fun A => resetAssignments L.evar A l e) C

/-- The loop body of `invariant_predicate` and `guard_predicate` (hybrid_automaton-composite.cpp 406-408, 419-421) -/
def conjoin (L : CLang V E P) (result guard : P) : P :=
  if L.isTrue result || L.isFalse guard then guard
  else if L.isTrue guard || L.isFalse result then result
  else L.pand result guard

/-- The loops of `invariant_predicate` and `guard_predicate` (hybrid_automaton-composite.cpp 404-409, 417-422) -/
def cPredicateLoop (L : CLang V E P) (f : Automaton κ ν V ε E P → Option P) : Composite N κ ν V ε E P → P → Option P
  | [], result => some result
  | c :: C, result => match f c.2 with
    | none => none
    | some g => cPredicateLoop L f C (conjoin L result g)

/-- `invariant_predicate` (hybrid_automaton-composite.cpp 401-411) -/
def cInvariantPredicate (L : CLang V E P) (C : Composite N κ ν V ε E P) (l : Loc κ ν) (e : ε) : Option P :=
  cPredicateLoop L (fun A => invariantPredicate L.toLang A l e) C L.ptrue

/-- `guard_predicate` (hybrid_automaton-composite.cpp 414-424) -/
def cGuardPredicate (L : CLang V E P) (C : Composite N κ ν V ε E P) (l : Loc κ ν) (e : ε) : Option P :=
  cPredicateLoop L (fun A => guardPredicate L.toLang A l e) C L.ptrue

/-! ### Checking -/

/-- The loop of `order` (hybrid_automaton-composite.cpp 593-616): `vars` are the keys of `unresolved_dependencies`, in
their order, and `deps` its values.  The first argument bounds the number of iterations. -/
def orderLoop (as : List (V × E)) : ℕ → List V → (V → Finset V) → List (V × E) → Option (List (V × E))
  | 0, vars, _, out => if vars = [] then some out else none
  | n + 1, vars, deps, out =>
    if vars = [] then some out
    else match vars.find? (fun v => deps v = ∅) with
      | none => none
      | some v => orderLoop as n (vars.erase v) (fun w => (deps w).erase v) (out ++ (as.find? fun a => a.1 = v).toList)

/-- `order` (hybrid_automaton-composite.cpp 581-620); `none` is an exception. -/
def order (L : Lang V E P) (as : List (V × E)) (inputs : List V) : Option (List (V × E)) :=
  match orderLoop as as.length (ofList (as.map Prod.fst))
      (fun v => match as.find? (fun a => a.1 = v) with
        | none => ∅
        | some a => L.eargs a.2 \ inputs.toFinset) [] with
  | none => none
  | some r => if r.length = as.length then some r else none

/-- `urgent_in` (hybrid_automaton-composite.cpp 678-695): the set of names -/
def urgentIn (C : Composite N κ ν V ε E P) (l : Loc κ ν) (e : ε) : List N :=
  C.foldl (fun s c => if hasGuard c.2 l e then
    match eventKind c.2 l e with
    | some .urgent => Container.insert c.1 s
    | some .impact => Container.insert c.1 s
    | _ => s
    else s) []

/-- `permissive_in` (hybrid_automaton-composite.cpp 679-695): the set of names -/
def permissiveIn (L : CLang V E P) (C : Composite N κ ν V ε E P) (l : Loc κ ν) (e : ε) : List N :=
  C.foldl (fun s c => if hasGuard c.2 l e then
    match eventKind c.2 l e with
    | some .urgent => s
    | some .impact => s
    | _ => match guardPredicate L.toLang c.2 l e with
      | none => s
      | some g => if L.isTrue g then s else Container.insert c.1 s
    else s) []

/-- The check of the invariant of one event (hybrid_automaton-composite.cpp 658-664) -/
def checkInvariant (L : CLang V E P) (C : Composite N κ ν V ε E P) (l : Loc κ ν) (vars : List V) (e : ε) : Option Err :=
  match cInvariantPredicate L C l e with
  | none => some .assertion
  | some i => if !argsDefined vars (L.pargs i) then some .underspecifiedConstraint else none

/-- The check of one event (hybrid_automaton-composite.cpp 669-737); `none` if no exception is thrown.  `vars` is
`result_variables`. -/
def checkEvent (L : CLang V E P) (C : Composite N κ ν V ε E P) (l : Loc κ ν) (vars : List V) (e : ε) : Option Err :=
  match cTarget C l e with
  | none => some .specification
  | some t => match cGuardPredicate L C l e, cResets L C l e, cStateVariables C t with
    | some g, some reset, some tv =>
      if 1 < (urgentIn C l e).length then some .multipleUrgent
      else if (urgentIn C l e).length = 1 ∧ 0 < (permissiveIn L C l e).length then some .urgentWithGuards
      else if !argsDefined vars (L.pargs g) then some .underspecifiedConstraint
      else if reset.any fun a => !argsDefined vars (L.eargs a.2) then some .underspecifiedReset
      else if !uniqueElements (reset.map Prod.fst) then some .overspecifiedReset
      else if !Container.subset (ofList (reset.map Prod.fst)) (ofList tv) then some .specification
      else if !Container.subset (ofList tv) (ofList (reset.map Prod.fst)) then some .underspecifiedReset
      else none
    | _, _, _ => some .assertion

/-- `check_mode` (hybrid_automaton-composite.cpp 625-742); `none` if no exception is thrown. -/
def cCheckMode (L : CLang V E P) (C : Composite N κ ν V ε E P) (l : Loc κ ν) : Option Err :=
  match cAuxiliary C l, cDynamic C l with
  | some aux, some dyn =>
    let vars := dyn.map Prod.fst ++ aux.map Prod.fst
    if !uniqueElements vars then some .overspecifiedDynamic
    else if aux.any fun a => !argsDefined vars (L.eargs a.2) then some .underspecifiedDynamic
    else if dyn.any fun a => !argsDefined vars (L.eargs a.2) then some .underspecifiedDynamic
    else match order L.toLang aux (dyn.map Prod.fst) with
      | none => some .algebraicLoop
      | some _ => match cEvents C l with
        | none => some .assertion
        | some es =>
          match es.findSome? (checkInvariant L C l vars) with
          | some err => some err
          | none => es.findSome? (checkEvent L C l vars)
  | _, _ => some .specification

/-- `discrete_reachability` (hybrid_automaton-composite.cpp 754-807); messages are not modelled. -/
def cDiscreteReachability (C : Composite N κ ν V ε E P) (fuel : ℕ) (init : List (Loc κ ν)) : Reach (List (Loc κ ν)) :=
  reachLoop (cEvents C) (cTarget C) fuel init init

/-- `check_reachable_modes` (hybrid_automaton-composite.cpp 745-752) -/
def cCheckReachable (L : CLang V E P) (C : Composite N κ ν V ε E P) (fuel : ℕ) (init : List (Loc κ ν)) : Reach Unit :=
  match cDiscreteReachability C fuel init with
  | .outOfFuel => .outOfFuel
  | .thrown e => .thrown e
  | .ok ls => match ls.findSome? (cCheckMode L C) with
    | some e => .thrown e
    | none => .ok ()

end Verif.Hybrid
