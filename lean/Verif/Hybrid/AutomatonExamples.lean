import Verif.Hybrid.AutomatonReach
import Mathlib.Data.Finset.Sort

/-!
# C63: examples and counterexamples
-/

namespace Verif.Hybrid

open Verif.Container Ariadne.AlgebraicSort

/-- Expressions and predicates of which only the variables matter. -/
def exampleLang : Lang ℕ (Finset ℕ) (Finset ℕ) := ⟨id, id, id, ∅⟩

def locOff : Loc ℕ ℕ := ⟨[(0, 0)], by unfold SortedKeys; decide⟩
def locOn : Loc ℕ ℕ := ⟨[(0, 1)], by unfold SortedKeys; decide⟩
def locBroken : Loc ℕ ℕ := ⟨[(0, 2)], by unfold SortedKeys; decide⟩
/-- An extension of `locOff` by a variable of another component. -/
def locOffOpen : Loc ℕ ℕ := ⟨[(0, 0), (1, 5)], by unfold SortedKeys; decide⟩

/-- A thermostat: state variable `0`, auxiliary variables `2 = f(1)` and `1 = g(0)`. -/
def thermostatOps : List (Op ℕ ℕ ℕ ℕ (Finset ℕ) (Finset ℕ)) :=
  [ .mode locOff [(2, {1}), (1, {0})] [(0, {0})],
    .mode locOn [] [(0, {0})],
    .mode locBroken [] [],
    .transition locOff 10 locOn [(0, {0})] {0} .urgent,
    .transition locOn 11 locOff [(0, {0})] {0} .permissive,
    .update locBroken 12 locOn [(0, ∅)] ]

def thermostat : Automaton ℕ ℕ ℕ ℕ (Finset ℕ) (Finset ℕ) := build exampleLang thermostatOps

theorem thermostat_wf : WF exampleLang thermostat := C63_invariant exampleLang thermostatOps

/-- The calls succeed, the auxiliary variables are sorted, the modes are well specified and the broken mode is not
reached. -/
example : (modeOf thermostat locOffOpen).map (fun m => m.sortedAux) = some [(1, {0}), (2, {1})] ∧
    hasTransition thermostat locOffOpen 10 = true ∧ target thermostat locOffOpen 10 = some locOn ∧
    hasInvariant thermostat locOff 10 = true ∧ hasInvariant thermostat locOn 11 = false ∧
    thermostat.length = 3 := by
  decide +kernel

example : (match discreteReachability thermostat 20 [locOff] with
    | .ok R => some R
    | _ => none) = some [locOff, locOn] := by decide +kernel

example : (match checkReachable exampleLang thermostat 20 [locOff] with
    | .ok _ => true
    | _ => false) = true := by decide +kernel

/-- An equation in a loop, a variable defined twice, an indistinguishable location: `new_mode` fails. -/
example : (newMode exampleLang thermostat locOffOpen [] []).2 = some .indistinguishableMode ∧
    (newMode exampleLang [] locOff [(1, {0})] [(1, ∅)] : Res ℕ ℕ ℕ ℕ (Finset ℕ) (Finset ℕ)).2 = some .specification ∧
    (newMode exampleLang [] locOff [(1, {2}), (2, {1})] [] : Res ℕ ℕ ℕ ℕ (Finset ℕ) (Finset ℕ)).2
      = some .algebraicLoop := by decide +kernel

/-- C63: a call of `new_transition` which throws may change the automaton (hybrid_automaton.cpp 440-456): the guard is
kept if the target does not exist, and the same call with the right target then fails too. -/
theorem C63_transition_not_atomic : ∃ A : Automaton ℕ ℕ ℕ ℕ (Finset ℕ) (Finset ℕ), WF exampleLang A ∧
    (newTransition exampleLang A locOff 13 locOffOpen [] {0} .permissive).2 = some .nonExistentMode ∧
    hasGuard A locOff 13 = false ∧
    hasGuard (newTransition exampleLang A locOff 13 locOffOpen [] {0} .permissive).1 locOff 13 = true ∧
    (newTransition exampleLang A locOff 13 locOn [] {0} .permissive).2 = none ∧
    (newTransition exampleLang (newTransition exampleLang A locOff 13 locOffOpen [] {0} .permissive).1
      locOff 13 locOn [] {0} .permissive).2 = some .multipleGuard :=
  ⟨thermostat, thermostat_wf, by decide +kernel, by decide +kernel, by decide +kernel, by decide +kernel,
    by decide +kernel⟩

/-- C63: `has_invariant` is false for an urgent guard made by `new_guard` or `new_action` (hybrid_automaton.hpp
379-385, 404-410), although it is documented to be true for an urgent guard (hybrid_automaton_interface.hpp 230); it is
true for one made by `new_transition`. -/
theorem C63_urgent_invariant_counterexample : ∃ A : Automaton ℕ ℕ ℕ ℕ (Finset ℕ) (Finset ℕ), WF exampleLang A ∧
    (∀ op ∈ [Op.urgentAction locOff 13 {0} .urgent, Op.guard locOff 13 {0} .urgent],
      (step exampleLang A op).2 = none ∧
      eventKind (step exampleLang A op).1 locOff 13 = some .urgent ∧
      hasInvariant (step exampleLang A op).1 locOff 13 = false) ∧
    (step exampleLang A (.transition locOff 13 locOn [(0, {0})] {0} .urgent)).2 = none ∧
    hasInvariant (step exampleLang A (.transition locOff 13 locOn [(0, {0})] {0} .urgent)).1 locOff 13 = true := by
  refine ⟨thermostat, thermostat_wf, ?_, by decide +kernel, by decide +kernel⟩
  intro op hop
  simp only [List.mem_cons, List.not_mem_nil, or_false] at hop
  rcases hop with rfl | rfl
  · exact ⟨by decide +kernel, by decide +kernel, by decide +kernel⟩
  · exact ⟨by decide +kernel, by decide +kernel, by decide +kernel⟩

end Verif.Hybrid
