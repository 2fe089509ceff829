import Mathlib.Data.Finset.Basic
import Mathlib.Data.List.Nodup

/-!
# Ordering algebraic equations

Model of `algebraic_sort` (source/hybrid/hybrid_automaton.cpp 179-224).
-/

namespace Ariadne.AlgebraicSort

/-- `RealAssignment`: a variable defined by an expression; only the variables which the
expression uses (`rhs.arguments()`) matter here. -/
structure Equation (V : Type*) where
  lhs : V
  args : Finset V

variable {V : Type*} [DecidableEq V]

/-- Results: the list, the exception `AlgebraicLoopError` (218), or the failed assertion (222). -/
inductive Outcome (V : Type*)
  | ok (l : List (Equation V))
  | loopError
  | assertionFailed

/-- The loop (hybrid_automaton.cpp 196-216): `lhs` is `lhs_list`, `deps` the map
`dependencies`.  The scan restarts at the beginning after each variable found, and ends
when no variable of the list is free of dependencies.  Returns `sorted_auxiliary`.
`dependencies.erase` (209) is left out: the variable is not looked up again. -/
def sortLoop (aux : List (Equation V)) (lhs : List V) (deps : V → Finset V) (out : List (Equation V)) :
    List (Equation V) :=
  match h : lhs.find? (fun v => deps v = ∅) with
  | none => out
  | some v =>
    have : (lhs.erase v).length < lhs.length := by
      have hm := List.mem_of_find?_eq_some h
      rw [List.length_erase_of_mem hm]
      have := List.length_pos_of_mem hm
      omega
    sortLoop aux (lhs.erase v) (fun w => (deps w).erase v)
      (out ++ (aux.find? fun a => a.lhs = v).toList)
termination_by lhs.length

/-- hybrid_automaton.cpp 183-190: the variables each equation uses which are defined by
equations.  For distinct left-hand sides the map has one entry per equation. -/
def dependencies (aux : List (Equation V)) (v : V) : Finset V :=
  match aux.find? (fun a => a.lhs = v) with
  | none => ∅
  | some a => a.args ∩ (aux.map (·.lhs)).toFinset

/-- `algebraic_sort` (hybrid_automaton.cpp 179-224) -/
def algebraicSort (aux : List (Equation V)) : Outcome V :=
  let lhs := aux.map (·.lhs)
  let out := sortLoop aux lhs (dependencies aux) []
  if lhs ≠ [] ∧ out = [] then .loopError
  else if aux.length = out.length then .ok out
  else .assertionFailed

end Ariadne.AlgebraicSort
