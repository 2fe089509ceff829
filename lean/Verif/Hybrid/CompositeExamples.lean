import Verif.Hybrid.CompositeFunctions
import Verif.Hybrid.AutomatonExamples
import Verif.Hybrid.FunctionsExamples

/-!
# C65: examples and counterexamples
-/

noncomputable section

namespace Verif.Hybrid

open Verif.Container Ariadne.AlgebraicSort Ariadne.Symbolic

/-- Expressions and predicates of which only the variables matter. -/
def exampleCLang : CLang ℕ (Finset ℕ) (Finset ℕ) :=
  { exampleLang with
    pand := (· ∪ ·)
    isTrue := fun p => decide (p = ∅)
    isFalse := fun _ => false
    evar := fun v => {v} }

theorem exampleCLang_ok : exampleCLang.Ok where
  pand _ _ := rfl
  ptrue := rfl
  isTrue p h := by simpa [exampleCLang, exampleLang] using h
  isFalse p h := by simp [exampleCLang] at h
  excl _ _ := rfl
  pandFalse _ _ := rfl
  ptrueFalse := rfl
  evar _ := rfl

def loc1 (k v : ℕ) : Loc ℕ ℕ := ⟨[(k, v)], List.pairwise_singleton _ _⟩
def loc2 (v w : ℕ) : Loc ℕ ℕ := ⟨[(0, v), (1, w)], by unfold SortedKeys; simp⟩

/-- A controller with the discrete variable `0`, whose state variable `0` depends on variable `1` of the plant.  Event
`10` has no guard here. -/
def controllerOps : List (Op ℕ ℕ ℕ ℕ (Finset ℕ) (Finset ℕ)) :=
  [ .mode (loc1 0 0) [] [(0, {1})],
    .mode (loc1 0 1) [] [(0, {0})],
    .transition (loc1 0 0) 10 (loc1 0 1) [(0, {0, 1})] ∅ .permissive ]

/-- A plant with the discrete variable `1`, whose state variable `1` depends on variable `0`.  Event `10` is urgent. -/
def plantOps : List (Op ℕ ℕ ℕ ℕ (Finset ℕ) (Finset ℕ)) :=
  [ .mode (loc1 1 0) [(2, {0})] [(1, {2})],
    .mode (loc1 1 1) [] [(1, ∅)],
    .transition (loc1 1 0) 10 (loc1 1 1) [(1, {1})] {0} .urgent,
    .transition (loc1 1 1) 11 (loc1 1 0) [(1, {1})] {1} .permissive ]

def controller : Automaton ℕ ℕ ℕ ℕ (Finset ℕ) (Finset ℕ) := build exampleLang controllerOps
def plant : Automaton ℕ ℕ ℕ ℕ (Finset ℕ) (Finset ℕ) := build exampleLang plantOps

/-- The composition of the plant and the controller. -/
def loop : Composite ℕ ℕ ℕ ℕ ℕ (Finset ℕ) (Finset ℕ) := [(0, plant), (1, controller)]

theorem loop_wf : ∀ c ∈ loop, WF exampleCLang.toLang c.2 := by
  simp only [loop, List.mem_cons, List.not_mem_nil, or_false, forall_eq_or_imp, forall_eq]
  exact ⟨C63_invariant exampleLang plantOps, C63_invariant exampleLang controllerOps⟩

/-- Non-vacuity: the location is accepted, both components jump with the event, the other event leaves the
controller where it is, and three locations are reached. -/
theorem loop_checked : cCheckMode exampleCLang loop (loc2 0 0) = none := by decide +kernel

example : cTarget loop (loc2 0 0) 10 = some (loc2 1 1) ∧ cTarget loop (loc2 1 1) 11 = some (loc2 1 0) ∧
    cEvents loop (loc2 0 0) = some [10] ∧ cEventKind loop (loc2 0 0) 10 = some .urgent ∧
    cHasMode loop (loc2 0 0) = some true ∧
    cStateVariables loop (loc2 0 0) = some [1, 0] ∧
    cResets exampleCLang loop (loc2 1 1) 11 = some [(1, {1}), (0, {0})] := by decide +kernel

example : (match cDiscreteReachability loop 20 [loc2 1 1] with
    | .ok R => some R
    | _ => none) = some [loc2 1 0, loc2 1 1] := by decide +kernel

example : ∃ ms, At loop (loc2 0 0) ms ∧ CWellSpecified exampleCLang loop (loc2 0 0) ms :=
  (C65_check_mode exampleCLang_ok loop_wf _).1 loop_checked

/-- The controller has no transition with event `10` in its second location, where the plant uses it after event `11`; the
composition then has the location `(1,1)` again. -/
example : (match cCheckReachable exampleCLang loop 20 [loc2 1 1] with
    | .ok _ => true
    | _ => false) = true := by decide +kernel

/-- C65: the kind of an event is that of the first component which has the event: for the same components in the other
order an event which is urgent in the plant, and unrestricted in the controller, is permissive in the composition, which
`check_mode` accepts. -/
theorem C65_event_kind_counterexample : ∃ (C : Composite ℕ ℕ ℕ ℕ ℕ (Finset ℕ) (Finset ℕ)) (l : Loc ℕ ℕ) (e : ℕ),
    (∀ c ∈ C, WF exampleCLang.toLang c.2) ∧ cCheckMode exampleCLang C l = none ∧
    (∃ c ∈ C, eventKind c.2 l e = some .urgent) ∧
    cEventKind C l e = some .permissive ∧ cEventKind C.reverse l e = some .urgent := by
  refine ⟨[(1, controller), (0, plant)], loc2 0 0, 10, ?_, by decide +kernel, ⟨(0, plant), by simp, by decide +kernel⟩,
    by decide +kernel, by decide +kernel⟩
  intro c hc
  exact loop_wf c (by simp only [loop, List.mem_cons, List.not_mem_nil, or_false] at hc ⊢; exact hc.symm)

/-- Two automata with the same discrete variable, which go to different locations with the same event. -/
def forkOps (v t : ℕ) : List (Op ℕ ℕ ℕ ℕ (Finset ℕ) (Finset ℕ)) :=
  [ .mode (loc1 0 0) [] [(v, ∅)],
    .mode (loc1 0 1) [] [(v, ∅)],
    .mode (loc1 0 2) [] [(v, ∅)],
    .transition (loc1 0 0) 10 (loc1 0 t) [(v, ∅)] {v} .urgent ]

def fork (v t : ℕ) : Automaton ℕ ℕ ℕ ℕ (Finset ℕ) (Finset ℕ) := build exampleLang (forkOps v t)

/-- C65: if components share a discrete variable, a component may not reach the target of its transition, although
`check_mode` accepts: here the second component goes to location `2` by itself, but to `1` in the composition. -/
theorem C65_target_counterexample : ∃ (C : Composite ℕ ℕ ℕ ℕ ℕ (Finset ℕ) (Finset ℕ)) (l t u : Loc ℕ ℕ) (e : ℕ),
    (∀ c ∈ C, WF exampleCLang.toLang c.2) ∧ cCheckMode exampleCLang C l = none ∧
    cTarget C l e = some t ∧ ∃ c ∈ C, target c.2 l e = some u ∧ Distinct u t := by
  refine ⟨[(0, fork 0 1), (0, fork 1 2)], loc1 0 0, loc1 0 1, loc1 0 2, 10, ?_, by decide +kernel, by decide +kernel,
    (0, fork 1 2), by simp, by decide +kernel, ⟨0, 2, 1, by decide +kernel, by decide +kernel, by decide⟩⟩
  simp only [List.mem_cons, List.not_mem_nil, or_false, forall_eq_or_imp, forall_eq]
  exact ⟨C63_invariant exampleLang _, C63_invariant exampleLang _⟩

/-- C65: `check_mode` accepts an event which is urgent in several components, if these have the same name (as all
automata made by the default constructor do). -/
theorem C65_urgent_names_counterexample : ∃ (C : Composite ℕ ℕ ℕ ℕ ℕ (Finset ℕ) (Finset ℕ)) (l : Loc ℕ ℕ) (e : ℕ),
    (∀ c ∈ C, WF exampleCLang.toLang c.2) ∧ cCheckMode exampleCLang C l = none ∧ 2 ≤ C.length ∧
    (∀ c ∈ C, Urgent c.2 l e) ∧
    cCheckMode exampleCLang (C.zipIdx.map fun c => (c.2, c.1.2)) l = some .multipleUrgent := by
  refine ⟨[(0, fork 0 1), (0, fork 1 1)], loc1 0 0, 10, ?_, by decide +kernel, by simp, ?_, by decide +kernel⟩
  · simp only [List.mem_cons, List.not_mem_nil, or_false, forall_eq_or_imp, forall_eq]
    exact ⟨C63_invariant exampleLang _, C63_invariant exampleLang _⟩
  · have key : ∀ v < 2, ∀ t < 3, (match modeOf (fork v t) (loc1 0 0) with
        | none => false
        | some m => (find 10 m.guards).isSome && (find 10 m.kinds == some .urgent)) = true := by decide +kernel
    have key' : ∀ v t, v < 2 → t < 3 → Urgent (fork v t) (loc1 0 0) 10 := by
      intro v t hv ht
      have h := key v hv t ht
      cases hm : modeOf (fork v t) (loc1 0 0) with
      | none => rw [hm] at h; cases h
      | some m =>
        rw [hm] at h
        simp only [Bool.and_eq_true, beq_iff_eq] at h
        exact ⟨m, hm, h.1, Or.inl h.2⟩
    simp only [List.mem_cons, List.not_mem_nil, or_false, forall_eq_or_imp, forall_eq]
    exact ⟨key' 0 1 (by simp) (by simp), key' 1 1 (by simp) (by simp)⟩

/-! ### Functions -/

/-- Comparison of constants. -/
def eqK3 (a b : K3) : Bool := decide (a = b)

theorem eqK3_sound : ∀ a b, eqK3 a b = true → a = b := fun _ _ h => by simpa [eqK3] using h

/-- Two components with state variables `0` and `1`, and invariants with the same event. -/
def leftOps : List (Op ℕ ℕ ℕ ℕ (Expr ℕ) (KExpr ℕ)) :=
  [ .mode (loc1 0 0) [(2, .un .neg (.var 3))] [(0, .var 2)],
    .invariant (loc1 0 0) (.cmp .geq (.var 0) (.cst 0)) 11,
    .transition (loc1 0 0) 10 (loc1 0 0) [(0, .var 2)] (.cmp .geq (.var 0) (.cst 1)) .permissive ]

def rightOps : List (Op ℕ ℕ ℕ ℕ (Expr ℕ) (KExpr ℕ)) :=
  [ .mode (loc1 1 0) [(3, .var 0)] [(1, .var 3)],
    .invariant (loc1 1 0) (.cmp .leq (.var 1) (.cst 1)) 11,
    .transition (loc1 1 0) 10 (loc1 1 0) [(1, .var 0)] (.cmp .geq (.var 1) (.cst 2)) .permissive ]

def pair : SComposite ℕ ℕ ℕ ℕ ℕ := [(0, build exprLang leftOps), (1, build exprLang rightOps)]

theorem pair_wf : ∀ c ∈ pair, WF exprLang c.2 := by
  simp only [pair, List.mem_cons, List.not_mem_nil, or_false, forall_eq_or_imp, forall_eq]
  exact ⟨C63_invariant exprLang leftOps, C63_invariant exprLang rightOps⟩

theorem pair_checked : cCheckMode (cexprLang eqK3) pair (loc2 0 0) = none := by decide +kernel

/-- Non-vacuity: the functions are made. -/
example : cDynamicFunction pair (loc2 0 0) = some [.un .neg (.var 0), .var 0] := by rfl
example : cResetFunction eqK3 pair (loc2 0 0) 10 = some [.un .neg (.var 0), .var 0] := by rfl
example : cGuardFunction eqK3 pair (loc2 0 0) 10 =
    some (.bin .min (.bin .sub (.var 0) (.cst 1)) (.bin .sub (.var 1) (.cst 2))) := by rfl
example : cAuxiliaryFunction pair (loc2 0 0) = some [.var 0, .un .neg (.var 0)] := by rfl

/-- C65: `invariant_function` is negative although the invariant of a component is false: for `0 ≤ x` and `y ≤ 1` it is
`min(-x,y-1)`. -/
theorem C65_invariant_counterexample : ∃ (C : SComposite ℕ ℕ ℕ ℕ ℕ) (l : Loc ℕ ℕ) (ms : List (SMode ℕ ℕ ℕ ℕ))
    (f : Expr ℕ) (y : ℕ → ℝ) (r : ℝ), (∀ c ∈ C, WF exprLang c.2) ∧ cCheckMode (cexprLang eqK3) C l = none ∧ At C l ms ∧
    (∀ m ∈ ms, ∀ q, find 11 m.invs = some q → q.Atomic) ∧
    cInvariantFunction eqK3 C l 11 = some f ∧ Solves (ms.flatMap (·.aux)) y ∧
    (∃ m ∈ ms, ∃ q, find 11 m.invs = some q ∧ q.eval y = some .ff) ∧
    f.eval (coords (stateVars ms) y) = some r ∧ r < 0 := by
  refine ⟨pair, loc2 0 0, [⟨loc1 0 0, [(2, .un .neg (.var 3))], [(2, .un .neg (.var 3))], [(0, .var 2)],
      [(11, .cmp .geq (.var 0) (.cst 0))], [(10, .cmp .geq (.var 0) (.cst 1))], [(10, .permissive), (11, .invariant)],
      [(10, loc1 0 0)], [(10, [(0, .var 2)])]⟩,
      ⟨loc1 1 0, [(3, .var 0)], [(3, .var 0)], [(1, .var 3)],
      [(11, .cmp .leq (.var 1) (.cst 1))], [(10, .cmp .geq (.var 1) (.cst 2))], [(10, .permissive), (11, .invariant)],
      [(10, loc1 1 0)], [(10, [(1, .var 0)])]⟩],
    .bin .min (.bin .sub (.cst 0) (.var 0)) (.bin .sub (.var 1) (.cst 1)),
    fun v => if v = 0 then 1 else if v = 1 then 2 else if v = 2 then -1 else 1, -1, pair_wf, pair_checked,
    .cons rfl (.cons rfl .nil), ?_, rfl, ?_, ?_, ?_, by norm_num⟩
  · simp [find, KExpr.Atomic]
  · simp [Solves, Expr.eval, UnOp.eval]
  · refine ⟨_, List.mem_cons_of_mem _ (List.mem_cons_self ..), .cmp .leq (.var 1) (.cst 1), rfl, ?_⟩
    simp [KExpr.eval, Expr.eval, Expr.cst, CmpOp.eval, K3.ofSign]
  · simp [Expr.eval, Expr.cst, BinOp.eval, coords, stateVars]

/-- C65: `dynamic_function` fails in an accepted location if an auxiliary equation uses the variable of an equation
before it; with the components in the other order it does not. -/
theorem C65_chain_counterexample : ∃ (C : SComposite ℕ ℕ ℕ ℕ ℕ) (l : Loc ℕ ℕ), (∀ c ∈ C, WF exprLang c.2) ∧
    cCheckMode (cexprLang eqK3) C l = none ∧ cDynamicFunction C l = none ∧
    cCheckMode (cexprLang eqK3) C.reverse l = none ∧ (cDynamicFunction C.reverse l).isSome := by
  refine ⟨pair.reverse, loc2 0 0, fun c hc => pair_wf c (List.mem_reverse.1 hc), by decide +kernel, by rfl, ?_, ?_⟩
  · rw [List.reverse_reverse]; exact pair_checked
  · rw [List.reverse_reverse]; rfl

end Verif.Hybrid
