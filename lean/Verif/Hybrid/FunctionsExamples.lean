import Verif.Hybrid.FunctionsDefined

/-!
# C64: examples and counterexamples
-/

noncomputable section

namespace Verif.Hybrid

open Verif.Container Ariadne.AlgebraicSort Ariadne.Symbolic

def locA : Loc ℕ ℕ := ⟨[(0, 0)], by unfold SortedKeys; decide⟩

/-- A particle: `0' = 1`, `1' = 2` with the auxiliary variable `2 = -0`, and a jump which keeps both state variables,
assigned in the other order. -/
def particleOps : List (Op ℕ ℕ ℕ ℕ (Expr ℕ) (KExpr ℕ)) :=
  [ .mode locA [(2, .un .neg (.var 0))] [(0, .var 1), (1, .var 2)],
    .transition locA 10 locA [(1, .var 1), (0, .var 0)] (.cmp .geq (.var 2) (.cst 1)) .permissive,
    .invariant locA (.cmp .leq (.var 2) (.cst 5)) 11 ]

def particle : Automaton ℕ ℕ ℕ ℕ (Expr ℕ) (KExpr ℕ) := build exprLang particleOps

theorem particle_wf : WF exprLang particle := C63_invariant exprLang particleOps

/-- The mode of the particle. -/
def particleMode : SMode ℕ ℕ ℕ ℕ :=
  { loc := locA
    aux := [(2, .un .neg (.var 0))]
    sortedAux := [(2, .un .neg (.var 0))]
    dyn := [(0, .var 1), (1, .var 2)]
    invs := [(11, .cmp .leq (.var 2) (.cst 5))]
    guards := [(10, .cmp .geq (.var 2) (.cst 1))]
    kinds := [(10, .permissive), (11, .invariant)]
    targets := [(10, locA)]
    resets := [(10, [(1, .var 1), (0, .var 0)])] }

theorem particle_eq : particle = [(locA, particleMode)] := by
  rfl

theorem particle_mode : modeOf particle locA = some particleMode := by rfl

theorem particleMode_wf : ModeWF exprLang particleMode :=
  particle_wf.modes locA particleMode (by rw [particle_eq]; simp)

theorem particle_checked : checkMode exprLang particle locA = none := by decide +kernel

theorem particle_specified : WellSpecified exprLang particle particleMode := by
  obtain ⟨m, hm, hw⟩ := (C63_check_mode particle_wf locA).1 particle_checked
  rw [particle_mode] at hm
  exact Option.some.inj hm ▸ hw

/-- Non-vacuity: the functions of the particle are made. -/
example : particleMode.dynamicFunction = some [.var 1, .un .neg (.var 0)] := by rfl
example : particleMode.auxiliaryFunction = some [.un .neg (.var 0)] := by rfl
example : particleMode.guardFunction 10 = some (.bin .sub (.un .neg (.var 0)) (.cst 1)) := by rfl
example : particleMode.invariantFunction 11 = some (.bin .sub (.un .neg (.var 0)) (.cst 5)) := by rfl
example : ∀ a ∈ particleMode.aux, ∀ v ∈ a.2.arguments, v ∈ particleMode.space := by
  simp [particleMode, Mode.space, Expr.arguments]
example (x : ℕ → ℝ) : Solves particleMode.aux fun v => if v = 2 then -x 0 else x v := by
  simp [Solves, particleMode, Expr.eval, UnOp.eval]

/-- C64: the components of `reset_function` are in the order of the assignments (hybrid_automaton.cpp 262), not in that
of the state variables of the target: the reset `1:=1, 0:=0` of a checked automaton, which changes nothing, exchanges
the two coordinates. -/
theorem C64_reset_order_counterexample : ∃ (A : Automaton ℕ ℕ ℕ ℕ (Expr ℕ) (KExpr ℕ)) (l : Loc ℕ ℕ) (m : SMode ℕ ℕ ℕ ℕ)
    (r : List (ℕ × Expr ℕ)) (fs : List (Expr ℕ)),
    WF exprLang A ∧ checkMode exprLang A l = none ∧ modeOf A l = some m ∧
    find 10 m.targets = some l ∧ find 10 m.resets = some r ∧ (∀ a ∈ r, a.2 = .var a.1) ∧
    m.space = [0, 1] ∧ m.resetFunction 10 = some fs ∧
    ∀ y : ℕ → ℝ, fs.map (fun f => f.eval (coords m.space y)) = [some (y 1), some (y 0)] := by
  refine ⟨particle, locA, particleMode, [(1, .var 1), (0, .var 0)], [.var 1, .var 0], particle_wf, particle_checked,
    particle_mode, rfl, rfl, by simp, rfl, rfl, fun y => ?_⟩
  simp [Expr.eval, coords, Mode.space, particleMode]

/-- A chain of auxiliary variables: `1 = -0`, `2 = -1`, `0' = 2`; the invariant is a conjunction. -/
def chainOps : List (Op ℕ ℕ ℕ ℕ (Expr ℕ) (KExpr ℕ)) :=
  [ .mode locA [(1, .un .neg (.var 0)), (2, .un .neg (.var 1))] [(0, .var 2)],
    .invariant locA (.and (.cmp .geq (.var 0) (.cst 0)) (.cmp .leq (.var 0) (.cst 1))) 11 ]

def chain : Automaton ℕ ℕ ℕ ℕ (Expr ℕ) (KExpr ℕ) := build exprLang chainOps

def chainMode : SMode ℕ ℕ ℕ ℕ :=
  { loc := locA
    aux := [(1, .un .neg (.var 0)), (2, .un .neg (.var 1))]
    sortedAux := [(1, .un .neg (.var 0)), (2, .un .neg (.var 1))]
    dyn := [(0, .var 2)]
    invs := [(11, .and (.cmp .geq (.var 0) (.cst 0)) (.cmp .leq (.var 0) (.cst 1)))]
    guards := []
    kinds := [(11, .invariant)]
    targets := []
    resets := [] }

theorem chain_wf : WF exprLang chain := C63_invariant exprLang chainOps

theorem chain_mode : modeOf chain locA = some chainMode := by rfl

theorem chainMode_wf : ModeWF exprLang chainMode :=
  chain_wf.modes locA chainMode (by rw [show chain = [(locA, chainMode)] from rfl]; simp)

/-- C64: `dynamic_function` fails for a mode which `new_mode` and `check_mode` accept, and whose auxiliary equations have
a solution at every state. -/
theorem C64_chain_counterexample : ∃ (A : Automaton ℕ ℕ ℕ ℕ (Expr ℕ) (KExpr ℕ)) (l : Loc ℕ ℕ) (m : SMode ℕ ℕ ℕ ℕ),
    WF exprLang A ∧ checkMode exprLang A l = none ∧ modeOf A l = some m ∧ m.dynamicFunction = none ∧
    ∀ x : ℕ → ℝ, ∃ y : ℕ → ℝ, Solves m.aux y ∧ y 0 = x 0 := by
  refine ⟨chain, locA, chainMode, chain_wf, by decide +kernel, chain_mode, ?_, fun x => ?_⟩
  · exact (C64_chain_fails chainMode_wf (by simp [chainMode, NoNul]) (a := (2, .un .neg (.var 1)))
      (b := (1, .un .neg (.var 0))) (by simp [chainMode]) (by simp [chainMode]) (by simp [Expr.arguments])).1
      (0, .var 2) (by simp [chainMode]) trivial (by simp [Expr.arguments])
  · obtain ⟨y, h1, h2⟩ := (C64_solution chainMode_wf x).2 (by simp [chainMode, Expr.eval, UnOp.eval])
    exact ⟨y, h1, h2 0 (by simp [chainMode])⟩

/-- C64: `invariant_function` of a conjunction is negative where the invariant is false: for `0 ≤ x ∧ x ≤ 1` it
is `min(-x,x-1)`, which is `-2` at `x=2`. -/
theorem C64_invariant_counterexample : ∃ (A : Automaton ℕ ℕ ℕ ℕ (Expr ℕ) (KExpr ℕ)) (l : Loc ℕ ℕ) (m : SMode ℕ ℕ ℕ ℕ)
    (p : KExpr ℕ) (f : Expr ℕ), WF exprLang A ∧ checkMode exprLang A l = none ∧ modeOf A l = some m ∧
    find 11 m.invs = some p ∧ m.invariantFunction 11 = some f ∧
    ∃ y : ℕ → ℝ, Solves m.aux y ∧ p.eval y = some .ff ∧ f.eval (coords m.space y) = some (-2) := by
  refine ⟨chain, locA, chainMode, _, .bin .min (.bin .sub (.cst 0) (.var 0)) (.bin .sub (.var 0) (.cst 1)), chain_wf,
    by decide +kernel, chain_mode, rfl, rfl, fun v => if v = 0 then 2 else if v = 1 then -2 else 2, ?_, ?_, ?_⟩
  · simp [Solves, chainMode, Expr.eval, UnOp.eval]
  · simp [KExpr.eval, Expr.eval, Expr.cst, CmpOp.eval, K3.ofSign, K3.and]
  · simp [Expr.eval, Expr.cst, BinOp.eval, coords, Mode.space, chainMode]
    norm_num

end Verif.Hybrid
