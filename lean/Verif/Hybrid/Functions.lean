import Verif.Hybrid.AutomatonReach
import Verif.Symbolic.Kleene
import Verif.Symbolic.Subst

/-!
# C64: the functions of a hybrid automaton

`dynamic_function`, `auxiliary_function`, `reset_function`, `invariant_function` and `guard_function`
(hybrid/hybrid_automaton.cpp 226-275, 759-782) are made from the equations of a mode by substitution of the auxiliary
variables and conversion of expressions to formulae in the coordinates of the state space (symbolic/expression.cpp
495-564, function/function.cpp 344-351).
-/

noncomputable section

namespace Verif.Hybrid

open Verif.Container Ariadne.AlgebraicSort Ariadne.Symbolic

variable {κ ν V ε : Type*} [LinearOrder κ] [LinearOrder ν] [LinearOrder V] [LinearOrder ε]

/-! ### Model -/

/-- `Predicate::arguments` (templates.tpl.hpp 421-428) -/
def kargs : KExpr V → Finset V
  | .const _ => ∅
  | .var v => {v}
  | .not p => kargs p
  | .and p q => kargs p ∪ kargs q
  | .or p q => kargs p ∪ kargs q
  | .sgn a => a.arguments
  | .cmp _ a b => a.arguments ∪ b.arguments

/-- Expressions and predicates as used by automata. -/
def exprLang : Lang V (Expr V) (KExpr V) := ⟨Expr.arguments, kargs, .not, .const .tt⟩

/-- A mode whose expressions are symbolic expressions. -/
abbrev SMode (κ ν V ε : Type*) [LinearOrder κ] := Mode κ ν V ε (Expr V) (KExpr V)

/-- `_cached_make_formula` (expression.cpp 501-526) with the indices of a space: the coordinate of a variable which is
not in the space is a failed assertion (container.hpp 247).  Formulae are expressions in the coordinates. -/
def makeFormula (space : List V) : Expr V → Option (Expr ℕ)
  | .const _ c => some (.cst c)
  | .var v => if v ∈ space then some (.var (space.idxOf v)) else none
  | .un op a => (makeFormula space a).map (.un op)
  | .bin op a b => (makeFormula space a).bind fun p => (makeFormula space b).map fun q => .bin op p q
  | .pow a n => (makeFormula space a).map fun p => .pow p n

/-- `make_formula(Vector,Space)` (expression.cpp 557-564) -/
def makeFormulas (space : List V) : List (Expr V) → Option (List (Expr ℕ))
  | [] => some []
  | e :: es => (makeFormula space e).bind fun f => (makeFormulas space es).map fun fs => f :: fs

/-- `make_auxiliary_function` (hybrid_automaton.cpp 226-241) -/
def makeAuxiliary (space : List V) (alg : List (V × Expr V)) : Option (List (Expr ℕ)) :=
  match sortAux (exprLang (V := V)) alg with
  | .error _ => none
  | .ok sorted =>
    let results := sorted.foldl (fun r a => r.set ((alg.map Prod.fst).idxOf a.1) (a.2.substList sorted))
      (List.replicate sorted.length (Expr.cst 0))
    makeFormulas space results

/-- `make_dynamic_function` (hybrid_automaton.cpp 243-253) -/
def makeDynamic (space : List V) (alg diff : List (V × Expr V)) : Option (List (Expr ℕ)) :=
  makeFormulas space (diff.foldl (fun r a => r.set (space.idxOf a.1) (a.2.substList alg))
    (List.replicate diff.length (Expr.cst 0)))

/-- `make_reset_function` (hybrid_automaton.cpp 255-265) -/
def makeReset (space : List V) (alg primed : List (V × Expr V)) : Option (List (Expr ℕ)) :=
  makeFormulas space (primed.map fun a => a.2.substList alg)

/-- `make_constraint_function` (hybrid_automaton.cpp 267-275) -/
def makeConstraint (space : List V) (alg : List (V × Expr V)) (p : KExpr V) (pos : Bool) : Option (Expr ℕ) :=
  (p.indicator pos).bind fun e => makeFormula space (e.substList alg)

namespace Mode

/-- `continuous_state_space` (hybrid_automaton.cpp 747-749) -/
def space (m : SMode κ ν V ε) : List V := m.dyn.map Prod.fst

/-- `auxiliary_function` (hybrid_automaton.cpp 759-762) -/
def auxiliaryFunction (m : SMode κ ν V ε) : Option (List (Expr ℕ)) := makeAuxiliary m.space m.sortedAux

/-- `dynamic_function` (hybrid_automaton.cpp 764-767) -/
def dynamicFunction (m : SMode κ ν V ε) : Option (List (Expr ℕ)) := makeDynamic m.space m.sortedAux m.dyn

/-- `reset_function` (hybrid_automaton.cpp 769-772); without a reset an assertion fails. -/
def resetFunction (m : SMode κ ν V ε) (e : ε) : Option (List (Expr ℕ)) :=
  (find e m.resets).bind fun r => makeReset m.space m.sortedAux r

/-- `invariant_function` (hybrid_automaton.cpp 774-777) -/
def invariantFunction (m : SMode κ ν V ε) (e : ε) : Option (Expr ℕ) :=
  (find e m.invs).bind fun p => makeConstraint m.space m.aux p false

/-- `guard_function` (hybrid_automaton.cpp 779-782) -/
def guardFunction (m : SMode κ ν V ε) (e : ε) : Option (Expr ℕ) :=
  (find e m.guards).bind fun p => makeConstraint m.space m.sortedAux p true

end Mode

/-! ### Formulae -/

/-- spec: the point of the state space at which the variables have the given values -/
def coords (space : List V) (y : V → ℝ) (i : ℕ) : ℝ := (space[i]?).elim 0 y

theorem coords_idxOf {space : List V} {v : V} (h : v ∈ space) (y : V → ℝ) : coords space y (space.idxOf v) = y v := by
  have hl := List.idxOf_lt_length_of_mem h
  rw [coords, List.getElem?_eq_getElem hl, List.getElem_idxOf]
  rfl

/-- C64: a formula is made exactly for the expressions in the variables of the space; its value is that of the
expression, and it uses coordinates of the space only. -/
theorem C64_make_formula (space : List V) (e : Expr V) :
    ((∃ f, makeFormula space e = some f) ↔ ∀ v ∈ e.arguments, v ∈ space) ∧
    ∀ f, makeFormula space e = some f → (∀ y : V → ℝ, f.eval (coords space y) = e.eval y) ∧
      ∀ i ∈ f.arguments, i < space.length := by
  induction e with
  | const n c =>
    refine ⟨by simp [makeFormula, Expr.arguments], ?_⟩
    rintro f hf
    simp only [makeFormula, Option.some.injEq] at hf
    subst hf
    simp [Expr.eval, Expr.arguments, Expr.cst]
  | var v =>
    by_cases h : v ∈ space
    · refine ⟨by simp [makeFormula, Expr.arguments, h], ?_⟩
      rintro f hf
      simp only [makeFormula, h, if_true, Option.some.injEq] at hf
      subst hf
      refine ⟨fun y => ?_, ?_⟩
      · rw [Expr.eval, Expr.eval, coords_idxOf h]
      · simp only [Expr.arguments, Finset.mem_singleton, forall_eq]
        exact List.idxOf_lt_length_of_mem h
    · simp [makeFormula, Expr.arguments, h]
  | un op a ih =>
    refine ⟨?_, ?_⟩
    · rw [← show (∃ f, makeFormula space a = some f) ↔ ∀ v ∈ (Expr.un op a).arguments, v ∈ space from ih.1]
      simp [makeFormula]
    · rintro f hf
      simp only [makeFormula, Option.map_eq_some_iff] at hf
      obtain ⟨p, hp, rfl⟩ := hf
      exact ⟨fun y => by rw [Expr.eval, Expr.eval, (ih.2 p hp).1], (ih.2 p hp).2⟩
  | bin op a b iha ihb =>
    refine ⟨?_, ?_⟩
    · have : (∀ v ∈ (Expr.bin op a b).arguments, v ∈ space) ↔
          (∃ f, makeFormula space a = some f) ∧ ∃ f, makeFormula space b = some f := by
        rw [iha.1, ihb.1]
        simp only [Expr.arguments, Finset.mem_union]
        constructor
        · exact fun h => ⟨fun v hv => h v (Or.inl hv), fun v hv => h v (Or.inr hv)⟩
        · rintro ⟨h1, h2⟩ v (hv | hv)
          · exact h1 v hv
          · exact h2 v hv
      rw [this]
      rw [makeFormula]
      cases makeFormula space a <;> cases makeFormula space b <;> simp
    · rintro f hf
      simp only [makeFormula, Option.bind_eq_some_iff, Option.map_eq_some_iff] at hf
      obtain ⟨p, hp, q, hq, rfl⟩ := hf
      refine ⟨fun y => by rw [Expr.eval, Expr.eval, (iha.2 p hp).1, (ihb.2 q hq).1], ?_⟩
      intro i hi
      rcases Finset.mem_union.1 hi with hi | hi
      · exact (iha.2 p hp).2 i hi
      · exact (ihb.2 q hq).2 i hi
  | pow a n ih =>
    refine ⟨?_, ?_⟩
    · rw [← show (∃ f, makeFormula space a = some f) ↔ ∀ v ∈ (Expr.pow a n).arguments, v ∈ space from ih.1]
      simp [makeFormula]
    · rintro f hf
      simp only [makeFormula, Option.map_eq_some_iff] at hf
      obtain ⟨p, hp, rfl⟩ := hf
      exact ⟨fun y => by rw [Expr.eval, Expr.eval, (ih.2 p hp).1], (ih.2 p hp).2⟩

theorem makeFormulas_iff (space : List V) (es : List (Expr V)) :
    (∃ fs, makeFormulas space es = some fs) ↔ ∀ e ∈ es, ∀ v ∈ e.arguments, v ∈ space := by
  induction es with
  | nil => simp [makeFormulas]
  | cons e es ih =>
    rw [List.forall_mem_cons, ← ih, ← (C64_make_formula space e).1]
    rw [makeFormulas]
    cases makeFormula space e <;> cases makeFormulas space es <;> simp

theorem makeFormulas_get {space : List V} {es : List (Expr V)} {fs : List (Expr ℕ)}
    (h : makeFormulas space es = some fs) :
    fs.length = es.length ∧ ∀ (i : ℕ) (e : Expr V), es[i]? = some e → ∃ f, fs[i]? = some f ∧ makeFormula space e = some f := by
  induction es generalizing fs with
  | nil =>
    simp only [makeFormulas, Option.some.injEq] at h
    subst h
    simp
  | cons e es ih =>
    simp only [makeFormulas, Option.bind_eq_some_iff, Option.map_eq_some_iff] at h
    obtain ⟨f, hf, gs, hg, rfl⟩ := h
    obtain ⟨h1, h2⟩ := ih hg
    refine ⟨by simp [h1], fun i e' hi => ?_⟩
    cases i with
    | zero =>
      simp only [List.getElem?_cons_zero, Option.some.injEq] at hi
      subst hi
      exact ⟨f, by simp, hf⟩
    | succ i =>
      rw [List.getElem?_cons_succ] at hi
      simpa using h2 i e' hi

/-! ### Substitution at a solution of the equations -/

/-- Substituting equations, in any order, does not change the value at a solution of the equations. -/
theorem eval_substList_solution (as : List (V × Expr V)) {y : V → ℝ} (hy : Solves as y) (e : Expr V) {q : ℝ}
    (he : e.eval y = some q) : (e.substList as).eval y = some q := by
  induction as generalizing e with
  | nil => exact he
  | cons a as ih =>
    simp only [Expr.substList, List.foldl_cons]
    refine ih (fun b hb => hy b (List.mem_cons_of_mem _ hb)) _ ?_
    refine C38_substitute e a.1 a.2 (hy a (by simp)) ?_
    rw [Function.update_eq_self]
    exact he

/-- The general form of all theorems below: if the function of an expression is made, its value at a state is the value
of the expression at every solution of the equations in this state. -/
theorem makeFormula_substList {space : List V} {as : List (V × Expr V)} {y : V → ℝ} (hy : Solves as y) {e : Expr V}
    {f : Expr ℕ} (hf : makeFormula space (e.substList as) = some f) {q : ℝ} (he : e.eval y = some q) :
    f.eval (coords space y) = some q := by
  rw [((C64_make_formula space _).2 f hf).1]
  exact eval_substList_solution as hy e he

omit [LinearOrder V] in
theorem foldl_set_get {α : Type*} (g : α → ℕ) (w : α → Expr V) : ∀ (l : List α) (r : List (Expr V)),
    (∀ a ∈ l, g a < r.length) → (l.map g).Nodup →
    ((l.foldl (fun r a => r.set (g a) (w a)) r).length = r.length ∧
      (∀ a ∈ l, (l.foldl (fun r a => r.set (g a) (w a)) r)[g a]? = some (w a)) ∧
      ∀ i, (∀ a ∈ l, g a ≠ i) → (l.foldl (fun r a => r.set (g a) (w a)) r)[i]? = r[i]?) := by
  intro l
  induction l with
  | nil => intro r _ _; simp
  | cons a l ih =>
    intro r hr hn
    rw [List.map_cons, List.nodup_cons] at hn
    obtain ⟨h1, h2, h3⟩ := ih (r.set (g a) (w a)) (fun b hb => by simpa using hr b (by simp [hb])) hn.2
    refine ⟨by simpa using h1, fun b hb => ?_, fun i hi => ?_⟩
    · rw [List.foldl_cons]
      rcases List.mem_cons.1 hb with rfl | hb
      · rw [h3 (g b) fun c hc e => hn.1 (List.mem_map.2 ⟨c, hc, e⟩)]
        rw [List.getElem?_set_self (hr b (by simp))]
      · exact h2 b hb
    · rw [List.foldl_cons, h3 i fun b hb => hi b (by simp [hb]), List.getElem?_set_ne (hi a (by simp))]

theorem idxOf_map_nodup {space : List V} {l : List V} (hl : l.Nodup) (hs : ∀ v ∈ l, v ∈ space) :
    (l.map space.idxOf).Nodup := by
  refine List.Nodup.map_on (fun a ha b _ hab => ?_) hl
  exact (List.idxOf_inj (hs a ha)).1 hab

/-! ### The functions of a mode -/

variable {m : SMode κ ν V ε}

theorem ModeWF.solves_sorted (w : ModeWF exprLang m) {y : V → ℝ} (hy : Solves m.aux y) : Solves m.sortedAux y :=
  fun a ha => hy a (w.perm.mem_iff.1 ha)

theorem dyn_results (w : ModeWF exprLang m) (i : ℕ) (a : V × Expr V) (ha : m.dyn[i]? = some a) :
    (m.dyn.foldl (fun r a => r.set (m.space.idxOf a.1) (a.2.substList m.sortedAux))
      (List.replicate m.dyn.length (Expr.cst 0)))[i]? = some (a.2.substList m.sortedAux) := by
  have hn : m.space.Nodup := (List.nodup_append.1 w.defs).2.1
  have hmem : ∀ a ∈ m.dyn, a.1 ∈ m.space := fun a ha => List.mem_map.2 ⟨a, ha, rfl⟩
  have hidx : (m.dyn.map fun a => m.space.idxOf a.1).Nodup := by
    have := idxOf_map_nodup hn (space := m.space) fun v hv => hv
    rw [Mode.space, List.map_map] at this
    exact this
  obtain ⟨-, h2, -⟩ := foldl_set_get (fun a : V × Expr V => m.space.idxOf a.1)
    (fun a => a.2.substList m.sortedAux) m.dyn (List.replicate m.dyn.length (Expr.cst 0))
    (fun a ha => by
      rw [List.length_replicate]
      have := List.idxOf_lt_length_of_mem (hmem a ha)
      rwa [Mode.space, List.length_map] at this) hidx
  have hi : m.space.idxOf a.1 = i := by
    have hlt : i < m.space.length := by
      rw [Mode.space, List.length_map]
      exact (List.getElem?_eq_some_iff.1 ha).1
    have : m.space[i] = a.1 := by
      obtain ⟨h, e⟩ := List.getElem?_eq_some_iff.1 ha
      simp [Mode.space, e]
    rw [← this]
    exact hn.idxOf_getElem i hlt
  rw [← hi]
  exact h2 a (List.mem_of_getElem? ha)

/-- C64: if `dynamic_function` does not fail, its component for each state variable is the right-hand side of its
differential equation: at every state, with the auxiliary variables solving their equations. -/
theorem C64_dynamic_function (w : ModeWF exprLang m) {fs : List (Expr ℕ)} (h : m.dynamicFunction = some fs) :
    fs.length = m.dyn.length ∧ ∀ y : V → ℝ, Solves m.aux y → ∀ (i : ℕ) (a : V × Expr V) (q : ℝ), m.dyn[i]? = some a → a.2.eval y = some q →
      ∃ f, fs[i]? = some f ∧ f.eval (coords m.space y) = some q := by
  obtain ⟨h1, h2⟩ := makeFormulas_get h
  constructor
  · rw [h1]
    have : ∀ (l : List (V × Expr V)) (r : List (Expr V)),
        (l.foldl (fun r a => r.set (m.space.idxOf a.1) (a.2.substList m.sortedAux)) r).length = r.length := by
      intro l
      induction l with
      | nil => intro r; rfl
      | cons a l ih => intro r; rw [List.foldl_cons, ih]; simp
    rw [this, List.length_replicate]
  · intro y hy i a q ha hq
    obtain ⟨f, hf1, hf2⟩ := h2 i _ (dyn_results w i a ha)
    exact ⟨f, hf1, makeFormula_substList (w.solves_sorted hy) hf2 hq⟩

/-- Sorting sorted equations again succeeds. -/
theorem ModeWF.sort_again (w : ModeWF exprLang m) : ∃ s, sortAux exprLang m.sortedAux = .ok s ∧ s.Perm m.sortedAux := by
  have hlm : ∀ l : List (V × Expr V), (l.map (toEq exprLang)).map (·.lhs) = l.map Prod.fst := fun l => by simp [toEq]
  have hn : (m.sortedAux.map Prod.fst).Nodup := (w.perm.map Prod.fst).nodup_iff.2 (List.nodup_append.1 w.defs).1
  have hac : ¬ Cyclic (m.sortedAux.map (toEq exprLang)) := by
    rintro ⟨v, hv⟩
    -- positions in the sorted list decrease along dependencies
    have key : ∀ v u, DependsOn (m.sortedAux.map (toEq exprLang)) v u →
        (m.sortedAux.map Prod.fst).idxOf u < (m.sortedAux.map Prod.fst).idxOf v := by
      rintro v u ⟨hu, a, ha, rfl, hau⟩
      obtain ⟨p, s, hps⟩ := List.append_of_mem ha
      have hu' : u ∈ (m.aux.map (toEq exprLang)).map (·.lhs) := by
        rw [hlm] at hu ⊢
        exact (w.perm.map Prod.fst).mem_iff.1 hu
      have hmem := w.ordered p a s hps u hau hu'
      have hfst : m.sortedAux.map Prod.fst = p.map (·.lhs) ++ a.lhs :: s.map (·.lhs) := by
        rw [← hlm, hps]; simp
      rw [hfst] at hn ⊢
      have hanot : a.lhs ∉ p.map (·.lhs) := fun hc => by
        have := (List.nodup_append.1 hn).2.2 a.lhs hc a.lhs (by simp)
        exact this rfl
      rw [List.idxOf_append_of_mem hmem, List.idxOf_append_of_notMem hanot, List.idxOf_cons_self]
      have := List.idxOf_lt_length_of_mem hmem
      omega
    have : ∀ v u, Relation.TransGen (DependsOn (m.sortedAux.map (toEq exprLang))) v u →
        (m.sortedAux.map Prod.fst).idxOf u < (m.sortedAux.map Prod.fst).idxOf v := by
      intro v u h
      induction h with
      | single h => exact key _ _ h
      | tail _ h ih => exact (key _ _ h).trans ih
    exact lt_irrefl _ (this v v hv)
  obtain ⟨s, hs⟩ := (sortAux_eq exprLang m.sortedAux).2.2.2 ((C39_sort_ok_iff (by rw [hlm]; exact hn)).2 hac)
  exact ⟨s, hs, (sortAux_perm hn hs).1⟩

theorem aux_results (w : ModeWF exprLang m) {s : List (V × Expr V)} (hp : s.Perm m.sortedAux) (i : ℕ) (a : V × Expr V)
    (ha : m.sortedAux[i]? = some a) :
    (s.foldl (fun r a => r.set ((m.sortedAux.map Prod.fst).idxOf a.1) (a.2.substList s))
      (List.replicate s.length (Expr.cst 0)))[i]? = some (a.2.substList s) := by
  have hn : (m.sortedAux.map Prod.fst).Nodup := (w.perm.map Prod.fst).nodup_iff.2 (List.nodup_append.1 w.defs).1
  have hns : (s.map Prod.fst).Nodup := (hp.map Prod.fst).nodup_iff.2 hn
  have hmem : ∀ a ∈ s, a.1 ∈ m.sortedAux.map Prod.fst := fun a ha => List.mem_map.2 ⟨a, hp.mem_iff.1 ha, rfl⟩
  have hidx : (s.map fun a => (m.sortedAux.map Prod.fst).idxOf a.1).Nodup := by
    have := idxOf_map_nodup hns (space := m.sortedAux.map Prod.fst) fun v hv => by
      obtain ⟨a, ha, rfl⟩ := List.mem_map.1 hv
      exact hmem a ha
    rw [List.map_map] at this
    exact this
  obtain ⟨-, h2, -⟩ := foldl_set_get (fun a : V × Expr V => (m.sortedAux.map Prod.fst).idxOf a.1)
    (fun a => a.2.substList s) s (List.replicate s.length (Expr.cst 0))
    (fun a ha => by
      rw [List.length_replicate, hp.length_eq]
      have := List.idxOf_lt_length_of_mem (hmem a ha)
      rwa [List.length_map] at this) hidx
  have hi : (m.sortedAux.map Prod.fst).idxOf a.1 = i := by
    have hlt : i < (m.sortedAux.map Prod.fst).length := by
      rw [List.length_map]
      exact (List.getElem?_eq_some_iff.1 ha).1
    have : (m.sortedAux.map Prod.fst)[i] = a.1 := by
      obtain ⟨h, e⟩ := List.getElem?_eq_some_iff.1 ha
      simp [e]
    rw [← this]
    exact hn.idxOf_getElem i hlt
  have := h2 a (hp.mem_iff.2 (List.mem_of_getElem? ha))
  rw [hi] at this
  exact this

/-- C64: if `auxiliary_function` does not fail, its components are the values of the auxiliary variables, in the order of
the auxiliary space. -/
theorem C64_auxiliary_function (w : ModeWF exprLang m) {fs : List (Expr ℕ)} (h : m.auxiliaryFunction = some fs)
    (y : V → ℝ) (hy : Solves m.aux y) (i : ℕ) (v : V) (hv : (m.sortedAux.map Prod.fst)[i]? = some v) :
    ∃ f, fs[i]? = some f ∧ f.eval (coords m.space y) = some (y v) := by
  obtain ⟨s, hs, hp⟩ := w.sort_again
  rw [Mode.auxiliaryFunction, makeAuxiliary, hs] at h
  obtain ⟨h1, h2⟩ := makeFormulas_get h
  rw [List.getElem?_map, Option.map_eq_some_iff] at hv
  obtain ⟨a, ha, rfl⟩ := hv
  obtain ⟨f, hf1, hf2⟩ := h2 i _ (aux_results w hp i a ha)
  refine ⟨f, hf1, makeFormula_substList (fun b hb => w.solves_sorted hy b (hp.mem_iff.1 hb)) hf2 ?_⟩
  exact w.solves_sorted hy a (List.mem_of_getElem? ha)

/-- C64: if `reset_function` does not fail, its components are the values assigned, in the order of the assignments.
(This need not be the order of the state variables of the target: `C64_reset_order_counterexample`.) -/
theorem C64_reset_function_partial (w : ModeWF exprLang m) {e : ε} {r : List (V × Expr V)}
    (hr : find e m.resets = some r) {fs : List (Expr ℕ)} (h : m.resetFunction e = some fs) :
    fs.length = r.length ∧ ∀ y : V → ℝ, Solves m.aux y → ∀ (i : ℕ) (a : V × Expr V) (q : ℝ), r[i]? = some a → a.2.eval y = some q →
      ∃ f, fs[i]? = some f ∧ f.eval (coords m.space y) = some q := by
  rw [Mode.resetFunction, hr] at h
  obtain ⟨h1, h2⟩ := makeFormulas_get h
  refine ⟨by simpa using h1, fun y hy i a q ha hq => ?_⟩
  obtain ⟨f, hf1, hf2⟩ := h2 i (a.2.substList m.sortedAux) (by simp [ha])
  exact ⟨f, hf1, makeFormula_substList (w.solves_sorted hy) hf2 hq⟩

/-- C64: if `guard_function` does not fail, it is positive exactly where the guard is true, and negative exactly where
it is false. -/
theorem C64_guard_function (w : ModeWF exprLang m) {e : ε} {p : KExpr V} (hp : find e m.guards = some p) {f : Expr ℕ}
    (h : m.guardFunction e = some f) (y : V → ℝ) (hy : Solves m.aux y) {k : K3} (hk : p.eval y = some k) :
    ∃ r, f.eval (coords m.space y) = some r ∧ (0 < r ↔ k = .tt) ∧ (r < 0 ↔ k = .ff) := by
  rw [Mode.guardFunction, hp, Option.bind_some, makeConstraint, Option.bind_eq_some_iff] at h
  obtain ⟨a, ha, hf⟩ := h
  obtain ⟨r, hr, h1, h2⟩ := C50_indicator_positive ha hk
  exact ⟨r, makeFormula_substList (w.solves_sorted hy) hf hr, h1, h2⟩

/-- C64: if `invariant_function` does not fail, it is negative exactly where the invariant is true, and positive exactly
where it is false, for invariants without conjunction and disjunction.  (It is wrong with them:
`C64_invariant_counterexample`.) -/
theorem C64_invariant_function_partial {e : ε} {p : KExpr V} (hp : find e m.invs = some p)
    (hat : p.Atomic) {f : Expr ℕ} (h : m.invariantFunction e = some f) (y : V → ℝ) (hy : Solves m.aux y) {k : K3}
    (hk : p.eval y = some k) :
    ∃ r, f.eval (coords m.space y) = some r ∧ (r < 0 ↔ k = .tt) ∧ (0 < r ↔ k = .ff) := by
  rw [Mode.invariantFunction, hp, Option.bind_some, makeConstraint, Option.bind_eq_some_iff] at h
  obtain ⟨a, ha, hf⟩ := h
  obtain ⟨r, hr, h1, h2⟩ := C50_indicator_negative_partial hat ha hk
  exact ⟨r, makeFormula_substList hy hf hr, h1, h2⟩

end Verif.Hybrid
