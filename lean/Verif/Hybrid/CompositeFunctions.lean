import Verif.Hybrid.CompositeCheck

/-!
# C65: the predicates and functions of a composition
-/

noncomputable section

namespace Verif.Hybrid

open Verif.Container Ariadne.AlgebraicSort Ariadne.Symbolic

variable {N κ ν V ε : Type*} [LinearOrder N] [LinearOrder κ] [LinearOrder ν] [LinearOrder V] [LinearOrder ε]

/-! ### Model -/

/-- Symbolic expressions as used by compositions.  `o` is the comparison of constants in `is_constant`
(symbolic/expression.tpl.hpp), as in C35. -/
def cexprLang (o : K3 → K3 → Bool) : CLang V (Expr V) (KExpr V) :=
  { exprLang with
    pand := .and
    isTrue := fun p => p.isConst o .tt
    isFalse := fun p => p.isConst o .ff
    evar := .var }

/-- A composition whose expressions are symbolic expressions. -/
abbrev SComposite (N κ ν V ε : Type*) [LinearOrder κ] := Composite N κ ν V ε (Expr V) (KExpr V)

/-- Construction of a `Space` from a list of variables (symbolic/space.cpp 45-48, 136-141); `none` is a failed
assertion. -/
def mkSpace (vs : List V) : Option (List V) := if vs.Nodup then some vs else none

/-- The loops which place substituted right-hand sides by the index of the variable
(hybrid_automaton-composite.cpp 444, 457).  `none` is a failed assertion (space.cpp 119), or an index beyond the end of
the vector of results. -/
def place (space : List V) (alg as : List (V × Expr V)) : Option (List (Expr V)) :=
  if as.all fun a => decide (a.1 ∈ space) && decide (space.idxOf a.1 < as.length) then
    some (as.foldl (fun r a => r.set (space.idxOf a.1) (a.2.substList alg)) (List.replicate as.length (Expr.cst 0)))
  else none

/-- `continuous_state_space` (hybrid_automaton-composite.cpp 323-326) -/
def cSpace (C : SComposite N κ ν V ε) (l : Loc κ ν) : Option (List V) := (cStateVariables C l).bind mkSpace

/-- `sorted_auxiliary_assignments` (hybrid_automaton-composite.cpp 375-378) -/
def cSortedAuxiliary (C : SComposite N κ ν V ε) (l : Loc κ ν) : Option (List (V × Expr V)) :=
  (cAuxiliary C l).bind fun alg => match sortAux (exprLang (V := V)) alg with
    | .error _ => none
    | .ok s => some s

/-- `auxiliary_function` (hybrid_automaton-composite.cpp 430-435) -/
def cAuxiliaryFunction (C : SComposite N κ ν V ε) (l : Loc κ ν) : Option (List (Expr ℕ)) :=
  (cSpace C l).bind fun space => (cSortedAuxiliary C l).bind fun s => makeAuxiliary space s

/-- `dynamic_function` (hybrid_automaton-composite.cpp 437-446) -/
def cDynamicFunction (C : SComposite N κ ν V ε) (l : Loc κ ν) : Option (List (Expr ℕ)) :=
  (cSpace C l).bind fun space => (cAuxiliary C l).bind fun alg => (cDynamic C l).bind fun diff =>
    (place space alg diff).bind (makeFormulas space)

/-- `reset_function` (hybrid_automaton-composite.cpp 448-459) -/
def cResetFunction (o : K3 → K3 → Bool) (C : SComposite N κ ν V ε) (l : Loc κ ν) (e : ε) : Option (List (Expr ℕ)) :=
  (cTarget C l e).bind fun t => (cSpace C l).bind fun space => (cSpace C t).bind fun target =>
    (cAuxiliary C l).bind fun alg => (cResets (cexprLang o) C l e).bind fun update =>
      (place target alg update).bind (makeFormulas space)

/-- `invariant_function` (hybrid_automaton-composite.cpp 461-467) -/
def cInvariantFunction (o : K3 → K3 → Bool) (C : SComposite N κ ν V ε) (l : Loc κ ν) (e : ε) : Option (Expr ℕ) :=
  (cSpace C l).bind fun space => (cAuxiliary C l).bind fun alg => (cInvariantPredicate (cexprLang o) C l e).bind fun p =>
    makeConstraint space alg p false

/-- `guard_function` (hybrid_automaton-composite.cpp 469-475) -/
def cGuardFunction (o : K3 → K3 → Bool) (C : SComposite N κ ν V ε) (l : Loc κ ν) (e : ε) : Option (Expr ℕ) :=
  (cSpace C l).bind fun space => (cAuxiliary C l).bind fun alg => (cGuardPredicate (cexprLang o) C l e).bind fun p =>
    makeConstraint space alg p true

/-! ### Predicates -/

variable {o : K3 → K3 → Bool} {C : SComposite N κ ν V ε}

/-- The language of symbolic expressions has the properties used by `C65_check_mode`, if `is_constant` is sound. -/
theorem cexprLang_ok (ho : ∀ a b, o a b = true → a = b) : (cexprLang o : CLang V (Expr V) (KExpr V)).Ok where
  pand p q := rfl
  ptrue := rfl
  isTrue p h := by
    cases p <;> simp only [cexprLang, KExpr.isConst, Bool.false_eq_true] at h
    rfl
  isFalse p h := by
    cases p <;> simp only [cexprLang, KExpr.isConst, Bool.false_eq_true] at h
    rfl
  excl p h := by
    cases p <;> simp only [cexprLang, KExpr.isConst, Bool.false_eq_true] at h ⊢
    next c =>
    rw [ho _ _ h]
    cases hf : o .tt .ff with
    | false => rfl
    | true => exact absurd (ho _ _ hf) (by simp)
  pandFalse p q := rfl
  ptrueFalse := by
    show o .tt .ff = false
    cases hf : o .tt .ff with
    | false => rfl
    | true => exact absurd (ho _ _ hf) (by simp)
  evar v := rfl

theorem conjoin_eval (ho : ∀ a b, o a b = true → a = b) {p q : KExpr V} {y : V → ℝ} {a b : K3} (hp : p.eval y = some a)
    (hq : q.eval y = some b) : (conjoin (cexprLang o) p q).eval y = some (a.and b) := by
  rw [conjoin]
  by_cases c1 : ((cexprLang o).isTrue p || (cexprLang o).isFalse q) = true
  · rw [if_pos c1, hq]
    rcases Bool.or_eq_true _ _ ▸ c1 with c | c
    · rw [kConst ho c hp]; cases b <;> rfl
    · rw [kConst ho c hq]; cases a <;> rfl
  rw [if_neg c1]
  by_cases c2 : ((cexprLang o).isTrue q || (cexprLang o).isFalse p) = true
  · rw [if_pos c2, hp]
    rcases Bool.or_eq_true _ _ ▸ c2 with c | c
    · rw [kConst ho c hq]; cases a <;> rfl
    · rw [kConst ho c hp]; rfl
  rw [if_neg c2]
  simp only [cexprLang, KExpr.eval, hp, hq, Option.bind_some, Option.map_some]

theorem foldl_conjoin_eval (ho : ∀ a b, o a b = true → a = b) {y : V → ℝ} : ∀ {ps : List (KExpr V)} {ks : List K3}
    {acc : KExpr V} {a : K3}, acc.eval y = some a → List.Forall₂ (fun p k => p.eval y = some k) ps ks →
    (ps.foldl (conjoin (cexprLang o)) acc).eval y = some (ks.foldl K3.and a)
  | [], [], _, _, ha, .nil => ha
  | _ :: _, _ :: _, _, _, ha, .cons h t => by
    rw [List.foldl_cons, List.foldl_cons]
    exact foldl_conjoin_eval ho (conjoin_eval ho ha h) t

omit [LinearOrder V] [LinearOrder N] in
theorem foldl_and (ks : List K3) : ∀ a : K3, (ks.foldl K3.and a = .tt ↔ a = .tt ∧ ∀ k ∈ ks, k = .tt) ∧
    (ks.foldl K3.and a = .ff ↔ a = .ff ∨ ∃ k ∈ ks, k = .ff) := by
  induction ks with
  | nil => intro a; simp
  | cons k ks ih =>
    intro a
    obtain ⟨h1, h2⟩ := ih (a.and k)
    rw [List.foldl_cons, h1, h2, List.forall_mem_cons]
    constructor
    · cases a <;> cases k <;> simp [K3.and]
    · simp only [List.mem_cons, exists_eq_or_imp]
      cases a <;> cases k <;> simp [K3.and]

theorem forall₂_of_map {α : Type*} {y : V → ℝ} (f : α → KExpr V) : ∀ {ms : List α},
    (∀ m ∈ ms, ∃ k, (f m).eval y = some k) → ∃ ks, List.Forall₂ (fun p k => p.eval y = some k) (ms.map f) ks
  | [], _ => ⟨[], .nil⟩
  | m :: ms, h => by
    obtain ⟨k, hk⟩ := h m (by simp)
    obtain ⟨ks, hks⟩ := forall₂_of_map f (ms := ms) fun m hm => h m (by simp [hm])
    exact ⟨k :: ks, .cons hk hks⟩

theorem foldl_conjoin_iff (ho : ∀ a b, o a b = true → a = b) {ε' : Type*} (ms : List ε') (f : ε' → Option (KExpr V))
    {y : V → ℝ} (hd : ∀ m ∈ ms, ∀ q, f m = some q → ∃ k, q.eval y = some k) :
    ∃ k, ((ms.map fun m => (f m).getD (.const .tt)).foldl (conjoin (cexprLang o)) (.const .tt)).eval y = some k ∧
      (k = .tt ↔ ∀ m ∈ ms, ∀ q, f m = some q → q.eval y = some .tt) ∧
      (k = .ff ↔ ∃ m ∈ ms, ∃ q, f m = some q ∧ q.eval y = some .ff) := by
  have hex : ∀ m ∈ ms, ∃ k, ((f m).getD (.const .tt)).eval y = some k := by
    intro m hm
    cases hf : f m with
    | none => exact ⟨.tt, rfl⟩
    | some q => exact hd m hm q hf
  obtain ⟨ks, hks⟩ := forall₂_of_map (fun m => (f m).getD (.const .tt)) hex
  refine ⟨_, foldl_conjoin_eval ho rfl hks, ?_⟩
  obtain ⟨h1, h2⟩ := foldl_and ks .tt
  have key : ∀ k, k ∈ ks ↔ ∃ m ∈ ms, ((f m).getD (.const .tt)).eval y = some k := by
    clear h1 h2 hex hd
    intro k
    induction ms generalizing ks with
    | nil => cases hks; simp
    | cons m ms ih =>
      rw [List.map_cons] at hks
      cases hks with
      | cons h t =>
        rw [List.mem_cons, ih _ t]
        simp only [List.mem_cons, exists_eq_or_imp, h, Option.some.injEq]
        exact or_congr_left eq_comm
  constructor
  · rw [h1]
    constructor
    · rintro ⟨-, h⟩ m hm q hq
      obtain ⟨k, hk⟩ := hex m hm
      have := h k ((key k).2 ⟨m, hm, hk⟩)
      rw [hq, this] at hk
      exact hk
    · refine fun h => ⟨rfl, fun k hk => ?_⟩
      obtain ⟨m, hm, he⟩ := (key k).1 hk
      cases hf : f m with
      | none =>
        rw [hf] at he
        exact (Option.some.inj he).symm
      | some q =>
        rw [hf, Option.getD_some, h m hm q hf] at he
        exact (Option.some.inj he).symm
  · rw [h2]
    constructor
    · rintro (h | ⟨k, hk, rfl⟩)
      · cases h
      · obtain ⟨m, hm, he⟩ := (key _).1 hk
        cases hf : f m with
        | none => rw [hf] at he; cases he
        | some q => exact ⟨m, hm, q, hf, by rwa [hf] at he⟩
    · rintro ⟨m, hm, q, hq, he⟩
      exact Or.inr ⟨_, (key .ff).2 ⟨m, hm, by rw [hq]; exact he⟩, rfl⟩

/-- C65: `invariant_predicate` and `guard_predicate` of a composition are the conjunctions of those of the components:
true exactly where all are true, and false exactly where one is false. -/
theorem C65_predicates (ho : ∀ a b, o a b = true → a = b) (l : Loc κ ν) (e : ε) {ms : List (SMode κ ν V ε)}
    (ha : At C l ms) (y : V → ℝ) :
    ((∀ m ∈ ms, ∀ q, find e m.invs = some q → ∃ k, q.eval y = some k) →
      ∃ p k, cInvariantPredicate (cexprLang o) C l e = some p ∧ p.eval y = some k ∧
        (k = .tt ↔ ∀ m ∈ ms, ∀ q, find e m.invs = some q → q.eval y = some .tt) ∧
        (k = .ff ↔ ∃ m ∈ ms, ∃ q, find e m.invs = some q ∧ q.eval y = some .ff)) ∧
    ((∀ m ∈ ms, ∀ q, find e m.guards = some q → ∃ k, q.eval y = some k) →
      ∃ p k, cGuardPredicate (cexprLang o) C l e = some p ∧ p.eval y = some k ∧
        (k = .tt ↔ ∀ m ∈ ms, ∀ q, find e m.guards = some q → q.eval y = some .tt) ∧
        (k = .ff ↔ ∃ m ∈ ms, ∃ q, find e m.guards = some q ∧ q.eval y = some .ff)) := by
  obtain ⟨h1, h2⟩ := predicates_at (L := cexprLang o) l e ha
  constructor
  · intro hd
    obtain ⟨k, hk⟩ := foldl_conjoin_iff ho ms (fun m => find e m.invs) hd
    exact ⟨_, k, h1, hk⟩
  · intro hd
    obtain ⟨k, hk⟩ := foldl_conjoin_iff ho ms (fun m => find e m.guards) hd
    exact ⟨_, k, h2, hk⟩

/-! ### Functions -/

/-- spec: the state variables in a location -/
def stateVars (ms : List (SMode κ ν V ε)) : List V := ms.flatMap fun m => m.dyn.map Prod.fst

omit [LinearOrder ν] [LinearOrder V] [LinearOrder ε] in
theorem stateVars_eq (ms : List (SMode κ ν V ε)) : stateVars ms = (ms.flatMap (·.dyn)).map Prod.fst := by
  rw [stateVars, List.map_flatMap]

theorem cSpace_at {l : Loc κ ν} {ms : List (SMode κ ν V ε)} (ha : At C l ms) :
    cSpace C l = if (stateVars ms).Nodup then some (stateVars ms) else none := by
  rw [cSpace, cStateVariables,
    cAppend_at (fun A => stateVariables A l) (fun m => m.dyn.map Prod.fst) ha fun c _ m hm => by
      rw [stateVariables, hm]; rfl]
  rfl

theorem place_spec {space : List V} {alg as : List (V × Expr V)} {r : List (Expr V)}
    (hn : (as.map Prod.fst).Nodup) (h : place space alg as = some r) :
    r.length = as.length ∧ (∀ a ∈ as, a.1 ∈ space ∧ r[space.idxOf a.1]? = some (a.2.substList alg)) ∧
    ∀ e ∈ r, e = Expr.cst 0 ∨ ∃ a ∈ as, e = a.2.substList alg := by
  rw [place] at h
  split_ifs at h with hc
  simp only [List.all_eq_true, Bool.and_eq_true, decide_eq_true_eq] at hc
  have hidx : (as.map fun a => space.idxOf a.1).Nodup := by
    have := idxOf_map_nodup hn (space := space) fun v hv => by
      obtain ⟨a, ha, rfl⟩ := List.mem_map.1 hv
      exact (hc a ha).1
    rwa [List.map_map] at this
  obtain ⟨h1, h2, -⟩ := foldl_set_get (fun a : V × Expr V => space.idxOf a.1) (fun a => a.2.substList alg) as
    (List.replicate as.length (Expr.cst 0)) (fun a ha => by rw [List.length_replicate]; exact (hc a ha).2) hidx
  cases h
  refine ⟨by simpa using h1, fun a ha => ⟨(hc a ha).1, h2 a ha⟩, fun e he => ?_⟩
  rcases mem_foldl_set (fun a : V × Expr V => space.idxOf a.1) _ _ _ e he with h | ⟨a, ha, rfl⟩
  · exact Or.inl (List.mem_replicate.1 h).2
  · exact Or.inr ⟨a, ha, rfl⟩

/-- C65: if `dynamic_function` of a composition does not fail, then no variable has two differential equations, and its
component for each state variable is the right-hand side of its equation, with the auxiliary variables solving the
equations of all components. -/
theorem C65_dynamic_function {l : Loc κ ν} {ms : List (SMode κ ν V ε)} (ha : At C l ms)
    {fs : List (Expr ℕ)} (h : cDynamicFunction C l = some fs) :
    (stateVars ms).Nodup ∧ fs.length = (stateVars ms).length ∧
    ∀ y : V → ℝ, Solves (ms.flatMap (·.aux)) y → ∀ m ∈ ms, ∀ a ∈ m.dyn, ∀ q, a.2.eval y = some q →
      ∃ (i : ℕ) (f : Expr ℕ), (stateVars ms)[i]? = some a.1 ∧ fs[i]? = some f ∧ f.eval (coords (stateVars ms) y) = some q := by
  rw [cDynamicFunction, cSpace_at ha] at h
  split_ifs at h with hn
  swap
  · cases h
  have hx : cAuxiliary C l = some (ms.flatMap (·.aux)) :=
    cAppend_at _ _ ha fun c _ m hm => by rw [hm]; rfl
  have hd : cDynamic C l = some (ms.flatMap (·.dyn)) :=
    cAppend_at _ _ ha fun c _ m hm => by rw [hm]; rfl
  rw [hx, hd] at h
  simp only [Option.bind_some, Option.bind_eq_some_iff] at h
  obtain ⟨r, hr, hf⟩ := h
  obtain ⟨h1, h2, -⟩ := place_spec (by rw [← stateVars_eq]; exact hn) hr
  obtain ⟨h3, h4⟩ := makeFormulas_get hf
  refine ⟨hn, by rw [h3, h1, stateVars_eq, List.length_map], fun y hy m hm a ham q hq => ?_⟩
  obtain ⟨h5, h6⟩ := h2 a (List.mem_flatMap.2 ⟨m, hm, ham⟩)
  obtain ⟨f, hf1, hf2⟩ := h4 _ _ h6
  have hlt := List.idxOf_lt_length_of_mem h5
  exact ⟨_, f, by rw [List.getElem?_eq_getElem hlt, List.getElem_idxOf], hf1, makeFormula_substList hy hf2 hq⟩

/-- C65: if `reset_function` of a composition does not fail, then in a location accepted by `check_mode` it has one
component for each state variable of the target, in the order of the target's state space; the component is the
right-hand side of the reset of this variable (a component without a transition keeps its variables). -/
theorem C65_reset_function (ho : ∀ a b, o a b = true → a = b) (hC : ∀ c ∈ C, WF exprLang c.2) {l : Loc κ ν} {e : ε}
    {ms : List (SMode κ ν V ε)} (ha : At C l ms) (hchk : cCheckMode (cexprLang o) C l = none)
    (he : ∃ m ∈ ms, e ∈ m.events) {fs : List (Expr ℕ)} (h : cResetFunction o C l e = some fs) :
    ∃ t ts, cTarget C l e = some t ∧ At C t ts ∧ (stateVars ts).Nodup ∧ fs.length = (stateVars ts).length ∧
    ∀ (i : ℕ) (v : V), (stateVars ts)[i]? = some v → ∃ m ∈ ms, ∃ a ∈ m.resetOf (cexprLang o) e, a.1 = v ∧
      ∀ y : V → ℝ, Solves (ms.flatMap (·.aux)) y → ∀ q, a.2.eval y = some q →
        ∃ f : Expr ℕ, fs[i]? = some f ∧ f.eval (coords (stateVars ms) y) = some q := by
  obtain ⟨ms', ha', hw⟩ := (C65_check_mode (cexprLang_ok ho) hC l).1 hchk
  rw [← ha.unique ha'] at hw
  obtain ⟨-, -, -, -, hev⟩ := hw.events e he
  rw [cResetFunction, cSpace_at ha] at h
  simp only [Option.bind_eq_some_iff] at h
  obtain ⟨t, ht, sp, hsp, tsp, htsp, alg, hx, upd, hu, r, hr, hf⟩ := h
  split_ifs at hsp with hn
  cases hsp
  have hx' : cAuxiliary C l = some (ms.flatMap (·.aux)) :=
    cAppend_at _ _ ha fun c _ m hm => by rw [hm]; rfl
  rw [hx'] at hx
  cases hx
  have hu' := ((C65_assignments (L := cexprLang o) hC l e).1 ms ha).2.2.2
  rw [hu'] at hu
  cases hu
  obtain ⟨t', ts, ht', hat, hnr, hiff⟩ := hev
  rw [ht] at ht'
  cases ht'
  rw [cSpace_at hat] at htsp
  split_ifs at htsp with hnt
  cases htsp
  obtain ⟨h1, h2, -⟩ := place_spec hnr hr
  obtain ⟨h3, h4⟩ := makeFormulas_get hf
  have hmem : ∀ v, v ∈ stateVars ts ↔ v ∈ (ms.flatMap (Mode.resetOf (cexprLang o) e)).map Prod.fst := by
    intro v
    have := hiff v
    simp only [stateVars, List.mem_flatMap, List.mem_map]
    constructor
    · rintro ⟨m, hm, a, ham, rfl⟩
      obtain ⟨m', hm', b, hb, e'⟩ := this.2 ⟨m, hm, a, ham, rfl⟩
      exact ⟨b, ⟨m', hm', hb⟩, e'⟩
    · rintro ⟨a, ⟨m, hm, ham⟩, rfl⟩
      exact this.1 ⟨m, hm, a, ham, rfl⟩
  refine ⟨t, ts, ht, hat, hnt, ?_, fun i v hi => ?_⟩
  · rw [h3, h1, ← List.length_map (f := Prod.fst) (as := ms.flatMap (Mode.resetOf (cexprLang o) e))]
    exact ((List.perm_ext_iff_of_nodup hnt hnr).2 hmem).length_eq.symm
  · obtain ⟨a, ham, rfl⟩ := List.mem_map.1 ((hmem v).1 (List.mem_of_getElem? hi))
    obtain ⟨m, hm, ham'⟩ := List.mem_flatMap.1 ham
    refine ⟨m, hm, a, ham', rfl, fun y hy q hq => ?_⟩
    obtain ⟨h5, h6⟩ := h2 a ham
    have hidx : (stateVars ts).idxOf a.1 = i := by
      obtain ⟨hlt, e'⟩ := List.getElem?_eq_some_iff.1 hi
      rw [← e']
      exact hnt.idxOf_getElem i hlt
    rw [hidx] at h6
    obtain ⟨f, hf1, hf2⟩ := h4 _ _ h6
    exact ⟨f, hf1, makeFormula_substList hy hf2 hq⟩

/-- C65: if `guard_function` of a composition does not fail, it is positive exactly where the guards of all components
are true, and negative exactly where one of them is false. -/
theorem C65_guard_function (ho : ∀ a b, o a b = true → a = b) {l : Loc κ ν} {e : ε}
    {ms : List (SMode κ ν V ε)} (ha : At C l ms) {f : Expr ℕ} (h : cGuardFunction o C l e = some f) (y : V → ℝ)
    (hy : Solves (ms.flatMap (·.aux)) y) (hd : ∀ m ∈ ms, ∀ q, find e m.guards = some q → ∃ k, q.eval y = some k) :
    ∃ r, f.eval (coords (stateVars ms) y) = some r ∧
      (0 < r ↔ ∀ m ∈ ms, ∀ q, find e m.guards = some q → q.eval y = some .tt) ∧
      (r < 0 ↔ ∃ m ∈ ms, ∃ q, find e m.guards = some q ∧ q.eval y = some .ff) := by
  obtain ⟨p, k, hp, hk, h1, h2⟩ := (C65_predicates ho l e ha y).2 hd
  have hx : cAuxiliary C l = some (ms.flatMap (·.aux)) :=
    cAppend_at _ _ ha fun c _ m hm => by rw [hm]; rfl
  rw [cGuardFunction, cSpace_at ha, hp, hx] at h
  split_ifs at h with hn
  swap
  · cases h
  simp only [Option.bind_some, makeConstraint, Option.bind_eq_some_iff] at h
  obtain ⟨a, hia, hf⟩ := h
  obtain ⟨r, hr, h3, h4⟩ := C50_indicator_positive hia hk
  exact ⟨r, makeFormula_substList hy hf hr, h3.trans h1, h4.trans h2⟩

/-- C65: if `invariant_function` of a composition does not fail, it is negative exactly where the invariant is true, and
positive exactly where it is false, if at most one component has an invariant with this event, which is without
conjunction and disjunction.  (Otherwise it is wrong: `C65_invariant_counterexample`.) -/
theorem C65_invariant_function_partial (ho : ∀ a b, o a b = true → a = b)
    {l : Loc κ ν} {e : ε} {ms : List (SMode κ ν V ε)} (ha : At C l ms) {p : KExpr V}
    (hp : cInvariantPredicate (cexprLang o) C l e = some p) (hat : p.Atomic) {f : Expr ℕ}
    (h : cInvariantFunction o C l e = some f) (y : V → ℝ) (hy : Solves (ms.flatMap (·.aux)) y)
    (hd : ∀ m ∈ ms, ∀ q, find e m.invs = some q → ∃ k, q.eval y = some k) :
    ∃ r, f.eval (coords (stateVars ms) y) = some r ∧
      (r < 0 ↔ ∀ m ∈ ms, ∀ q, find e m.invs = some q → q.eval y = some .tt) ∧
      (0 < r ↔ ∃ m ∈ ms, ∃ q, find e m.invs = some q ∧ q.eval y = some .ff) := by
  obtain ⟨p', k, hp', hk, h1, h2⟩ := (C65_predicates ho l e ha y).1 hd
  rw [hp] at hp'
  cases hp'
  have hx : cAuxiliary C l = some (ms.flatMap (·.aux)) :=
    cAppend_at _ _ ha fun c _ m hm => by rw [hm]; rfl
  rw [cInvariantFunction, cSpace_at ha, hp, hx] at h
  split_ifs at h with hn
  swap
  · cases h
  simp only [Option.bind_some, makeConstraint, Option.bind_eq_some_iff] at h
  obtain ⟨a, hia, hf⟩ := h
  obtain ⟨r, hr, h3, h4⟩ := C50_indicator_negative_partial hat hia hk
  exact ⟨r, makeFormula_substList hy hf hr, h3.trans h1, h4.trans h2⟩

/-- The equations of all components as those of one mode. -/
def joint (ms : List (SMode κ ν V ε)) (s : List (V × Expr V)) : SMode κ ν V ε :=
  ⟨Loc.empty, ms.flatMap (·.aux), s, ms.flatMap (·.dyn), [], [], [], [], []⟩

theorem joint_wf {ms : List (SMode κ ν V ε)}
    (hn : ((ms.flatMap (·.dyn)).map Prod.fst ++ (ms.flatMap (·.aux)).map Prod.fst).Nodup) {s : List (V × Expr V)}
    (hs : sortAux exprLang (ms.flatMap (·.aux)) = .ok s) : ModeWF exprLang (joint ms s) := by
  obtain ⟨h1, h2⟩ := sortAux_perm (List.nodup_append.1 hn).2.1 hs
  exact ⟨List.nodup_append_comm.1 hn, h1, h2, SortedKeys.nil, SortedKeys.nil, SortedKeys.nil, SortedKeys.nil,
    SortedKeys.nil, by simp [joint, find], by simp [joint, find], by simp [joint, find]⟩

/-- C65: if every variable of a location has one equation and `auxiliary_function` does not fail, its components are the
values of the auxiliary variables, in the order of the auxiliary space (left-hand sides of
`sorted_auxiliary_assignments`). -/
theorem C65_auxiliary_function {l : Loc κ ν} {ms : List (SMode κ ν V ε)}
    (ha : At C l ms) (hn : ((ms.flatMap (·.dyn)).map Prod.fst ++ (ms.flatMap (·.aux)).map Prod.fst).Nodup)
    {fs : List (Expr ℕ)} (h : cAuxiliaryFunction C l = some fs) :
    ∃ s, cSortedAuxiliary C l = some s ∧ s.Perm (ms.flatMap (·.aux)) ∧ ∀ y : V → ℝ, Solves (ms.flatMap (·.aux)) y →
      ∀ (i : ℕ) (v : V), (s.map Prod.fst)[i]? = some v →
      ∃ f : Expr ℕ, fs[i]? = some f ∧ f.eval (coords (stateVars ms) y) = some (y v) := by
  have hx : cAuxiliary C l = some (ms.flatMap (·.aux)) :=
    cAppend_at _ _ ha fun c _ m hm => by rw [hm]; rfl
  rw [cAuxiliaryFunction, cSpace_at ha] at h
  split_ifs at h with hns
  swap
  · cases h
  rw [Option.bind_some, cSortedAuxiliary, hx] at h
  rw [cSortedAuxiliary, hx]
  simp only [Option.bind_some] at h ⊢
  cases hs : sortAux (exprLang (V := V)) (ms.flatMap (·.aux)) with
  | error e => rw [hs] at h; cases h
  | ok s =>
    rw [hs] at h
    simp only [Option.bind_some] at h
    have w := joint_wf (κ := κ) (ν := ν) (ε := ε) hn hs
    refine ⟨s, rfl, w.perm, fun y hy i v hv => ?_⟩
    have hsp : (joint ms s).space = stateVars ms := by rw [stateVars_eq]; rfl
    have := C64_auxiliary_function w (fs := fs) (by rw [Mode.auxiliaryFunction, hsp]; exact h) y hy i v hv
    rwa [hsp] at this

/-! ### Success -/

/-- Substituting equations in an order in which each uses only variables of later ones leaves state variables only. -/
theorem substList_arguments_later {space : List V} : ∀ (as : List (V × Expr V)) (e : Expr V),
    (∀ p a s, as = p ++ a :: s → ∀ v ∈ a.2.arguments, v ∈ space ∨ v ∈ s.map Prod.fst) →
    (∀ v ∈ e.arguments, v ∈ space ∨ v ∈ as.map Prod.fst) → ∀ v ∈ (e.substList as).arguments, v ∈ space := by
  intro as
  induction as with
  | nil => intro e _ he v hv; simpa using he v hv
  | cons a as ih =>
    intro e ha he
    simp only [Expr.substList, List.foldl_cons]
    refine ih _ (fun p b s h => ha (a :: p) b s (by rw [h]; rfl)) fun v hv => ?_
    rcases Finset.mem_union.1 (C38_substitute_arguments e a.1 a.2 hv) with h | h
    · obtain ⟨h1, h2⟩ := Finset.mem_erase.1 h
      rcases he v h2 with h | h
      · exact Or.inl h
      · rw [List.map_cons, List.mem_cons] at h
        exact Or.inr (h.resolve_left h1)
    · exact ha [] a as rfl v h

theorem noIndicator_conjoin {p q : KExpr V} (hp : ¬ p.NoIndicator) (hq : ¬ q.NoIndicator) :
    ¬ (conjoin (cexprLang o) p q).NoIndicator := by
  rw [conjoin]
  split_ifs
  · exact hq
  · exact hp
  · simp only [cexprLang, KExpr.NoIndicator, not_or]
    exact ⟨hp, hq⟩

theorem noIndicator_foldl : ∀ (ps : List (KExpr V)) (acc : KExpr V), ¬ acc.NoIndicator → (∀ p ∈ ps, ¬ p.NoIndicator) →
    ¬ (ps.foldl (conjoin (cexprLang o)) acc).NoIndicator
  | [], _, h, _ => h
  | p :: ps, acc, h, hp => by
    rw [List.foldl_cons]
    exact noIndicator_foldl ps _ (noIndicator_conjoin h (hp p (by simp))) fun q hq => hp q (by simp [hq])

/-- C65: in a location accepted by `check_mode` in which every auxiliary equation uses only state variables and
variables of auxiliary equations after it, all functions are made: those of the dynamics; of the resets of the events,
if no two components have the same state variable in the target; and those of invariants and guards, if the predicates
of the components have indicator functions.  (Missing: other orders, for which the functions cannot be made:
`C65_chain_counterexample`.) -/
theorem C65_defined_partial (ho : ∀ a b, o a b = true → a = b) (hC : ∀ c ∈ C, WF exprLang c.2) {l : Loc κ ν}
    {ms : List (SMode κ ν V ε)} (ha : At C l ms) (hchk : cCheckMode (cexprLang o) C l = none)
    (hlater : ∀ p a s, ms.flatMap (·.aux) = p ++ a :: s →
      ∀ v ∈ a.2.arguments, v ∈ stateVars ms ∨ v ∈ s.map Prod.fst) :
    (∃ fs, cDynamicFunction C l = some fs) ∧
    (∀ e t ts, (∃ m ∈ ms, e ∈ m.events) → cTarget C l e = some t → At C t ts → (stateVars ts).Nodup →
      ∃ fs, cResetFunction o C l e = some fs) ∧
    (∀ e, (∀ m ∈ ms, ∀ q, find e m.invs = some q → ¬ q.NoIndicator) → ∃ f, cInvariantFunction o C l e = some f) ∧
    (∀ e, (∃ m ∈ ms, e ∈ m.events) → (∀ m ∈ ms, ∀ q, find e m.guards = some q → ¬ q.NoIndicator) →
      ∃ f, cGuardFunction o C l e = some f) := by
  obtain ⟨ms', ha', hw⟩ := (C65_check_mode (cexprLang_ok ho) hC l).1 hchk
  rw [← ha.unique ha'] at hw
  have hn : (stateVars ms).Nodup := by rw [stateVars_eq]; exact (List.nodup_append.1 hw.once).1
  have hx : cAuxiliary C l = some (ms.flatMap (·.aux)) :=
    cAppend_at _ _ ha fun c _ m hm => by rw [hm]; rfl
  have hd : cDynamic C l = some (ms.flatMap (·.dyn)) :=
    cAppend_at _ _ ha fun c _ m hm => by rw [hm]; rfl
  have hdef : ∀ v, (∃ m ∈ ms, m.Defines v) → v ∈ stateVars ms ∨ v ∈ (ms.flatMap (·.aux)).map Prod.fst := by
    rintro v ⟨m, hm, ⟨a, ham, rfl⟩ | ⟨a, ham, rfl⟩⟩
    · exact Or.inr (List.mem_map.2 ⟨a, List.mem_flatMap.2 ⟨m, hm, ham⟩, rfl⟩)
    · exact Or.inl (List.mem_flatMap.2 ⟨m, hm, List.mem_map.2 ⟨a, ham, rfl⟩⟩)
  have key : ∀ e : Expr V, (∀ v ∈ e.arguments, ∃ m ∈ ms, m.Defines v) →
      ∀ v ∈ (e.substList (ms.flatMap (·.aux))).arguments, v ∈ stateVars ms := fun e he =>
    substList_arguments_later _ e hlater fun v hv => hdef v (he v hv)
  -- placing right-hand sides
  have hplace : ∀ (space : List V) (as : List (V × Expr V)), (as.map Prod.fst).Nodup →
      (∀ v, v ∈ as.map Prod.fst ↔ v ∈ space) → space.Nodup →
      (∀ a ∈ as, ∀ v ∈ a.2.arguments, ∃ m ∈ ms, m.Defines v) →
      ∃ fs, (place space (ms.flatMap (·.aux)) as).bind (makeFormulas (stateVars ms)) = some fs := by
    intro space as hna hmem hns hargs
    have hlen : as.length = space.length := by
      rw [← List.length_map (f := Prod.fst) (as := as)]
      exact ((List.perm_ext_iff_of_nodup hna hns).2 hmem).length_eq
    have hall : (as.all fun a => decide (a.1 ∈ space) && decide (space.idxOf a.1 < as.length)) = true := by
      simp only [List.all_eq_true, Bool.and_eq_true, decide_eq_true_eq]
      intro a ham
      have := (hmem a.1).1 (List.mem_map.2 ⟨a, ham, rfl⟩)
      exact ⟨this, hlen ▸ List.idxOf_lt_length_of_mem this⟩
    have hpl := (place_spec (space := space) (alg := ms.flatMap (·.aux)) hna (by rw [place, if_pos hall])).2.2
    rw [place, if_pos hall, Option.bind_some, makeFormulas_iff]
    intro f hf
    rcases hpl f hf with rfl | ⟨a, ham, rfl⟩
    · simp [Expr.cst, Expr.arguments]
    · exact key _ (hargs a ham)
  have hind : ∀ (ps : List (KExpr V)) (s : Bool), (∀ p ∈ ps, ¬ p.NoIndicator) →
      ArgsOK (cexprLang o) (fun v => ∃ m ∈ ms, m.Defines v) ps →
      ∃ f, makeConstraint (stateVars ms) (ms.flatMap (·.aux))
        (ps.foldl (conjoin (cexprLang o)) (cexprLang o).ptrue) s = some f := by
    intro ps s hps hok
    have hni := noIndicator_foldl (o := o) ps (cexprLang o).ptrue (by simp [cexprLang, exprLang, KExpr.NoIndicator]) hps
    obtain ⟨a, hia⟩ := Option.ne_none_iff_exists'.1 (mt (C50_indicator_throws _ s).1 hni)
    rw [makeConstraint, hia, Option.bind_some, (C64_make_formula (stateVars ms) _).1]
    refine key a fun v hv => ?_
    exact (conjoin_argsOK (cexprLang_ok ho) _ ps).2 hok v (indicator_arguments _ s hia v hv)
  refine ⟨?_, ?_, ?_, ?_⟩
  · rw [cDynamicFunction, cSpace_at ha, if_pos hn, hx, hd]
    simp only [Option.bind_some]
    refine hplace _ _ (by rw [← stateVars_eq]; exact hn) (fun v => by rw [stateVars_eq]) hn fun a ham => ?_
    obtain ⟨m, hm, ham⟩ := List.mem_flatMap.1 ham
    exact hw.dyn m hm a ham
  · intro e t ts he ht hat hnt
    obtain ⟨-, -, -, hra, t', ts', ht', hat', hnr, hiff⟩ := hw.events e he
    rw [ht] at ht'
    cases ht'
    rw [← hat.unique hat'] at hiff
    rw [cResetFunction, ht, cSpace_at ha, if_pos hn, hx,
      ((C65_assignments (L := cexprLang o) hC l e).1 ms ha).2.2.2]
    simp only [Option.bind_some]
    rw [cSpace_at hat, if_pos hnt, Option.bind_some]
    refine hplace _ _ hnr (fun v => ?_) hnt fun a ham => ?_
    · have := hiff v
      simp only [stateVars, List.mem_flatMap, List.mem_map]
      constructor
      · rintro ⟨a, ⟨m, hm, ham⟩, rfl⟩
        exact this.1 ⟨m, hm, a, ham, rfl⟩
      · rintro ⟨m, hm, a, ham, rfl⟩
        obtain ⟨m', hm', b, hb, e'⟩ := this.2 ⟨m, hm, a, ham, rfl⟩
        exact ⟨b, ⟨m', hm', hb⟩, e'⟩
    · obtain ⟨m, hm, ham⟩ := List.mem_flatMap.1 ham
      rw [Mode.resetOf] at ham
      cases hr : find e m.resets with
      | some r =>
        rw [hr] at ham
        exact hra m hm r hr a ham
      | none =>
        rw [hr] at ham
        obtain ⟨b, hb, rfl⟩ := List.mem_map.1 ham
        intro v hv
        have : v = b.1 := by simpa [cexprLang, Expr.arguments] using hv
        exact ⟨m, hm, Or.inr ⟨b, hb, this.symm⟩⟩
  · intro e hne
    rw [cInvariantFunction, cSpace_at ha, if_pos hn, hx, (predicates_at (L := cexprLang o) l e ha).1]
    simp only [Option.bind_some]
    refine hind _ _ (fun p hp => ?_) (hw.invs e)
    obtain ⟨m, hm, rfl⟩ := List.mem_map.1 hp
    cases hf : find e m.invs with
    | none => simp [cexprLang, exprLang, KExpr.NoIndicator]
    | some q => exact hne m hm q hf
  · intro e he hne
    rw [cGuardFunction, cSpace_at ha, if_pos hn, hx, (predicates_at (L := cexprLang o) l e ha).2]
    simp only [Option.bind_some]
    refine hind _ _ (fun p hp => ?_) (hw.events e he).guard
    obtain ⟨m, hm, rfl⟩ := List.mem_map.1 hp
    cases hf : find e m.guards with
    | none => simp [cexprLang, exprLang, KExpr.NoIndicator]
    | some q => exact hne m hm q hf

end Verif.Hybrid
