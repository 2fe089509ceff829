import Verif.Hybrid.Functions

/-!
# C64: when the functions are made, and the solution of the auxiliary equations
-/

noncomputable section

namespace Verif.Hybrid

open Verif.Container Ariadne.AlgebraicSort Ariadne.Symbolic

variable {κ ν V ε : Type*} [LinearOrder κ] [LinearOrder ν] [LinearOrder V] [LinearOrder ε]
variable {m : SMode κ ν V ε}

/-! ### Success -/

theorem substList_arguments_space {space : List V} : ∀ (as : List (V × Expr V)) (e : Expr V),
    (∀ a ∈ as, ∀ v ∈ a.2.arguments, v ∈ space) → (∀ v ∈ e.arguments, v ∈ space ∨ v ∈ as.map Prod.fst) →
    ∀ v ∈ (e.substList as).arguments, v ∈ space := by
  intro as
  induction as with
  | nil => intro e _ he v hv; simpa using he v hv
  | cons a as ih =>
    intro e ha he
    simp only [Expr.substList, List.foldl_cons]
    refine ih _ (fun b hb => ha b (by simp [hb])) fun v hv => ?_
    rcases Finset.mem_union.1 (C38_substitute_arguments e a.1 a.2 hv) with h | h
    · obtain ⟨h1, h2⟩ := Finset.mem_erase.1 h
      rcases he v h2 with h | h
      · exact Or.inl h
      · rw [List.map_cons, List.mem_cons] at h
        exact Or.inr (h.resolve_left h1)
    · exact Or.inl (ha a (by simp) v h)

theorem indicator_arguments (p : KExpr V) (s : Bool) {a : Expr V} (h : p.indicator s = some a) :
    ∀ v ∈ a.arguments, v ∈ kargs p := by
  induction p generalizing a with
  | const c =>
    simp only [KExpr.indicator, Option.some.injEq] at h
    subst h
    intro v hv
    exact absurd hv (by simp [Expr.cst, Expr.arguments])
  | var v => simp [KExpr.indicator] at h
  | not p ih =>
    simp only [KExpr.indicator, Option.map_eq_some_iff] at h
    obtain ⟨b, hb, rfl⟩ := h
    exact fun v hv => ih hb v hv
  | and p q ihp ihq =>
    simp only [KExpr.indicator, Option.bind_eq_some_iff, Option.map_eq_some_iff] at h
    obtain ⟨b, hb, c, hc, rfl⟩ := h
    intro v hv
    rcases Finset.mem_union.1 hv with hv | hv
    · exact Finset.mem_union_left _ (ihp hb v hv)
    · exact Finset.mem_union_right _ (ihq hc v hv)
  | or p q ihp ihq =>
    simp only [KExpr.indicator, Option.bind_eq_some_iff, Option.map_eq_some_iff] at h
    obtain ⟨b, hb, c, hc, rfl⟩ := h
    intro v hv
    rcases Finset.mem_union.1 hv with hv | hv
    · exact Finset.mem_union_left _ (ihp hb v hv)
    · exact Finset.mem_union_right _ (ihq hc v hv)
  | sgn b =>
    simp only [KExpr.indicator, Option.some.injEq] at h
    subst h
    cases s <;> simp [Expr.arguments, kargs]
  | cmp op b c =>
    cases op <;> simp only [KExpr.indicator, Option.some.injEq, reduceCtorEq] at h <;> subst h <;> cases s <;>
      simp only [kargs, Expr.arguments, if_true, if_false, Bool.false_eq_true, Finset.mem_union] <;> intro v hv <;> tauto

theorem mem_foldl_set {α : Type*} (g : α → ℕ) (w : α → Expr V) (l : List α) (r : List (Expr V)) (e : Expr V)
    (he : e ∈ l.foldl (fun r a => r.set (g a) (w a)) r) : e ∈ r ∨ ∃ a ∈ l, w a = e := by
  induction l generalizing r with
  | nil => exact Or.inl he
  | cons a l ih =>
    rw [List.foldl_cons] at he
    rcases ih _ he with h | ⟨b, hb, h⟩
    · rcases List.mem_or_eq_of_mem_set h with h | h
      · exact Or.inl h
      · exact Or.inr ⟨a, by simp, h.symm⟩
    · exact Or.inr ⟨b, by simp [hb], h⟩

/-- C64: in a well-specified mode in which no auxiliary equation uses auxiliary variables, all functions are made;
predicates must have an indicator function.  (Missing: auxiliary variables depending on each other, for which the
functions cannot be made: `C64_chain_fails`.) -/
theorem C64_defined_partial {A : Automaton κ ν V ε (Expr V) (KExpr V)} (w : ModeWF exprLang m)
    (hw : WellSpecified exprLang A m) (hd : ∀ a ∈ m.aux, ∀ v ∈ a.2.arguments, v ∈ m.space) :
    (∃ fs, m.dynamicFunction = some fs) ∧ (∃ fs, m.auxiliaryFunction = some fs) ∧
    (∀ e, (find e m.resets).isSome → ∃ fs, m.resetFunction e = some fs) ∧
    (∀ e p, find e m.invs = some p → ¬ p.NoIndicator → ∃ f, m.invariantFunction e = some f) ∧
    (∀ e p, find e m.guards = some p → ¬ p.NoIndicator → ∃ f, m.guardFunction e = some f) := by
  have hdef : ∀ v, m.Defines v → v ∈ m.space ∨ v ∈ m.aux.map Prod.fst := by
    rintro v (⟨a, ha, rfl⟩ | ⟨a, ha, rfl⟩)
    · exact Or.inr (List.mem_map.2 ⟨a, ha, rfl⟩)
    · exact Or.inl (List.mem_map.2 ⟨a, ha, rfl⟩)
  have key : ∀ as : List (V × Expr V), as.Perm m.aux → ∀ e : Expr V, (∀ v ∈ e.arguments, m.Defines v) →
      ∀ v ∈ (e.substList as).arguments, v ∈ m.space := by
    intro as hp e he
    refine substList_arguments_space as e (fun a ha => hd a (hp.mem_iff.1 ha)) fun v hv => ?_
    rw [(hp.map Prod.fst).mem_iff]
    exact hdef v (he v hv)
  have hind : ∀ (p : KExpr V) (s : Bool), ¬ p.NoIndicator → (∀ v ∈ kargs p, m.Defines v) →
      ∀ as : List (V × Expr V), as.Perm m.aux → ∃ f, makeConstraint m.space as p s = some f := by
    intro p s hp ha as has
    obtain ⟨a, hia⟩ := Option.ne_none_iff_exists'.1 (mt (C50_indicator_throws p s).1 hp)
    rw [makeConstraint, hia, Option.bind_some, (C64_make_formula m.space _).1]
    exact key as has a fun v hv => ha v (indicator_arguments p s hia v hv)
  refine ⟨?_, ?_, ?_, ?_, ?_⟩
  · rw [Mode.dynamicFunction, makeDynamic, makeFormulas_iff]
    intro e he
    rcases mem_foldl_set (fun a : V × Expr V => m.space.idxOf a.1) _ _ _ e he with h | ⟨a, ha, rfl⟩
    · rw [List.mem_replicate] at h
      rw [h.2]
      simp [Expr.cst, Expr.arguments]
    · exact key _ w.perm _ (hw.dyn a ha)
  · obtain ⟨s, hs, hp⟩ := w.sort_again
    rw [Mode.auxiliaryFunction, makeAuxiliary, hs]
    rw [makeFormulas_iff]
    intro e he
    rcases mem_foldl_set (fun a : V × Expr V => (m.sortedAux.map Prod.fst).idxOf a.1) _ _ _ e he with h | ⟨a, ha, rfl⟩
    · rw [List.mem_replicate] at h
      rw [h.2]
      simp [Expr.cst, Expr.arguments]
    · exact key _ (hp.trans w.perm) _ (hw.aux a ((hp.trans w.perm).mem_iff.1 ha))
  · intro e he
    obtain ⟨r, hr⟩ := Option.isSome_iff_exists.1 he
    rw [Mode.resetFunction, hr, Option.bind_some, makeReset, makeFormulas_iff]
    intro f hf
    obtain ⟨a, ha, rfl⟩ := List.mem_map.1 hf
    exact key _ w.perm _ (hw.resets e r hr a ha)
  · intro e p hp hn
    rw [Mode.invariantFunction, hp, Option.bind_some]
    exact hind p _ hn (hw.invs e p hp) _ (List.Perm.refl _)
  · intro e p hp hn
    rw [Mode.guardFunction, hp, Option.bind_some]
    exact hind p _ hn (hw.guards e p hp) _ w.perm

/-! ### Failure -/

theorem app_eq_un {op : UnOp} (h : op ≠ .nul) (a : Expr V) : Expr.app op a = .un op a := by
  cases op <;> first | rfl | exact absurd rfl h

theorem mem_subst_arguments {e : Expr V} (he : NoNul e) (v : V) (s : Expr V) (u : V) :
    u ∈ (e.subst v s).arguments ↔ (u ∈ e.arguments ∧ u ≠ v) ∨ (v ∈ e.arguments ∧ u ∈ s.arguments) := by
  induction e with
  | const n c => simp [Expr.subst, Expr.arguments]
  | var w =>
    simp only [Expr.subst]
    by_cases h : w = v
    · rw [if_pos h]
      simp only [Expr.arguments, Finset.mem_singleton, h, true_and]
      tauto
    · rw [if_neg h]
      simp only [Expr.arguments, Finset.mem_singleton]
      constructor
      · rintro rfl; exact Or.inl ⟨rfl, h⟩
      · rintro (h' | h')
        · exact h'.1
        · exact absurd h'.1.symm h
  | un op a ih => rw [Expr.subst, app_eq_un he.1]; exact ih he.2
  | bin op a b iha ihb =>
    have h1 := iha he.1
    have h2 := ihb he.2
    have e1 : u ∈ ((Expr.bin op a b).subst v s).arguments ↔ u ∈ (a.subst v s).arguments ∨ u ∈ (b.subst v s).arguments :=
      Finset.mem_union
    have e2 : ∀ z, z ∈ (Expr.bin op a b).arguments ↔ z ∈ a.arguments ∨ z ∈ b.arguments := fun z => Finset.mem_union
    rw [e1, h1, h2, e2, e2]
    clear h1 h2 e1 e2 iha ihb
    tauto
  | pow a n ih => exact ih he

theorem noNul_subst {e s : Expr V} (he : NoNul e) (hs : NoNul s) (v : V) : NoNul (e.subst v s) := by
  induction e with
  | const n c => trivial
  | var w => rw [Expr.subst]; split_ifs <;> trivial
  | un op a ih => rw [Expr.subst, app_eq_un he.1]; exact ⟨he.1, ih he.2⟩
  | bin op a b iha ihb => exact ⟨iha he.1, ihb he.2⟩
  | pow a n ih => exact ih he

theorem mem_substList_of_notMem {as : List (V × Expr V)} (has : ∀ a ∈ as, NoNul a.2) {e : Expr V} (he : NoNul e) {u : V}
    (hu : u ∈ e.arguments) (hn : u ∉ as.map Prod.fst) :
    u ∈ (e.substList as).arguments ∧ NoNul (e.substList as) := by
  induction as generalizing e with
  | nil => exact ⟨hu, he⟩
  | cons a as ih =>
    simp only [List.map_cons, List.mem_cons, not_or] at hn
    simp only [Expr.substList, List.foldl_cons]
    exact ih (fun b hb => has b (by simp [hb])) (noNul_subst he (has a (by simp)) _)
      ((mem_subst_arguments he _ _ _).2 (Or.inl ⟨hu, hn.1⟩)) hn.2

theorem noNul_substList {as : List (V × Expr V)} (has : ∀ a ∈ as, NoNul a.2) {e : Expr V} (he : NoNul e) :
    NoNul (e.substList as) := by
  induction as generalizing e with
  | nil => exact he
  | cons a as ih => exact ih (fun b hb => has b (by simp [hb])) (noNul_subst he (has a (by simp)) _)

/-- An expression which uses an auxiliary variable defined by another one still uses an auxiliary variable after
substitution in the order of evaluation. -/
theorem substList_chain (w : ModeWF exprLang m) (hn : ∀ a ∈ m.aux, NoNul a.2) {e : Expr V} (he : NoNul e)
    {a b : V × Expr V} (ha : a ∈ m.aux) (hb : b ∈ m.aux) (hea : a.1 ∈ e.arguments) (hab : b.1 ∈ a.2.arguments) :
    b.1 ∈ (e.substList m.sortedAux).arguments := by
  obtain ⟨p, s, hps⟩ := List.append_of_mem (w.perm.mem_iff.2 ha)
  have hnd : (m.sortedAux.map Prod.fst).Nodup := (w.perm.map Prod.fst).nodup_iff.2 (List.nodup_append.1 w.defs).1
  have hn' : ∀ c ∈ p ++ a :: s, NoNul c.2 := fun c hc => hn c (w.perm.mem_iff.1 (hps ▸ hc))
  have hord := w.ordered (p.map (toEq exprLang)) (toEq exprLang a) (s.map (toEq exprLang)) (by rw [hps]; simp) b.1 hab
    (by simp only [List.map_map]; exact List.mem_map.2 ⟨b, hb, rfl⟩)
  have hbp : b.1 ∈ p.map Prod.fst := by simpa [toEq] using hord
  rw [hps, List.map_append, List.map_cons, List.nodup_append, List.nodup_cons] at hnd
  have hbs : b.1 ∉ s.map Prod.fst := fun h => hnd.2.2 b.1 hbp b.1 (List.mem_cons_of_mem _ h) rfl
  have hap : a.1 ∉ p.map Prod.fst := fun h => hnd.2.2 a.1 h a.1 (by simp) rfl
  have e1 : e.substList m.sortedAux = (((e.substList p).subst a.1 a.2).substList s) := by
    rw [hps]; simp [Expr.substList]
  obtain ⟨h1, h2⟩ := mem_substList_of_notMem (fun c hc => hn' c (by simp [hc])) he hea hap
  rw [e1]
  exact (mem_substList_of_notMem (fun c hc => hn' c (by simp [hc])) (noNul_subst h2 (hn' a (by simp)) _)
    ((mem_subst_arguments h2 _ _ _).2 (Or.inr ⟨h1, hab⟩)) hbs).1

/-- C64: if a differential equation uses an auxiliary variable whose equation uses another auxiliary variable,
`dynamic_function` fails, although the equations have a solution (`C64_solution`); likewise for resets and guards. -/
theorem C64_chain_fails (w : ModeWF exprLang m) (hn : ∀ a ∈ m.aux, NoNul a.2) {a b : V × Expr V} (ha : a ∈ m.aux)
    (hb : b ∈ m.aux) (hab : b.1 ∈ a.2.arguments) :
    (∀ d ∈ m.dyn, NoNul d.2 → a.1 ∈ d.2.arguments → m.dynamicFunction = none) ∧
    (∀ e r d, find e m.resets = some r → d ∈ r → NoNul d.2 → a.1 ∈ d.2.arguments → m.resetFunction e = none) ∧
    (∀ e p i, find e m.guards = some p → p.indicator true = some i → NoNul i → a.1 ∈ i.arguments →
      m.guardFunction e = none) := by
  have hbs : b.1 ∉ m.space := fun h =>
    (List.nodup_append.1 w.defs).2.2 b.1 (List.mem_map.2 ⟨b, hb, rfl⟩) b.1 h rfl
  refine ⟨fun d hd hnd had => ?_, fun e r d hr hd hnd had => ?_, fun e p i hp hi hni hai => ?_⟩
  · by_contra hc
    obtain ⟨fs, hfs⟩ := Option.ne_none_iff_exists'.1 hc
    obtain ⟨i, hi, hdi⟩ := List.mem_iff_getElem.1 hd
    have h1 := dyn_results w i d (by rw [List.getElem?_eq_getElem hi, hdi])
    have h2 := (makeFormulas_iff _ _).1 ⟨fs, hfs⟩ _ (List.mem_of_getElem? h1) b.1
      (substList_chain w hn hnd ha hb had hab)
    exact hbs h2
  · by_contra hc
    obtain ⟨fs, hfs⟩ := Option.ne_none_iff_exists'.1 hc
    rw [Mode.resetFunction, hr, Option.bind_some] at hfs
    exact hbs ((makeFormulas_iff _ _).1 ⟨fs, hfs⟩ _ (List.mem_map.2 ⟨d, hd, rfl⟩) b.1
      (substList_chain w hn hnd ha hb had hab))
  · by_contra hc
    obtain ⟨f, hf⟩ := Option.ne_none_iff_exists'.1 hc
    rw [Mode.guardFunction, hp, Option.bind_some, makeConstraint, hi, Option.bind_some] at hf
    exact hbs ((C64_make_formula _ _).1.1 ⟨f, hf⟩ b.1 (substList_chain w hn hni ha hb hai hab))

/-! ### The solution of the auxiliary equations -/

theorem laterOnly_of_split : ∀ {as : List (V × Expr V)}, (∀ p a s, as = p ++ a :: s → (∀ v ∈ a.2.arguments, v ≠ a.1) ∧
    ∀ b ∈ s, a.1 ∉ b.2.arguments ∧ b.1 ≠ a.1) → LaterOnly as
  | [], _ => trivial
  | a :: as, h => ⟨(h [] a as rfl).1, (h [] a as rfl).2,
      laterOnly_of_split fun p b s e => h (a :: p) b s (by rw [e]; rfl)⟩

theorem ModeWF.laterOnly (w : ModeWF exprLang m) : LaterOnly m.sortedAux.reverse := by
  have hnd : (m.sortedAux.map Prod.fst).Nodup := (w.perm.map Prod.fst).nodup_iff.2 (List.nodup_append.1 w.defs).1
  -- an equation uses only variables of equations before it
  have key : ∀ p a s, m.sortedAux = p ++ a :: s → ∀ v ∈ a.2.arguments, v ∉ (a :: s).map Prod.fst := by
    intro p a s hps v hv hc
    have hord := w.ordered (p.map (toEq exprLang)) (toEq exprLang a) (s.map (toEq exprLang)) (by rw [hps]; simp) v hv
      (by
        simp only [List.map_map]
        obtain ⟨c, hc', rfl⟩ := List.mem_map.1 hc
        exact List.mem_map.2 ⟨c, w.perm.mem_iff.1 (hps ▸ List.mem_append_right p hc'), rfl⟩)
    have hvp : v ∈ p.map Prod.fst := by simpa [toEq] using hord
    rw [hps, List.map_append, List.nodup_append] at hnd
    exact hnd.2.2 v hvp v hc rfl
  refine laterOnly_of_split fun p a s hps => ?_
  have hps' : m.sortedAux = s.reverse ++ a :: p.reverse := by
    rw [← List.reverse_reverse m.sortedAux, hps]; simp
  refine ⟨fun v hv e => key _ _ _ hps' v hv (by simp [e]), fun b hb => ⟨fun hab => ?_, fun e => ?_⟩⟩
  · obtain ⟨q, r, hqr⟩ := List.append_of_mem (List.mem_reverse.2 hb)
    rw [hqr, List.append_assoc, List.cons_append] at hps'
    exact key _ _ _ hps' a.1 hab (by simp)
  · rw [hps', List.map_append, List.nodup_append] at hnd
    exact hnd.2.2 b.1 (List.mem_map.2 ⟨b, List.mem_reverse.2 hb, rfl⟩) a.1 (by simp) e

theorem backwardDefined_of_total {as : List (V × Expr V)} (h : ∀ a ∈ as, ∀ x : V → ℝ, ∃ r, a.2.eval x = some r)
    (x : V → ℝ) : BackwardDefined as x := by
  induction as with
  | nil => trivial
  | cons a as ih => exact ⟨ih fun b hb => h b (by simp [hb]), h a (by simp) _⟩

theorem solution_unique {as : List (V × Expr V)} (hl : LaterOnly as) {y z : V → ℝ} (hy : Solves as y) (hz : Solves as z)
    (h : ∀ v, v ∉ as.map Prod.fst → y v = z v) : y = z := by
  have key : ∀ as : List (V × Expr V), LaterOnly as → Solves as y → Solves as z →
      (∀ v, v ∉ as.map Prod.fst → y v = z v ∨ ∀ b ∈ as, v ∉ b.2.arguments) → ∀ a ∈ as, y a.1 = z a.1 := by
    intro as
    induction as with
    | nil => simp
    | cons a as ih =>
      rintro ⟨h1, h2, h3⟩ hy hz hv
      have hrest := ih h3 (fun b hb => hy b (by simp [hb])) (fun b hb => hz b (by simp [hb])) (by
        intro v hvn
        by_cases hva : v = a.1
        · exact Or.inr fun b hb => hva ▸ (h2 b hb).1
        · rcases hv v (by simp only [List.map_cons, List.mem_cons, not_or]; exact ⟨hva, hvn⟩) with h | h
          · exact Or.inl h
          · exact Or.inr fun b hb => h b (by simp [hb]))
      intro b hb
      rcases List.mem_cons.1 hb with rfl | hb
      · have e1 := hy b (by simp)
        have e2 := hz b (by simp)
        have : b.2.eval y = b.2.eval z := C38_arguments _ fun v hvb => by
          by_cases hva : v ∈ as.map Prod.fst
          · obtain ⟨c, hc, rfl⟩ := List.mem_map.1 hva
            exact hrest c hc
          · rcases hv v (by simp only [List.map_cons, List.mem_cons, not_or]; exact ⟨h1 v hvb, hva⟩) with h | h
            · exact h
            · exact absurd hvb (h b (by simp))
        rw [e1, e2] at this
        exact Option.some.inj this
      · exact hrest b hb
  funext v
  by_cases hv : v ∈ as.map Prod.fst
  · obtain ⟨a, ha, rfl⟩ := List.mem_map.1 hv
    exact key as hl hy hz (fun v hv => Or.inl (h v hv)) a ha
  · exact h v hv

/-- C64: the auxiliary equations of a mode have at most one solution for given values of the other variables, and
exactly one if their right-hand sides are defined everywhere. -/
theorem C64_solution (w : ModeWF exprLang m) (x : V → ℝ) :
    (∀ y z : V → ℝ, Solves m.aux y → Solves m.aux z → (∀ v, v ∉ m.aux.map Prod.fst → y v = z v) → y = z) ∧
    ((∀ a ∈ m.aux, ∀ x : V → ℝ, ∃ r, a.2.eval x = some r) →
      ∃ y : V → ℝ, Solves m.aux y ∧ ∀ v, v ∉ m.aux.map Prod.fst → y v = x v) := by
  have hmem : ∀ a, a ∈ m.sortedAux.reverse ↔ a ∈ m.aux := fun a => by rw [List.mem_reverse, w.perm.mem_iff]
  have hfst : ∀ v, v ∈ m.sortedAux.reverse.map Prod.fst ↔ v ∈ m.aux.map Prod.fst := fun v => by
    simp only [List.mem_map, hmem]
  constructor
  · intro y z hy hz h
    exact solution_unique w.laterOnly (fun a ha => hy a ((hmem a).1 ha)) (fun a ha => hz a ((hmem a).1 ha))
      fun v hv => h v (mt (hfst v).2 hv)
  · intro ht
    obtain ⟨h1, h2⟩ := backward_solves w.laterOnly (x := x)
      (backwardDefined_of_total (fun a ha => ht a ((hmem a).1 ha)) x)
    refine ⟨_, fun a ha => h1 a ((hmem a).2 ha), fun v hv => h2 v fun a ha e => hv ?_⟩
    exact List.mem_map.2 ⟨a, (hmem a).1 ha, e⟩

end Verif.Hybrid
