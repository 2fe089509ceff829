import Verif.Hybrid.Automaton

/-!
# C63: construction of hybrid automata, modes, and discrete reachability
-/

namespace Verif.Hybrid

open Verif.Container Ariadne.AlgebraicSort

variable {κ ν V ε E P : Type*} [LinearOrder κ] [LinearOrder ν] [LinearOrder V] [LinearOrder ε]

/-! ### Sorting -/

omit [LinearOrder κ] [LinearOrder ν] [LinearOrder ε] in
theorem sortAssignments_map (L : Lang V E P) (aux : List (V × E)) : ∀ (n : ℕ) (lhs : List V) (deps : V → Finset V)
    (out : List (V × E)), lhs.length ≤ n →
    (sortAssignments aux n lhs deps out).map (toEq L) = sortLoop (aux.map (toEq L)) lhs deps (out.map (toEq L)) := by
  intro n
  induction n with
  | zero =>
    intro lhs deps out h
    have : lhs = [] := List.length_eq_zero_iff.1 (by omega)
    subst this
    rw [sortLoop, sortAssignments]; rfl
  | succ n ih =>
    intro lhs deps out h
    rw [sortLoop, sortAssignments]
    split
    next e =>
      split
      · rfl
      next v e' => rw [e] at e'; cases e'
    next v e =>
      split
      next e' => rw [e] at e'; cases e'
      next v' e' =>
      rw [e, Option.some.injEq] at e'
      subst e'
      simp only
      have hm := List.mem_of_find?_eq_some e
      rw [ih _ _ _ (by rw [List.length_erase_of_mem hm]; omega)]
      congr 1
      rw [List.map_append]
      congr 1
      rw [List.find?_map]
      rw [show ((fun a : Equation V => decide (a.lhs = v)) ∘ toEq L) = fun a : V × E => decide (a.1 = v) from rfl]
      cases aux.find? (fun a => decide (a.1 = v)) <;> rfl

omit [LinearOrder κ] [LinearOrder ν] [LinearOrder ε] in
/-- Sorting the assignments is the sorting of C39. -/
theorem sortAux_eq (L : Lang V E P) (aux : List (V × E)) :
    (∀ s, sortAux L aux = .ok s → algebraicSort (aux.map (toEq L)) = .ok (s.map (toEq L))) ∧
    (sortAux L aux = .error .algebraicLoop ↔ algebraicSort (aux.map (toEq L)) = .loopError) ∧
    ((∃ s, sortAux L aux = .ok s) ↔ ∃ l, algebraicSort (aux.map (toEq L)) = .ok l) := by
  have key := sortAssignments_map L aux (aux.map Prod.fst).length (aux.map Prod.fst)
    (dependencies (aux.map (toEq L))) [] le_rfl
  have hl : (aux.map (toEq L)).map (·.lhs) = aux.map Prod.fst := by simp [toEq]
  have hnil : ∀ l : List (V × E), l.map (toEq L) = [] ↔ l = [] := fun l => by simp
  simp only [sortAux, algebraicSort, hl]
  rw [List.map_nil] at key
  rw [← key]
  simp only [hnil, List.length_map]
  split_ifs <;> simp

omit [LinearOrder κ] [LinearOrder ν] [LinearOrder ε] in
theorem sortAssignments_sub (aux : List (V × E)) : ∀ (n : ℕ) (lhs : List V) (deps : V → Finset V)
    (out : List (V × E)), (∀ a ∈ out, a ∈ aux) → ∀ a ∈ sortAssignments aux n lhs deps out, a ∈ aux := by
  intro n
  induction n with
  | zero => intro lhs deps out h; exact h
  | succ n ih =>
    intro lhs deps out h
    rw [sortAssignments]
    split
    · exact h
    · refine ih _ _ _ fun a ha => ?_
      rcases List.mem_append.1 ha with h' | h'
      · exact h a h'
      · rw [Option.mem_toList] at h'
        exact List.mem_of_find?_eq_some h'

omit [LinearOrder κ] [LinearOrder ν] [LinearOrder ε] in
theorem nodup_of_map {α β : Type*} {f : α → β} {l : List α} (h : (l.map f).Nodup) : l.Nodup := List.Nodup.of_map f h

omit [LinearOrder κ] [LinearOrder ν] [LinearOrder ε] in
theorem sortAux_perm {L : Lang V E P} {aux s : List (V × E)} (hn : (aux.map Prod.fst).Nodup)
    (h : sortAux L aux = .ok s) :
    s.Perm aux ∧ Ordered (aux.map (toEq L)) (s.map (toEq L)) := by
  have hl : (aux.map (toEq L)).map (·.lhs) = aux.map Prod.fst := by simp [toEq]
  have hn' : ((aux.map (toEq L)).map (·.lhs)).Nodup := by rwa [hl]
  obtain ⟨hp, ho⟩ := C39_sort_ok hn' ((sortAux_eq L aux).1 s h)
  refine ⟨?_, ho⟩
  have hsub : ∀ a ∈ s, a ∈ aux := by
    simp only [sortAux] at h
    split_ifs at h
    simp only [Except.ok.injEq] at h
    rw [← h]
    exact sortAssignments_sub aux _ _ _ [] (by simp)
  have hsl : (s.map Prod.fst).Perm (aux.map Prod.fst) := by
    have := hp.map (·.lhs)
    simpa [toEq, Function.comp_def] using this
  have hsn : s.Nodup := nodup_of_map (hsl.nodup_iff.2 hn)
  exact (List.subperm_of_subset hsn hsub).perm_of_length_le (by
    have := hp.length_eq; simp at this; omega)

/-! ### The invariant -/

/-- The properties every mode has. -/
structure ModeWF (L : Lang V E P) (m : Mode κ ν V ε E P) : Prop where
  /-- no variable is defined twice -/
  defs : (m.aux.map Prod.fst ++ m.dyn.map Prod.fst).Nodup
  perm : m.sortedAux.Perm m.aux
  ordered : Ordered (m.aux.map (toEq L)) (m.sortedAux.map (toEq L))
  sInvs : SortedKeys m.invs
  sGuards : SortedKeys m.guards
  sKinds : SortedKeys m.kinds
  sTargets : SortedKeys m.targets
  sResets : SortedKeys m.resets
  /-- the events with a kind are those with an invariant or a guard -/
  kinds : ∀ e, (find e m.kinds).isSome ↔ (find e m.invs).isSome ∨ (find e m.guards).isSome
  /-- a target and a reset are given together -/
  resets : ∀ e, (find e m.targets).isSome ↔ (find e m.resets).isSome
  /-- no variable is reset twice -/
  resetOnce : ∀ e r, find e m.resets = some r → (r.map Prod.fst).Nodup

/-- The properties every automaton has. -/
structure WF (L : Lang V E P) (A : Automaton κ ν V ε E P) : Prop where
  sorted : SortedKeys A
  loc : ∀ l m, (l, m) ∈ A → m.loc = l
  modes : ∀ l m, (l, m) ∈ A → ModeWF L m
  /-- different locations are distinguishable -/
  distinct : ∀ l m l' m', (l, m) ∈ A → (l', m') ∈ A → l ≠ l' → Distinct l l'
  /-- targets are locations of the automaton, and resets do not define auxiliary variables of the target -/
  targets : ∀ l m e t, (l, m) ∈ A → find e m.targets = some t →
    ∃ mt, (t, mt) ∈ A ∧ ∀ r, find e m.resets = some r → ∀ v ∈ r.map Prod.fst, v ∉ mt.aux.map Prod.fst

variable {L : Lang V E P} {A : Automaton κ ν V ε E P}

theorem WF.find_iff (h : WF L A) {l : Loc κ ν} {m : Mode κ ν V ε E P} : find l A = some m ↔ (l, m) ∈ A :=
  Container.find_iff h.sorted

theorem WF.unique (h : WF L A) {l l₁ l₂ : Loc κ ν} {m₁ m₂ : Mode κ ν V ε E P} (h₁ : (l₁, m₁) ∈ A) (h₂ : (l₂, m₂) ∈ A)
    (e₁ : Extends l₁ l) (e₂ : Extends l₂ l) : l₁ = l₂ ∧ m₁ = m₂ := by
  by_cases e : l₁ = l₂
  · subst e
    have := (h.find_iff.2 h₁).symm.trans (h.find_iff.2 h₂)
    simp only [Option.some.injEq] at this
    exact ⟨rfl, this⟩
  · exact absurd (Distinct.mono (h.distinct _ _ _ _ h₁ h₂ e) e₁ e₂) (Distinct.irrefl l)

theorem modeOf_some (A : Automaton κ ν V ε E P) (l : Loc κ ν) (m : Mode κ ν V ε E P) (h : modeOf A l = some m) :
    ∃ q, (q, m) ∈ A ∧ Extends q l := by
  rw [modeOf, Option.map_eq_some_iff] at h
  obtain ⟨⟨q, m'⟩, hf, rfl⟩ := h
  exact ⟨q, List.mem_of_find?_eq_some hf, (isRestriction_iff q l).1 (by simpa using List.find?_some hf)⟩

theorem WF.modeOf_iff (h : WF L A) {l : Loc κ ν} {m : Mode κ ν V ε E P} :
    modeOf A l = some m ↔ ∃ q, (q, m) ∈ A ∧ Extends q l := by
  refine ⟨modeOf_some A l m, ?_⟩
  rintro ⟨q, hq, he⟩
  cases e : modeOf A l with
  | some m' =>
    obtain ⟨q', hq', he'⟩ := modeOf_some A l m' e
    rw [(h.unique hq hq' he he').2]
  | none =>
    rw [modeOf, Option.map_eq_none_iff, List.find?_eq_none] at e
    exact absurd ((isRestriction_iff q l).2 he) (e (q, m) hq)

theorem Extends.refl (l : Loc κ ν) : Extends l l := fun _ _ h => h

theorem WF.modeOf_self (h : WF L A) {l : Loc κ ν} {m : Mode κ ν V ε E P} (hm : (l, m) ∈ A) : modeOf A l = some m :=
  h.modeOf_iff.2 ⟨l, hm, Extends.refl l⟩

theorem WF.mem_mset (h : WF L A) {l k : Loc κ ν} {m' v : Mode κ ν V ε E P} :
    (k, v) ∈ mset l m' A ↔ (k = l ∧ v = m') ∨ (k ≠ l ∧ (k, v) ∈ A) := by
  rw [← Container.find_iff h.sorted.mset, find_mset h.sorted]
  split_ifs with e
  · simp only [Option.some.injEq, e, true_and, ne_eq, not_true_eq_false, false_and, or_false]
    exact eq_comm
  · rw [h.find_iff]; simp [e]

/-- Replacing a mode by one with the same equations keeps the invariant. -/
theorem WF.mset (h : WF L A) {l : Loc κ ν} {m m' : Mode κ ν V ε E P} (hm : (l, m) ∈ A) (hl : m'.loc = m.loc)
    (ha : m'.aux = m.aux) (hw : ModeWF L m')
    (ht : ∀ e t, find e m'.targets = some t →
      ∃ mt, (t, mt) ∈ A ∧ ∀ r, find e m'.resets = some r → ∀ v ∈ r.map Prod.fst, v ∉ mt.aux.map Prod.fst) :
    WF L (mset l m' A) := by
  have lift : ∀ t (Q : Mode κ ν V ε E P → Prop), (∀ n n' : Mode κ ν V ε E P, n.aux = n'.aux → Q n → Q n') →
      (∃ mt, (t, mt) ∈ A ∧ Q mt) → ∃ mt, (t, mt) ∈ Container.mset l m' A ∧ Q mt := by
    rintro t Q hQ ⟨mt, h1, h2⟩
    by_cases e : t = l
    · subst e
      have : mt = m := by
        have := (h.find_iff.2 h1).symm.trans (h.find_iff.2 hm)
        simpa using this
      subst this
      exact ⟨m', h.mem_mset.2 (Or.inl ⟨rfl, rfl⟩), hQ _ _ ha.symm h2⟩
    · exact ⟨mt, h.mem_mset.2 (Or.inr ⟨e, h1⟩), h2⟩
  have key : ∀ k v, (k, v) ∈ Container.mset l m' A → ∃ v', (k, v') ∈ A := by
    intro k v hk
    rcases h.mem_mset.1 hk with ⟨rfl, _⟩ | ⟨_, hk⟩
    · exact ⟨m, hm⟩
    · exact ⟨v, hk⟩
  refine ⟨h.sorted.mset, ?_, ?_, ?_, ?_⟩
  · intro k v hk
    rcases h.mem_mset.1 hk with ⟨rfl, rfl⟩ | ⟨_, hk⟩
    · rw [hl, h.loc _ _ hm]
    · exact h.loc _ _ hk
  · intro k v hk
    rcases h.mem_mset.1 hk with ⟨rfl, rfl⟩ | ⟨_, hk⟩
    · exact hw
    · exact h.modes _ _ hk
  · intro k v k' v' hk hk' e
    obtain ⟨w, hw⟩ := key _ _ hk
    obtain ⟨w', hw'⟩ := key _ _ hk'
    exact h.distinct _ _ _ _ hw hw' e
  · intro k v e t hk het
    apply lift t (fun mt => ∀ r, find e v.resets = some r → ∀ w ∈ r.map Prod.fst, w ∉ mt.aux.map Prod.fst)
    · intro n n' hn hq; rwa [← hn]
    · rcases h.mem_mset.1 hk with ⟨rfl, rfl⟩ | ⟨_, hk⟩
      · exact ht e t het
      · exact h.targets _ _ _ _ hk het

theorem WF.modeOf_mset (h : WF L A) {l : Loc κ ν} {m m' : Mode κ ν V ε E P} (hm : (l, m) ∈ A)
    (hw : WF L (Container.mset l m' A)) (l' : Loc κ ν) :
    (Extends l l' → modeOf (Container.mset l m' A) l' = some m' ∧ modeOf A l' = some m) ∧
    (¬ Extends l l' → modeOf (Container.mset l m' A) l' = modeOf A l') := by
  constructor
  · intro e
    exact ⟨hw.modeOf_iff.2 ⟨l, h.mem_mset.2 (Or.inl ⟨rfl, rfl⟩), e⟩, h.modeOf_iff.2 ⟨l, hm, e⟩⟩
  · intro e
    ext n
    rw [hw.modeOf_iff, h.modeOf_iff]
    constructor
    · rintro ⟨q, hq, he⟩
      rcases h.mem_mset.1 hq with ⟨rfl, _⟩ | ⟨_, hq⟩
      · exact absurd he e
      · exact ⟨q, hq, he⟩
    · rintro ⟨q, hq, he⟩
      exact ⟨q, h.mem_mset.2 (Or.inr ⟨fun hql => e (hql ▸ he), hq⟩), he⟩

theorem updateMode_eq_mset (A : Automaton κ ν V ε E P) (l : Loc κ ν) (m : Mode κ ν V ε E P)
    (f : Mode κ ν V ε E P → Mode κ ν V ε E P) (hs : SortedKeys A) (hm : (l, m) ∈ A)
    (hu : ∀ q n, (q, n) ∈ A → Extends q l → q = l) : updateMode A l f = Container.mset l (f m) A := by
  induction A with
  | nil => simp at hm
  | cons p A ih =>
    obtain ⟨q, n⟩ := p
    rw [updateMode, Container.mset]
    by_cases e : q = l
    · subst e
      have : n = m := by
        have h1 := (Container.find_iff hs).2 hm
        rw [find_cons_self, Option.some.injEq] at h1
        exact h1
      subst this
      simp [(isRestriction_iff q q).2 (Extends.refl q)]
    · have hr : q.isRestriction l = false := by
        rw [Bool.eq_false_iff]
        exact fun hr => e (hu q n (by simp) ((isRestriction_iff q l).1 hr))
      have hm' : (l, m) ∈ A := by
        rcases List.mem_cons.1 hm with h | h
        · exact absurd (congrArg Prod.fst h).symm e
        · exact h
      have hlt : q < l := hs.head_lt hm'
      simp only [hr, Bool.false_eq_true, if_false]
      rw [if_neg (not_lt_of_gt hlt), if_pos hlt, ih hs.tail hm' fun q n hq => hu q n (List.mem_cons_of_mem _ hq)]

theorem WF.updateMode (h : WF L A) {l : Loc κ ν} {m : Mode κ ν V ε E P} (hm : (l, m) ∈ A)
    (f : Mode κ ν V ε E P → Mode κ ν V ε E P) : updateMode A l f = Container.mset l (f m) A :=
  updateMode_eq_mset A l m f h.sorted hm fun _ _ hq he => (h.unique hq hm he (Extends.refl l)).1

omit [LinearOrder κ] [LinearOrder ν] [LinearOrder V] in
theorem isSome_minsert {α : Type*} {m : List (ε × α)} (h : SortedKeys m) (e j : ε) (v : α) :
    (find j (minsert e v m)).isSome ↔ j = e ∨ (find j m).isSome := by
  rw [find_minsert h]
  split_ifs with hj <;> simp [hj]

omit [LinearOrder κ] [LinearOrder ν] [LinearOrder V] in
theorem isSome_mset {α : Type*} {m : List (ε × α)} (h : SortedKeys m) (e j : ε) (v : α) :
    (find j (Container.mset e v m)).isSome ↔ j = e ∨ (find j m).isSome := by
  rw [find_mset h]
  split_ifs with hj <;> simp [hj]

/-! ### Every operation keeps the invariant -/

theorem mkMode_ok {l : Loc κ ν} {aux dyn : List (V × E)} {m : Mode κ ν V ε E P}
    (hn : (aux.map Prod.fst ++ dyn.map Prod.fst).Nodup) (h : mkMode L l aux dyn = .ok m) :
    m.loc = l ∧ m.aux = aux ∧ m.dyn = dyn ∧ m.invs = [] ∧ m.guards = [] ∧ m.kinds = [] ∧ m.targets = [] ∧
      m.resets = [] ∧ ModeWF L m := by
  rw [mkMode] at h
  cases e : sortAux L aux with
  | error _ => rw [e] at h; cases h
  | ok s =>
    rw [e] at h
    simp only [Except.ok.injEq] at h
    subst h
    obtain ⟨hp, ho⟩ := sortAux_perm (List.nodup_append.1 hn).1 e
    refine ⟨rfl, rfl, rfl, rfl, rfl, rfl, rfl, rfl, hn, hp, ho, SortedKeys.nil, SortedKeys.nil, SortedKeys.nil,
      SortedKeys.nil, SortedKeys.nil, ?_, ?_, ?_⟩ <;> simp [find]

theorem WF.mem_minsert (h : WF L A) {l k : Loc κ ν} {m' v : Mode κ ν V ε E P} (hl : find l A = none) :
    (k, v) ∈ minsert l m' A ↔ (k = l ∧ v = m') ∨ (k, v) ∈ A := by
  rw [← Container.find_iff h.sorted.minsert, find_minsert h.sorted, hl]
  split_ifs with e
  · subst e
    simp only [Option.getD_none, Option.some.injEq, true_and]
    constructor
    · intro e; exact Or.inl e.symm
    · rintro (e | e)
      · exact e.symm
      · rw [h.find_iff.2 e] at hl; cases hl
  · rw [h.find_iff]; simp [e]

theorem WF.newMode (h : WF L A) (l : Loc κ ν) (aux dyn : List (V × E)) : WF L (newMode L A l aux dyn).1 := by
  rw [Hybrid.newMode]
  split_ifs with h1 h2
  · exact h
  · exact h
  · cases e : mkMode (ε := ε) (P := P) L l aux dyn with
    | error _ => exact h
    | ok m =>
      simp only
      have hn : (aux.map Prod.fst ++ dyn.map Prod.fst).Nodup := by
        rw [← C61_unique]; simpa using h2
      obtain ⟨hl, ha, hd, h3, h4, h5, h6, h7, hw⟩ := mkMode_ok hn e
      have hdis : ∀ q n, (q, n) ∈ A → Distinct l q := by
        intro q n hq
        rw [← (C62_distinguishable l q).1]
        by_contra hc
        exact h1 (List.any_eq_true.2 ⟨(q, n), hq, by simpa using hc⟩)
      have hnone : find l A = none := by
        cases e : find l A with
        | none => rfl
        | some n => exact absurd (hdis l n (h.find_iff.1 e)) (Distinct.irrefl l)
      refine ⟨h.sorted.minsert, ?_, ?_, ?_, ?_⟩
      · intro k v hk
        rcases (h.mem_minsert hnone).1 hk with ⟨rfl, rfl⟩ | hk
        · exact hl
        · exact h.loc _ _ hk
      · intro k v hk
        rcases (h.mem_minsert hnone).1 hk with ⟨rfl, rfl⟩ | hk
        · exact hw
        · exact h.modes _ _ hk
      · intro k v k' v' hk hk' hne
        rcases (h.mem_minsert hnone).1 hk with ⟨rfl, rfl⟩ | hk1 <;>
          rcases (h.mem_minsert hnone).1 hk' with ⟨rfl, rfl⟩ | hk2
        · exact absurd rfl hne
        · exact hdis _ _ hk2
        · exact (hdis _ _ hk1).symm
        · exact h.distinct _ _ _ _ hk1 hk2 hne
      · intro k v e t hk het
        rcases (h.mem_minsert hnone).1 hk with ⟨rfl, rfl⟩ | hk
        · rw [h6] at het; cases het
        · obtain ⟨mt, h8, h9⟩ := h.targets _ _ _ _ hk het
          exact ⟨mt, (h.mem_minsert hnone).2 (Or.inr h8), h9⟩

theorem WF.newInvariant (h : WF L A) (l : Loc κ ν) (inv : P) (e : ε) : WF L (newInvariant A l inv e).1 := by
  rw [Hybrid.newInvariant]
  cases hf : find l A with
  | none => exact h
  | some m =>
    have hm := h.find_iff.1 hf
    have w := h.modes _ _ hm
    simp only
    split_ifs
    · exact h
    · refine h.mset hm rfl rfl ⟨w.defs, w.perm, w.ordered, w.sInvs.minsert, w.sGuards, w.sKinds.minsert, w.sTargets,
        w.sResets, fun j => ?_, w.resets, w.resetOnce⟩ fun e' t' het => h.targets l m e' t' hm het
      simp only
      rw [isSome_minsert w.sKinds, isSome_minsert w.sInvs, w.kinds j, or_assoc]

theorem WF.newGuard (h : WF L A) (l : Loc κ ν) (e : ε) (g : P) (k : Kind) : WF L (newGuard A l e g k).1 := by
  rw [Hybrid.newGuard]
  cases hf : find l A with
  | none => exact h
  | some m =>
    have hm := h.find_iff.1 hf
    have w := h.modes _ _ hm
    simp only
    split_ifs
    · exact h
    · refine h.mset hm rfl rfl ⟨w.defs, w.perm, w.ordered, w.sInvs, w.sGuards.minsert, w.sKinds.minsert, w.sTargets,
        w.sResets, fun j => ?_, w.resets, w.resetOnce⟩ fun e' t' het => h.targets l m e' t' hm het
      simp only
      rw [isSome_minsert w.sKinds, isSome_minsert w.sGuards, w.kinds j, or_left_comm]

theorem WF.newAction (h : WF L A) (l : Loc κ ν) (inv : P) (e : ε) (g : P) (k : Kind) :
    WF L (newAction A l inv e g k).1 := by
  rw [Hybrid.newAction]
  cases hf : find l A with
  | none => exact h
  | some m =>
    have hm := h.find_iff.1 hf
    have w := h.modes _ _ hm
    simp only
    split_ifs
    · exact h
    · refine h.mset hm rfl rfl ⟨w.defs, w.perm, w.ordered, w.sInvs.minsert, w.sGuards.minsert, w.sKinds.minsert,
        w.sTargets, w.sResets, fun j => ?_, w.resets, w.resetOnce⟩ fun e' t' het => h.targets l m e' t' hm het
      simp only
      rw [isSome_minsert w.sKinds, isSome_minsert w.sGuards, isSome_minsert w.sInvs, w.kinds j]
      tauto

theorem WF.setInvariant (h : WF L A) (l : Loc κ ν) (inv : P) (e : ε) : WF L (setInvariant A l inv e).1 := by
  rw [Hybrid.setInvariant]
  cases hf : find l A with
  | none => exact h
  | some m =>
    have hm := h.find_iff.1 hf
    have w := h.modes _ _ hm
    refine h.mset hm rfl rfl ⟨w.defs, w.perm, w.ordered, w.sInvs.mset, w.sGuards, w.sKinds.mset, w.sTargets,
        w.sResets, fun j => ?_, w.resets, w.resetOnce⟩ fun e' t' het => h.targets l m e' t' hm het
    simp only
    rw [isSome_mset w.sKinds, isSome_mset w.sInvs, w.kinds j, or_assoc]

theorem WF.setGuard (h : WF L A) (l : Loc κ ν) (e : ε) (g : P) (k : Kind) : WF L (setGuard A l e g k).1 := by
  rw [Hybrid.setGuard]
  cases hf : find l A with
  | none => exact h
  | some m =>
    have hm := h.find_iff.1 hf
    have w := h.modes _ _ hm
    refine h.mset hm rfl rfl ⟨w.defs, w.perm, w.ordered, w.sInvs, w.sGuards.mset, w.sKinds.mset, w.sTargets,
        w.sResets, fun j => ?_, w.resets, w.resetOnce⟩ fun e' t' het => h.targets l m e' t' hm het
    simp only
    rw [isSome_mset w.sKinds, isSome_mset w.sGuards, w.kinds j, or_left_comm]

/-- The conditions under which an update is accepted. -/
structure UpdateOK (A : Automaton κ ν V ε E P) (s : Loc κ ν) (e : ε) (t : Loc κ ν) (reset : List (V × E))
    (m mt : Mode κ ν V ε E P) : Prop where
  source : (s, m) ∈ A
  target : (t, mt) ∈ A
  new : find e m.targets = none
  noAux : ∀ v ∈ reset.map Prod.fst, v ∉ mt.aux.map Prod.fst
  once : (reset.map Prod.fst).Nodup

theorem WF.hasLocation_iff (h : WF L A) {l : Loc κ ν} : hasLocation A l = true ↔ ∃ m, (l, m) ∈ A :=
  hasKey_iff h.sorted

theorem WF.newUpdate_cases (h : WF L A) (s : Loc κ ν) (e : ε) (t : Loc κ ν) (reset : List (V × E)) :
    (∃ err, newUpdate A s e t reset = (A, some err) ∧ ¬ ∃ m mt, UpdateOK A s e t reset m mt) ∨
    (∃ m mt, UpdateOK A s e t reset m mt ∧ newUpdate A s e t reset =
      (Container.mset s { m with targets := minsert e t m.targets, resets := minsert e reset m.resets } A, none)) := by
  rw [newUpdate]
  by_cases h1 : (!hasLocation A s) = true
  · rw [if_pos h1]
    refine Or.inl ⟨_, rfl, ?_⟩
    rintro ⟨m, mt, ho⟩
    rw [h.hasLocation_iff.2 ⟨m, ho.source⟩] at h1
    cases h1
  by_cases h2 : (!hasLocation A t) = true
  · rw [if_neg h1, if_pos h2]
    refine Or.inl ⟨_, rfl, ?_⟩
    rintro ⟨m, mt, ho⟩
    rw [h.hasLocation_iff.2 ⟨mt, ho.target⟩] at h2
    cases h2
  · rw [if_neg h1, if_neg h2]
    obtain ⟨m, hm⟩ := h.hasLocation_iff.1 (by simpa using h1)
    obtain ⟨mt, hmt⟩ := h.hasLocation_iff.1 (by simpa using h2)
    have hu : ∀ {n nt}, UpdateOK A s e t reset n nt → n = m ∧ nt = mt := fun ho =>
      ⟨(h.unique ho.source hm (Extends.refl s) (Extends.refl s)).2,
        (h.unique ho.target hmt (Extends.refl t) (Extends.refl t)).2⟩
    have hd : memberDisjoint (ofList (mt.aux.map Prod.fst)) (reset.map Prod.fst) = true ↔
        ∀ v ∈ reset.map Prod.fst, v ∉ mt.aux.map Prod.fst := by
      rw [memberDisjoint, List.all_eq_true]
      refine forall₂_congr fun v _ => ?_
      rw [Bool.not_eq_true', contains_false (C61_of_list _).1, (C61_of_list _).2]
    rw [h.modeOf_self hm, h.modeOf_self hmt]
    simp only
    split_ifs with h3 h4 h5
    · refine Or.inl ⟨_, rfl, ?_⟩
      rintro ⟨n, nt, ho⟩
      have := (hu ho).1; subst this
      rw [hasKey, ho.new] at h3; cases h3
    · refine Or.inl ⟨_, rfl, ?_⟩
      rintro ⟨n, nt, ho⟩
      have := (hu ho).2; subst this
      rw [hd.2 ho.noAux] at h4; cases h4
    · refine Or.inl ⟨_, rfl, ?_⟩
      rintro ⟨n, nt, ho⟩
      rw [(C61_unique _).2 ho.once] at h5; cases h5
    · refine Or.inr ⟨m, mt, ⟨hm, hmt, ?_, hd.1 (by simpa using h4), (C61_unique _).1 (by simpa using h5)⟩, ?_⟩
      · simpa [hasKey] using h3
      · rw [h.updateMode hm]

theorem WF.update (h : WF L A) {s : Loc κ ν} {e : ε} {t : Loc κ ν} {reset : List (V × E)} {m mt : Mode κ ν V ε E P}
    (ho : UpdateOK A s e t reset m mt) :
    WF L (Container.mset s { m with targets := minsert e t m.targets, resets := minsert e reset m.resets } A) := by
  have w := h.modes _ _ ho.source
  have hr : find e m.resets = none := by
    have h1 := w.resets e
    rw [ho.new] at h1
    simpa using h1
  refine h.mset ho.source rfl rfl ⟨w.defs, w.perm, w.ordered, w.sInvs, w.sGuards, w.sKinds, w.sTargets.minsert,
        w.sResets.minsert, w.kinds, fun j => ?_, fun j r hj => ?_⟩ fun j t' hj => ?_
  · simp only
    rw [isSome_minsert w.sTargets, isSome_minsert w.sResets, w.resets j]
  · simp only at hj
    rw [find_minsert w.sResets] at hj
    split_ifs at hj with hje
    · rw [hr] at hj
      simp only [Option.getD_none, Option.some.injEq] at hj
      exact hj ▸ ho.once
    · exact w.resetOnce j r hj
  · simp only at hj ⊢
    rw [find_minsert w.sTargets] at hj
    rw [find_minsert w.sResets]
    split_ifs at hj with hje
    · rw [ho.new] at hj
      simp only [Option.getD_none, Option.some.injEq] at hj
      subst hj
      refine ⟨mt, ho.target, fun r hr' => ?_⟩
      rw [if_pos hje, hr] at hr'
      simp only [Option.getD_none, Option.some.injEq] at hr'
      exact hr' ▸ ho.noAux
    · rw [if_neg hje]
      exact h.targets _ _ _ _ ho.source hj

theorem WF.newUpdate (h : WF L A) (s : Loc κ ν) (e : ε) (t : Loc κ ν) (reset : List (V × E)) :
    WF L (newUpdate A s e t reset).1 := by
  rcases h.newUpdate_cases s e t reset with ⟨err, he, _⟩ | ⟨m, mt, ho, he⟩
  · rw [he]; exact h
  · rw [he]; exact h.update ho

theorem WF.newTransition (h : WF L A) (s : Loc κ ν) (e : ε) (t : Loc κ ν) (reset : List (V × E)) (g : P) (k : Kind) :
    WF L (newTransition L A s e t reset g k).1 := by
  rw [Hybrid.newTransition]
  have hr : WF L (if k = .urgent ∨ k = .impact then Hybrid.newAction A s (L.pnot g) e g k
      else if k = .permissive then Hybrid.newGuard A s e g k else (A, some .unhandledKind)).1 := by
    split_ifs
    · exact h.newAction s (L.pnot g) e g k
    · exact h.newGuard s e g k
    · exact h
  split
  · exact hr
  · exact hr.newUpdate s e t reset

theorem WF.step (h : WF L A) (op : Op κ ν V ε E P) : WF L (step L A op).1 := by
  cases op with
  | mode l aux dyn => exact h.newMode l aux dyn
  | permissiveAction l inv e g k =>
    rw [Hybrid.step]; split_ifs
    · exact h.newAction l inv e g k
    · exact h
  | urgentAction l e g k =>
    rw [Hybrid.step]; split_ifs
    · exact h.newGuard l e g k
    · exact h
  | invariant l inv e => exact h.newInvariant l inv e
  | setInvariant l inv e => exact h.setInvariant l inv e
  | guard l e g k => exact h.newGuard l e g k
  | setGuard l e g k => exact h.setGuard l e g k
  | update s e t reset => exact h.newUpdate s e t reset
  | transition s e t reset g k => exact h.newTransition s e t reset g k

theorem WF.empty : WF L ([] : Automaton κ ν V ε E P) :=
  ⟨SortedKeys.nil, by simp, by simp, by simp, by simp⟩

/-- C63: every automaton made by any sequence of calls, with exceptions caught, has the following properties: different
locations are distinguishable; in each mode no variable is defined twice, the algebraic equations are in order of
dependency, the events with a kind are those with an invariant or a guard, every target has a reset, no reset defines
a variable twice or an auxiliary variable of the target, and targets are locations of the automaton. -/
theorem C63_invariant (L : Lang V E P) (ops : List (Op κ ν V ε E P)) : WF L (build L ops) := by
  have key : ∀ (ops : List (Op κ ν V ε E P)) (A : Automaton κ ν V ε E P), WF L A →
      WF L (ops.foldl (fun A op => (Hybrid.step L A op).1) A) := by
    intro ops
    induction ops with
    | nil => intro A h; exact h
    | cons op ops ih => intro A h; exact ih _ (h.step op)
  exact key ops [] WF.empty

/-- C63: `mode(location)` is the mode of the only location of the automaton of which the given one is an extension, so
that it does not depend on the order of modes; it fails exactly if there is none.  `has_location`, `has_mode` and
`has_partial_mode` tell whether there is such a location, for the first two the given one. -/
theorem C63_mode (h : WF L A) (l : Loc κ ν) :
    (∀ m, modeOf A l = some m ↔ ∃ q, (q, m) ∈ A ∧ Extends q l) ∧
    (∀ q q' m m', (q, m) ∈ A → (q', m') ∈ A → Extends q l → Extends q' l → q = q' ∧ m = m') ∧
    (hasLocation A l = true ↔ ∃ m, (l, m) ∈ A) ∧
    (hasMode A l = true ↔ ∃ m, (l, m) ∈ A) ∧
    (hasPartialMode A l = true ↔ ∃ m, modeOf A l = some m) := by
  refine ⟨fun m => h.modeOf_iff, fun q q' m m' h1 h2 h3 h4 => h.unique h1 h2 h3 h4, h.hasLocation_iff, ?_, ?_⟩
  · rw [hasMode, List.any_eq_true]
    constructor
    · rintro ⟨⟨q, m⟩, hm, hs⟩
      rw [Loc.areSame, decide_eq_true_eq] at hs
      exact ⟨m, Loc.ext hs ▸ hm⟩
    · rintro ⟨m, hm⟩
      exact ⟨(l, m), hm, by simp [Loc.areSame]⟩
  · rw [hasPartialMode, List.any_eq_true]
    constructor
    · rintro ⟨⟨q, m⟩, hm, hs⟩
      exact ⟨m, h.modeOf_iff.2 ⟨q, hm, (isRestriction_iff q l).1 hs⟩⟩
    · rintro ⟨m, hm⟩
      obtain ⟨q, hq, he⟩ := h.modeOf_iff.1 hm
      exact ⟨(q, m), hq, (isRestriction_iff q l).2 he⟩

end Verif.Hybrid
