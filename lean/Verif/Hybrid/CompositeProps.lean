import Verif.Hybrid.Composite

/-!
# C65: parallel composition of hybrid automata: modes, events and targets
-/

namespace Verif.Hybrid

open Verif.Container Ariadne.AlgebraicSort

variable {N κ ν V ε E P : Type*} [LinearOrder N] [LinearOrder κ] [LinearOrder ν] [LinearOrder V] [LinearOrder ε]

/-! ### Specification -/

/-- spec: the modes of the components in a location -/
def At (C : Composite N κ ν V ε E P) (l : Loc κ ν) (ms : List (Mode κ ν V ε E P)) : Prop :=
  List.Forall₂ (fun c m => modeOf c.2 l = some m) C ms

/-- spec: where a mode goes with an event: to its target, or nowhere -/
def Mode.next (e : ε) (m : Mode κ ν V ε E P) : Loc κ ν := (find e m.targets).getD m.loc

/-- spec: every guard has a transition and every transition has a guard, possibly in different components -/
def Matched (ms : List (Mode κ ν V ε E P)) : Prop :=
  ∀ e, (∃ m ∈ ms, (find e m.guards).isSome) ↔ ∃ m ∈ ms, (find e m.targets).isSome

/-- spec: the values of the mode of the composition.  The first component with an entry decides, but the equations,
targets and resets of all components are collected. -/
structure Merged (ms : List (Mode κ ν V ε E P)) (r : Mode κ ν V ε E P) : Prop where
  loc : ∀ k, r.loc.get k = ms.findSome? fun m => m.loc.get k
  aux : r.aux = ms.flatMap (·.aux)
  dyn : r.dyn = ms.flatMap (·.dyn)
  invs : ∀ e, find e r.invs = ms.findSome? fun m => find e m.invs
  guards : ∀ e, find e r.guards = ms.findSome? fun m => find e m.guards
  kinds : ∀ e, find e r.kinds = ms.findSome? fun m => find e m.kinds
  hasTarget : ∀ e, (find e r.targets).isSome ↔ ∃ m ∈ ms, (find e m.targets).isSome
  targets : ∀ e t, find e r.targets = some t → ∀ k, t.get k = ms.findSome? fun m => (find e m.targets).bind (·.get k)
  resets : ∀ e, find e r.resets = if ∃ m ∈ ms, (find e m.resets).isSome then
    some (ms.flatMap fun m => (find e m.resets).getD []) else none

variable {L : Lang V E P} {C : Composite N κ ν V ε E P}

/-! ### The modes of the components -/

omit [LinearOrder N] [LinearOrder V] [LinearOrder ε] in
theorem At.unique {l : Loc κ ν} : ∀ {C : Composite N κ ν V ε E P} {ms ms' : List (Mode κ ν V ε E P)},
    At C l ms → At C l ms' → ms = ms'
  | [], _, _, .nil, .nil => rfl
  | _ :: _, _, _, .cons h t, .cons h' t' => by
    rw [h] at h'
    rw [Option.some.inj h', At.unique t t']

omit [LinearOrder N] [LinearOrder V] [LinearOrder ε] in
theorem At.mem {l : Loc κ ν} {ms : List (Mode κ ν V ε E P)} (h : At C l ms) :
    ∀ m, m ∈ ms ↔ ∃ c ∈ C, modeOf c.2 l = some m := by
  induction h with
  | nil => simp
  | @cons c m C ms h t ih =>
    intro m'
    rw [List.mem_cons, ih m']
    simp only [List.mem_cons, exists_eq_or_imp, h, Option.some.injEq]
    exact or_congr_left eq_comm

omit [LinearOrder N] [LinearOrder V] [LinearOrder ε] in
theorem at_exists (C : Composite N κ ν V ε E P) (l : Loc κ ν) :
    (∃ ms, At C l ms) ↔ ∀ c ∈ C, ∃ m, modeOf c.2 l = some m := by
  induction C with
  | nil => exact ⟨fun _ => by simp, fun _ => ⟨[], .nil⟩⟩
  | cons c C ih =>
    rw [List.forall_mem_cons, ← ih]
    constructor
    · rintro ⟨_, _ | ⟨h, t⟩⟩
      exact ⟨⟨_, h⟩, _, t⟩
    · rintro ⟨⟨m, h⟩, ms, t⟩
      exact ⟨m :: ms, .cons h t⟩

omit [LinearOrder N] [LinearOrder V] [LinearOrder ε] in
theorem cModes_ok {C : Composite N κ ν V ε E P} {l : Loc κ ν} {ms : List (Mode κ ν V ε E P)} :
    cModes l C = .ok ms ↔ At C l ms := by
  induction C generalizing ms with
  | nil =>
    rw [cModes]
    constructor
    · intro h; cases h; exact .nil
    · rintro ⟨⟩; rfl
  | cons c C ih =>
    rw [cModes]
    cases hm : modeOf c.2 l with
    | none =>
      simp only [reduceCtorEq, false_iff]
      rintro (_ | ⟨h, _⟩)
      rw [hm] at h; cases h
    | some m =>
      simp only
      cases hc : cModes l C with
      | error e =>
        simp only [reduceCtorEq, false_iff]
        rintro (_ | ⟨_, t⟩)
        rw [ih.2 t] at hc; cases hc
      | ok ms' =>
        simp only [Except.ok.injEq]
        constructor
        · rintro rfl; exact .cons hm (ih.1 hc)
        · rintro (_ | ⟨h, t⟩)
          rw [hm] at h
          rw [Option.some.inj h, At.unique (ih.1 hc) t]

theorem At.wf (hC : ∀ c ∈ C, WF L c.2) {l : Loc κ ν} {ms : List (Mode κ ν V ε E P)} (h : At C l ms) :
    ∀ m ∈ ms, ModeWF L m ∧ Extends m.loc l := by
  intro m hm
  obtain ⟨c, hc, he⟩ := (h.mem m).1 hm
  obtain ⟨q, hq, hx⟩ := (hC c hc).modeOf_iff.1 he
  exact ⟨(hC c hc).modes q m hq, by rw [(hC c hc).loc q m hq]; exact hx⟩

/-! ### Merging -/

omit [LinearOrder ν] [LinearOrder V] [LinearOrder N] in
theorem foldl_mset_spec {α : Type*} (d : α) (f : α → α → α) : ∀ (ts r : List (ε × α)), SortedKeys ts → SortedKeys r →
    SortedKeys (ts.foldl (fun r p => Container.mset p.1 (f ((find p.1 r).getD d) p.2) r) r) ∧
    ∀ e, find e (ts.foldl (fun r p => Container.mset p.1 (f ((find p.1 r).getD d) p.2) r) r) =
      match find e ts with
      | some t => some (f ((find e r).getD d) t)
      | none => find e r := by
  intro ts
  induction ts with
  | nil => intro r _ hr; exact ⟨hr, fun e => by simp [find]⟩
  | cons p ts ih =>
    intro r hts hr
    obtain ⟨k, t⟩ := p
    obtain ⟨h1, h2⟩ := ih (Container.mset k (f ((find k r).getD d) t) r) hts.tail hr.mset
    refine ⟨h1, fun e => ?_⟩
    rw [List.foldl_cons, h2 e]
    have hk : find k ts = none := by
      cases hf : find k ts with
      | none => rfl
      | some t' =>
        have := (List.pairwise_cons.1 hts).1 _ ((find_iff hts.tail).1 hf)
        exact absurd this (lt_irrefl _)
    by_cases he : e = k
    · subst he
      rw [hk, (find_iff hts).2 (List.mem_cons_self ..)]
      simp [find_mset hr]
    · have hfc : find e ((k, t) :: ts) = find e ts := by
        cases hf : find e ts with
        | some t' => exact (find_iff hts).2 (List.mem_cons_of_mem _ ((find_iff hts.tail).1 hf))
        | none =>
          cases hg : find e ((k, t) :: ts) with
          | none => rfl
          | some t' =>
            rcases List.mem_cons.1 ((find_iff hts).1 hg) with h | h
            · exact absurd (Prod.mk.inj h).1 he
            · rw [(find_iff hts.tail).2 h] at hf; cases hf
      rw [hfc, find_mset hr, if_neg he]

/-- The maps of a mode are sorted. -/
structure SortedMode (m : Mode κ ν V ε E P) : Prop where
  invs : SortedKeys m.invs
  guards : SortedKeys m.guards
  kinds : SortedKeys m.kinds
  targets : SortedKeys m.targets
  resets : SortedKeys m.resets

theorem ModeWF.sortedMode {m : Mode κ ν V ε E P} (h : ModeWF L m) : SortedMode m :=
  ⟨h.sInvs, h.sGuards, h.sKinds, h.sTargets, h.sResets⟩

omit [LinearOrder ν] in
theorem or_findSome {α β : Type*} (o : Option β) (m : α) (ms : List α) (f : α → Option β) :
    (o.or (f m)).or (ms.findSome? f) = o.or ((m :: ms).findSome? f) := by
  rw [List.findSome?_cons]
  cases o <;> cases f m <;> rfl

/-- The general step of the loop of `_cache_mode`. -/
theorem foldl_mergeMode (ms : List (Mode κ ν V ε E P)) : ∀ acc : Mode κ ν V ε E P, SortedMode acc →
    (∀ m ∈ ms, SortedMode m) →
    let r := ms.foldl mergeMode acc
    SortedMode r ∧ (∀ k, r.loc.get k = (acc.loc.get k).or (ms.findSome? fun m => m.loc.get k)) ∧
    r.aux = acc.aux ++ ms.flatMap (·.aux) ∧ r.dyn = acc.dyn ++ ms.flatMap (·.dyn) ∧
    (∀ e, find e r.invs = (find e acc.invs).or (ms.findSome? fun m => find e m.invs)) ∧
    (∀ e, find e r.guards = (find e acc.guards).or (ms.findSome? fun m => find e m.guards)) ∧
    (∀ e, find e r.kinds = (find e acc.kinds).or (ms.findSome? fun m => find e m.kinds)) ∧
    (∀ e, (find e r.targets).isSome ↔ (find e acc.targets).isSome ∨ ∃ m ∈ ms, (find e m.targets).isSome) ∧
    (∀ e t, find e r.targets = some t → ∀ k, t.get k =
      ((find e acc.targets).bind (·.get k)).or (ms.findSome? fun m => (find e m.targets).bind (·.get k))) ∧
    (∀ e, (find e r.resets).isSome ↔ (find e acc.resets).isSome ∨ ∃ m ∈ ms, (find e m.resets).isSome) ∧
    (∀ e t, find e r.resets = some t → t =
      (find e acc.resets).getD [] ++ ms.flatMap fun m => (find e m.resets).getD []) := by
  induction ms with
  | nil =>
    intro acc ha _
    refine ⟨ha, ?_, ?_, ?_, ?_, ?_, ?_, ?_, ?_, ?_, ?_⟩ <;> simp
    · intro e t h k; rw [h]; rfl
    · intro e t h; rw [h]; rfl
  | cons m ms ih =>
    intro acc ha hms
    have hm := hms m (by simp)
    have i1 := madjoin_spec ha.invs hm.invs
    have i2 := madjoin_spec ha.guards hm.guards
    have i3 := madjoin_spec ha.kinds hm.kinds
    have i4 := foldl_mset_spec (Loc.empty : Loc κ ν) Loc.join m.targets acc.targets hm.targets ha.targets
    have i5 := foldl_mset_spec ([] : List (V × E)) (· ++ ·) m.resets acc.resets hm.resets ha.resets
    have hacc : SortedMode (mergeMode acc m) := ⟨i1.1, i2.1, i3.1, i4.1, i5.1⟩
    obtain ⟨h0, h1, h2, h3, h4, h5, h6, h7, h8, h9, h10⟩ := ih (mergeMode acc m) hacc fun x hx => hms x (by simp [hx])
    have j4 : ∀ e, find e (mergeMode acc m).targets = _ := i4.2
    have j5 : ∀ e, find e (mergeMode acc m).resets = _ := i5.2
    rw [List.foldl_cons]
    refine ⟨h0, fun k => ?_, ?_, ?_, fun e => ?_, fun e => ?_, fun e => ?_, fun e => ?_, fun e t ht k => ?_, fun e => ?_,
      fun e t ht => ?_⟩
    · rw [h1 k]
      have : (mergeMode acc m).loc.get k = (acc.loc.get k).or (m.loc.get k) := (C62_join acc.loc m.loc).1 k
      rw [this]
      exact or_findSome _ m ms fun m => m.loc.get k
    · rw [h2]; simp [mergeMode]
    · rw [h3]; simp [mergeMode]
    · rw [h4 e]
      rw [show find e (mergeMode acc m).invs = _ from i1.2 e]
      exact or_findSome _ m ms fun m => find e m.invs
    · rw [h5 e]
      rw [show find e (mergeMode acc m).guards = _ from i2.2 e]
      exact or_findSome _ m ms fun m => find e m.guards
    · rw [h6 e]
      rw [show find e (mergeMode acc m).kinds = _ from i3.2 e]
      exact or_findSome _ m ms fun m => find e m.kinds
    · rw [h7 e, j4 e]
      simp only [List.mem_cons, exists_eq_or_imp]
      cases find e m.targets <;> simp
    · rw [h8 e t ht k, j4 e, ← or_findSome]
      cases hf : find e m.targets with
      | none => simp
      | some t' =>
        simp only [Option.bind_some]
        rw [(C62_join _ _).1 k]
        cases find e acc.targets with
        | none => simp [Loc.empty, Loc.get, find]
        | some q => simp
    · rw [h9 e, j5 e]
      simp only [List.mem_cons, exists_eq_or_imp]
      cases find e m.resets <;> simp
    · rw [h10 e t ht, j5 e]
      cases hf : find e m.resets with
      | none => simp [hf]
      | some t' => simp [hf]

theorem merged_foldl {ms : List (Mode κ ν V ε E P)} (h : ∀ m ∈ ms, SortedMode m) :
    Merged ms (ms.foldl mergeMode emptyMode) ∧ SortedMode (ms.foldl mergeMode emptyMode) := by
  obtain ⟨h0, h1, h2, h3, h4, h5, h6, h7, h8, h9, h10⟩ := foldl_mergeMode ms emptyMode
    ⟨SortedKeys.nil, SortedKeys.nil, SortedKeys.nil, SortedKeys.nil, SortedKeys.nil⟩ h
  refine ⟨⟨fun k => ?_, ?_, ?_, fun e => ?_, fun e => ?_, fun e => ?_, fun e => ?_, fun e t ht k => ?_, fun e => ?_⟩, h0⟩
  · rw [h1]; simp [emptyMode, Loc.empty, Loc.get, find]
  · rw [h2]; simp [emptyMode]
  · rw [h3]; simp [emptyMode]
  · rw [h4]; simp [emptyMode, find]
  · rw [h5]; simp [emptyMode, find]
  · rw [h6]; simp [emptyMode, find]
  · rw [h7]; simp [emptyMode, find]
  · rw [h8 e t ht]; simp [emptyMode, find]
  · have h9' : (find e (ms.foldl mergeMode emptyMode).resets).isSome ↔ ∃ m ∈ ms, (find e m.resets).isSome := by
      rw [h9 e]; simp [emptyMode, find]
    cases hf : find e (ms.foldl mergeMode emptyMode).resets with
    | none =>
      rw [if_neg]
      rw [← h9', hf]
      simp
    | some t =>
      rw [if_pos (by rw [← h9', hf]; rfl), h10 e t hf]
      simp [emptyMode, find]

omit [LinearOrder κ] [LinearOrder ν] [LinearOrder V] [LinearOrder N] in
theorem mem_keys_find {α : Type*} {s : List (ε × α)} (h : SortedKeys s) (e : ε) : e ∈ keys s ↔ (find e s).isSome := by
  rw [mem_keys_iff h, hasKey]

omit [LinearOrder ν] in
theorem isSome_findSome {α β : Type*} (ms : List α) (f : α → Option β) :
    (ms.findSome? f).isSome ↔ ∃ m ∈ ms, (f m).isSome := by
  rw [List.findSome?_isSome_iff]

/-- C65: `mode` succeeds exactly if every component has a mode in the location, every guard has a transition and every
transition a guard, where these may be in different components; the result is made from the modes of the components. -/
theorem C65_mode (hC : ∀ c ∈ C, WF L c.2) (l : Loc κ ν) :
    (∀ r, cMode C l = .ok r → ∃ ms, At C l ms ∧ Matched ms ∧ Merged ms r ∧ SortedMode r) ∧
    (∀ ms, At C l ms → Matched ms → ∃ r, cMode C l = .ok r) := by
  have key : ∀ ms, At C l ms →
      (Matched ms → cMode C l = .ok (ms.foldl mergeMode emptyMode)) ∧
      (∀ r, cMode C l = .ok r → Matched ms ∧ r = ms.foldl mergeMode emptyMode) := by
    intro ms hat
    have hw := hat.wf hC
    obtain ⟨hm, hs⟩ := merged_foldl fun m h => (hw m h).1.sortedMode
    rw [cMode, cModes_ok.2 hat]
    simp only
    generalize hr : ms.foldl mergeMode emptyMode = r at hm hs
    have hk : adjoin (keys r.invs) (keys r.guards) = keys r.kinds := by
      refine (C61_set_ext (adjoin_sorted (keys_spec _).1 _) (keys_spec _).1).2 fun e => ?_
      rw [mem_adjoin, mem_keys_find hs.invs, mem_keys_find hs.guards, mem_keys_find hs.kinds, hm.invs, hm.guards,
        hm.kinds, isSome_findSome, isSome_findSome, isSome_findSome, ← exists_or]
      refine exists_congr fun m => ?_
      rw [← and_or_left]
      refine and_congr_right fun h => ?_
      rw [(hw m h).1.kinds]
    have htr : ∀ e, (∃ m ∈ ms, (find e m.targets).isSome) ↔ ∃ m ∈ ms, (find e m.resets).isSome := fun e =>
      exists_congr fun m => and_congr_right fun h => (hw m h).1.resets e
    have hres : ∀ e, (find e r.resets).isSome ↔ ∃ m ∈ ms, (find e m.resets).isSome := fun e => by
      rw [hm.resets e]
      split_ifs with h <;> simpa using h
    have ht : keys r.targets = keys r.resets := by
      refine (C61_set_ext (keys_spec _).1 (keys_spec _).1).2 fun e => ?_
      rw [mem_keys_find hs.targets, mem_keys_find hs.resets, hm.hasTarget, htr, hres]
    have hsub : Container.subset (keys r.guards) (keys r.resets) = true ↔
        ∀ e, (∃ m ∈ ms, (find e m.guards).isSome) → ∃ m ∈ ms, (find e m.targets).isSome := by
      rw [Container.subset, List.all_eq_true]
      refine forall_congr' fun e => ?_
      rw [contains_iff (keys_spec _).1, mem_keys_find hs.guards, mem_keys_find hs.resets, hres, ← htr, hm.guards,
        isSome_findSome]
    have heq : keys r.guards = keys r.resets ↔ Matched ms := by
      rw [C61_set_ext (keys_spec _).1 (keys_spec _).1, Matched]
      refine forall_congr' fun e => ?_
      rw [mem_keys_find hs.guards, mem_keys_find hs.resets, hres, ← htr, hm.guards, isSome_findSome]
    rw [if_neg (not_not.2 hk), if_neg (not_not.2 ht)]
    constructor
    · intro hM
      rw [if_neg, if_neg (not_not.2 (heq.2 hM))]
      rw [Bool.not_eq_true', Bool.not_eq_false]
      exact hsub.2 fun e => (hM e).1
    · intro r' h
      split_ifs at h with h1 h2
      cases h
      exact ⟨heq.1 (not_not.1 h2), rfl⟩
  refine ⟨fun r h => ?_, fun ms hat hM => ⟨_, (key ms hat).1 hM⟩⟩
  have : ∃ ms, At C l ms := by
    rw [cMode] at h
    cases hc : cModes l C with
    | error e => rw [hc] at h; cases h
    | ok ms => exact ⟨ms, cModes_ok.1 hc⟩
  obtain ⟨ms, hat⟩ := this
  obtain ⟨h1, rfl⟩ := (key ms hat).2 r h
  obtain ⟨h2, h3⟩ := merged_foldl fun m hm => ((hat.wf hC) m hm).1.sortedMode
  exact ⟨ms, hat, h1, h2, h3⟩

/-- C65: `events` fails exactly if `mode` does; otherwise it is the union of the events of the components. -/
theorem C65_events (hC : ∀ c ∈ C, WF L c.2) (l : Loc κ ν) :
    ((∃ es, cEvents C l = some es) ↔ ∃ ms, At C l ms ∧ Matched ms) ∧
    ∀ es, cEvents C l = some es → Sorted es ∧
      ∀ e, e ∈ es ↔ ∃ c ∈ C, ∃ es', events c.2 l = some es' ∧ e ∈ es' := by
  obtain ⟨h1, h2⟩ := C65_mode hC l
  constructor
  · rw [cEvents]
    cases hm : cMode C l with
    | error e =>
      simp only [reduceCtorEq, exists_false, false_iff]
      rintro ⟨ms, ha, hM⟩
      obtain ⟨r, hr⟩ := h2 ms ha hM
      rw [hm] at hr; cases hr
    | ok r =>
      obtain ⟨ms, ha, hM, -⟩ := h1 r hm
      simp only [Option.some.injEq, exists_eq', true_iff]
      exact ⟨ms, ha, hM⟩
  · intro es hes
    rw [cEvents] at hes
    cases hm : cMode C l with
    | error e => rw [hm] at hes; cases hes
    | ok r =>
      rw [hm] at hes
      simp only [Option.some.injEq] at hes
      subst hes
      obtain ⟨ms, ha, hM, hr, hs⟩ := h1 r hm
      refine ⟨adjoin_sorted (adjoin_sorted (keys_spec _).1 _) _, fun e => ?_⟩
      rw [Mode.events, mem_adjoin, mem_adjoin, mem_keys_find hs.invs, mem_keys_find hs.guards, mem_keys_find hs.targets,
        hr.invs, hr.guards, hr.hasTarget, isSome_findSome, isSome_findSome]
      have hev : ∀ m ∈ ms, (e ∈ m.events ↔ ((find e m.invs).isSome ∨ (find e m.guards).isSome) ∨
          (find e m.targets).isSome) := fun m hm => by
        have w := (ha.wf hC m hm).1
        rw [Mode.events, mem_adjoin, mem_adjoin, mem_keys_find w.sInvs, mem_keys_find w.sGuards,
          mem_keys_find w.sTargets]
      constructor
      · intro h
        have : ∃ m ∈ ms, e ∈ m.events := by
          rcases h with (⟨m, hm, h⟩ | ⟨m, hm, h⟩) | ⟨m, hm, h⟩
          · exact ⟨m, hm, (hev m hm).2 (Or.inl (Or.inl h))⟩
          · exact ⟨m, hm, (hev m hm).2 (Or.inl (Or.inr h))⟩
          · exact ⟨m, hm, (hev m hm).2 (Or.inr h)⟩
        obtain ⟨m, hm, h⟩ := this
        obtain ⟨c, hc, hcm⟩ := (ha.mem m).1 hm
        exact ⟨c, hc, m.events, by rw [events, hcm]; rfl, h⟩
      · rintro ⟨c, hc, es', he, h⟩
        rw [events, Option.map_eq_some_iff] at he
        obtain ⟨m, hcm, rfl⟩ := he
        have hm := (ha.mem m).2 ⟨c, hc, hcm⟩
        rcases (hev m hm).1 h with (h | h) | h
        · exact Or.inl (Or.inl ⟨m, hm, h⟩)
        · exact Or.inl (Or.inr ⟨m, hm, h⟩)
        · exact Or.inr ⟨m, hm, h⟩

/-- C65: the kind of an event is that which the first component with a guard or invariant for it gives.  Missing for the
full claim: that it is urgent if one of the components gives an urgent kind (`C65_event_kind_counterexample`). -/
theorem C65_event_kind_partial (hC : ∀ c ∈ C, WF L c.2) (l : Loc κ ν) (e : ε) (es : List ε)
    (he : cEvents C l = some es) : cEventKind C l e = C.findSome? fun c => eventKind c.2 l e := by
  obtain ⟨ms, ha, hM⟩ := (C65_events hC l).1.1 ⟨es, he⟩
  obtain ⟨r, hr⟩ := (C65_mode hC l).2 ms ha hM
  obtain ⟨ms', ha', -, hm, -⟩ := (C65_mode hC l).1 r hr
  rw [At.unique ha' ha] at hm
  rw [cEventKind, hr]
  simp only
  rw [hm.kinds]
  clear he hM hr hm ha' hC
  induction ha with
  | nil => rfl
  | @cons c m C ms h t ih =>
    rw [List.findSome?_cons, List.findSome?_cons, ih, eventKind, h]
    rfl

/-! ### Locations -/

omit [LinearOrder V] [LinearOrder ε] [LinearOrder N] in
theorem cHasModeLoop_eq (l : Loc κ ν) : ∀ (C : Composite N κ ν V ε E P) (acc : Loc κ ν),
    (∀ ms, At C l ms → cHasModeLoop l C acc = some (ms.foldl (fun a m => a.join m.loc) acc)) ∧
    ((¬ ∃ ms, At C l ms) → cHasModeLoop l C acc = none) := by
  intro C
  induction C with
  | nil =>
    intro acc
    refine ⟨?_, fun h => absurd ⟨[], .nil⟩ h⟩
    rintro _ ⟨⟩
    rfl
  | cons c C ih =>
    intro acc
    have hp : hasPartialMode c.2 l = (modeOf c.2 l).isSome := by
      rw [hasPartialMode, modeOf, Option.isSome_map, Bool.eq_iff_iff, List.any_eq_true, List.find?_isSome]
    constructor
    · rintro _ (_ | ⟨h, t⟩)
      rw [cHasModeLoop, hp, h]
      simpa using (ih _).1 _ t
    · intro hno
      rw [cHasModeLoop, hp]
      cases hm : modeOf c.2 l with
      | none => simp
      | some m =>
        simp only [Option.isSome_some, Bool.not_true, Bool.false_eq_true, if_false]
        exact (ih _).2 fun ⟨ms, h⟩ => hno ⟨m :: ms, .cons hm h⟩

omit [LinearOrder V] [LinearOrder ε] in
theorem foldl_join_get (ls : List (Loc κ ν)) : ∀ (acc : Loc κ ν) (k : κ),
    (ls.foldl Loc.join acc).get k = (acc.get k).or (ls.findSome? fun m => m.get k) := by
  induction ls with
  | nil => intro acc k; simp
  | cons m ms ih =>
    intro acc k
    rw [List.foldl_cons, ih, (C62_join _ _).1, or_findSome (acc.get k) m ms fun m => m.get k]

/-- C65: `has_mode` never fails.  It tells whether every component has a mode in the location and the location gives no
variables besides those of the components. -/
theorem C65_has_mode (hC : ∀ c ∈ C, WF L c.2) (l : Loc κ ν) :
    ∃ b, cHasMode C l = some b ∧ (b = true ↔ ∃ ms, At C l ms ∧ ∀ k v, l.get k = some v → ∃ m ∈ ms, m.loc.get k = some v) := by
  rw [cHasMode]
  by_cases h : ∃ ms, At C l ms
  · obtain ⟨ms, ha⟩ := h
    rw [(cHasModeLoop_eq l C Loc.empty).1 ms ha]
    simp only
    have hfold : ms.foldl (fun a m => a.join m.loc) Loc.empty = (ms.map (·.loc)).foldl Loc.join Loc.empty := by
      rw [List.foldl_map]
    have hget : ∀ k, (ms.foldl (fun a m => a.join m.loc) Loc.empty).get k = ms.findSome? fun m => m.loc.get k := by
      intro k
      rw [hfold, foldl_join_get, List.findSome?_map]
      rfl
    generalize hq : ms.foldl (fun a m => a.join m.loc) Loc.empty = q at hget
    have hw := ha.wf hC
    have hext : Extends q l := by
      intro k v hv
      rw [hget] at hv
      obtain ⟨m, hm, hmv⟩ := List.exists_of_findSome?_eq_some hv
      exact (hw m hm).2 k v hmv
    rw [if_pos ((isRestriction_iff q l).2 hext)]
    refine ⟨_, rfl, ?_⟩
    rw [Loc.areSame, decide_eq_true_eq]
    constructor
    · intro he
      refine ⟨ms, ha, fun k v hv => ?_⟩
      rw [← Loc.ext he, hget] at hv
      exact List.exists_of_findSome?_eq_some hv
    · rintro ⟨ms', ha', hx⟩
      rw [← ha.unique ha'] at hx
      refine congrArg Loc.vals (Loc.ext_get fun k => ?_)
      cases hl : l.get k with
      | none =>
        cases hqk : q.get k with
        | none => rfl
        | some v => rw [hext k v hqk] at hl; cases hl
      | some v =>
        obtain ⟨m, hm, hmv⟩ := hx k v hl
        have : (ms.findSome? fun m => m.loc.get k).isSome :=
          (isSome_findSome ms _).2 ⟨m, hm, by rw [hmv]; rfl⟩
        rw [← hget, Option.isSome_iff_exists] at this
        obtain ⟨w, hw'⟩ := this
        rw [hw', ← hl, hext k w hw']
  · rw [(cHasModeLoop_eq l C Loc.empty).2 h]
    refine ⟨false, rfl, ?_⟩
    simp only [Bool.false_eq_true, false_iff]
    rintro ⟨ms, ha, -⟩
    exact h ⟨ms, ha⟩

/-- C65: `has_partial_mode` tells whether every component has a mode in the location; `has_invariant`, `has_guard` and
`has_transition` whether some component has an invariant, guard or transition. -/
theorem C65_queries (hC : ∀ c ∈ C, WF L c.2) (l : Loc κ ν) (e : ε) :
    (cHasPartialMode C l = true ↔ ∃ ms, At C l ms) ∧
    (cHasInvariant C l e = true ↔ ∃ c ∈ C, ∃ m, modeOf c.2 l = some m ∧ (find e m.invs).isSome) ∧
    (cHasGuard C l e = true ↔ ∃ c ∈ C, ∃ m, modeOf c.2 l = some m ∧ (find e m.guards).isSome) ∧
    (cHasTransition C l e = true ↔ ∃ c ∈ C, ∃ m, modeOf c.2 l = some m ∧ (find e m.targets).isSome) := by
  have hp : ∀ c ∈ C, ∀ m, modeOf c.2 l = some m → hasPartialMode c.2 l = true := fun c hc m hm =>
    (C63_mode (hC c hc) l).2.2.2.2.2 ⟨m, hm⟩
  refine ⟨?_, ?_, ?_, ?_⟩
  · rw [at_exists, cHasPartialMode, List.all_eq_true]
    exact forall₂_congr fun c hc => (C63_mode (hC c hc) l).2.2.2.2
  all_goals
    simp only [cHasInvariant, cHasGuard, cHasTransition, List.any_eq_true]
    refine exists_congr fun c => and_congr_right fun hc => ?_
    simp only [hasInvariant, hasGuard, hasTransition]
    cases hm : modeOf c.2 l with
    | none => simp
    | some m => simp [hp c hc m hm, hasKey]

omit [LinearOrder V] [LinearOrder N] in
theorem cTargetLoop_eq (l : Loc κ ν) (e : ε) : ∀ (C : Composite N κ ν V ε E P) (acc : Loc κ ν),
    (∀ ms, At C l ms → cTargetLoop l e C acc = some ((ms.map (Mode.next e)).foldl Loc.join acc)) ∧
    ((¬ ∃ ms, At C l ms) → cTargetLoop l e C acc = none) := by
  intro C
  induction C with
  | nil =>
    intro acc
    refine ⟨?_, fun h => absurd ⟨[], .nil⟩ h⟩
    rintro _ ⟨⟩
    rfl
  | cons c C ih =>
    intro acc
    have hnext : ∀ m : Mode κ ν V ε E P, modeOf c.2 l = some m →
        cTargetLoop l e (c :: C) acc = cTargetLoop l e C (acc.join (m.next e)) := fun m hm => by
      rw [cTargetLoop, hm, Mode.next]
      simp only
      cases find e m.targets <;> rfl
    constructor
    · rintro _ (_ | ⟨h, t⟩)
      rw [hnext _ h]
      simpa using (ih _).1 _ t
    · intro hno
      cases hm : modeOf c.2 l with
      | none => rw [cTargetLoop, hm]
      | some m =>
        rw [hnext _ hm]
        exact (ih _).2 fun ⟨ms, h⟩ => hno ⟨m :: ms, .cons hm h⟩

/-- C65: `target` fails exactly if a component has no mode in the location.  Each variable of the target is that of the
first component whose next location (its target or, without a transition, its own location) has this variable. -/
theorem C65_target (C : Composite N κ ν V ε E P) (l : Loc κ ν) (e : ε) :
    ((∃ t, cTarget C l e = some t) ↔ ∃ ms, At C l ms) ∧
    ∀ ms t, At C l ms → cTarget C l e = some t → ∀ k, t.get k = ms.findSome? fun m => (m.next e).get k := by
  constructor
  · by_cases h : ∃ ms, At C l ms
    · obtain ⟨ms, ha⟩ := h
      rw [cTarget, (cTargetLoop_eq l e C Loc.empty).1 ms ha]
      exact ⟨fun _ => ⟨ms, ha⟩, fun _ => ⟨_, rfl⟩⟩
    · rw [cTarget, (cTargetLoop_eq l e C Loc.empty).2 h]
      simp only [reduceCtorEq, exists_false, false_iff]
      exact h
  · intro ms t ha ht k
    rw [cTarget, (cTargetLoop_eq l e C Loc.empty).1 ms ha] at ht
    rw [← Option.some.inj ht, foldl_join_get, List.findSome?_map]
    rfl

/-- C65: if the next locations of the components agree on common variables, then each component moves to its own next
location: in the target of the composition, its mode is that of its next location.  (If they do not agree, some
component does not: `C65_target_counterexample`.) -/
theorem C65_target_components (hC : ∀ c ∈ C, WF L c.2) {l : Loc κ ν} {e : ε} {ms : List (Mode κ ν V ε E P)}
    (ha : At C l ms) (hd : ∀ m ∈ ms, ∀ m' ∈ ms, ¬ Distinct (m.next e) (m'.next e)) {t : Loc κ ν}
    (ht : cTarget C l e = some t) :
    ∀ c ∈ C, ∃ m mt, modeOf c.2 l = some m ∧ (m.next e, mt) ∈ c.2 ∧ modeOf c.2 t = some mt := by
  intro c hc
  have hget := (C65_target C l e).2 ms t ha ht
  obtain ⟨m, hm⟩ := (at_exists C l).1 ⟨ms, ha⟩ c hc
  have hmem : m ∈ ms := (ha.mem m).2 ⟨c, hc, hm⟩
  have h := hC c hc
  obtain ⟨q, hq, -⟩ := h.modeOf_iff.1 hm
  have hmt : ∃ mt, (m.next e, mt) ∈ c.2 := by
    rw [Mode.next]
    cases hf : find e m.targets with
    | none => exact ⟨m, by rw [Option.getD_none, h.loc q m hq]; exact hq⟩
    | some t' =>
      obtain ⟨mt, hmt, -⟩ := h.targets q m e t' hq hf
      exact ⟨mt, hmt⟩
  obtain ⟨mt, hmt⟩ := hmt
  refine ⟨m, mt, hm, hmt, h.modeOf_iff.2 ⟨_, hmt, fun k v hv => ?_⟩⟩
  rw [hget]
  have : (ms.findSome? fun m => (m.next e).get k).isSome := (isSome_findSome ms _).2 ⟨m, hmem, by rw [hv]; rfl⟩
  obtain ⟨w, hw⟩ := Option.isSome_iff_exists.1 this
  obtain ⟨m', hm', hv'⟩ := List.exists_of_findSome?_eq_some hw
  by_cases e' : v = w
  · rw [hw, e']
  · exact absurd ⟨k, v, w, hv, hv', e'⟩ (hd m hmem m' hm')

end Verif.Hybrid
