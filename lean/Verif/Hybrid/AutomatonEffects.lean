import Verif.Hybrid.AutomatonProps

/-!
# C63: the effect of each call on what can be observed of a hybrid automaton
-/

namespace Verif.Hybrid

open Verif.Container Ariadne.AlgebraicSort

variable {κ ν V ε E P : Type*} [LinearOrder κ] [LinearOrder ν] [LinearOrder V] [LinearOrder ε]

/-! ### What can be observed -/

/-- What an automaton says of an event in a location. -/
structure EventView (κ ν V E P : Type*) [LinearOrder κ] where
  inv : Option P
  guard : Option P
  kind : Option Kind
  target : Option (Loc κ ν)
  reset : Option (List (V × E))

/-- What a mode says of an event. -/
def Mode.view (m : Mode κ ν V ε E P) (e : ε) : EventView κ ν V E P :=
  ⟨find e m.invs, find e m.guards, find e m.kinds, find e m.targets, find e m.resets⟩

/-- What an automaton says of an event in a location; `none` if it has no mode there. -/
def view (A : Automaton κ ν V ε E P) (l : Loc κ ν) (e : ε) : Option (EventView κ ν V E P) :=
  (modeOf A l).map fun m => m.view e

/-- The algebraic and differential equations of a location. -/
def equations (A : Automaton κ ν V ε E P) (l : Loc κ ν) : Option (List (V × E) × List (V × E)) :=
  (modeOf A l).map fun m => (m.aux, m.dyn)

/-- `A'` is `A` with the given view of an event in a location and its extensions, and nothing else changed. -/
structure Changes (A A' : Automaton κ ν V ε E P) (l : Loc κ ν) (e : ε) (w : EventView κ ν V E P) : Prop where
  new : ∀ l', Extends l l' → view A' l' e = some w
  same : ∀ l' e', ¬ Extends l l' ∨ e' ≠ e → view A' l' e' = view A l' e'
  equations : ∀ l', equations A' l' = equations A l'
  locations : ∀ l', hasLocation A' l' = hasLocation A l'

variable {L : Lang V E P} {A : Automaton κ ν V ε E P}

theorem hasKey_isSome {α : Type*} (e : ε) (m : List (ε × α)) : hasKey e m = true ↔ (find e m).isSome := by
  rw [hasKey]

/-- C63: the public queries are determined by the view of an event in a location. -/
theorem C63_observers (h : WF L A) (l : Loc κ ν) (e : ε) :
    (hasInvariant A l e = true ↔ ∃ w, view A l e = some w ∧ w.inv.isSome) ∧
    (hasGuard A l e = true ↔ ∃ w, view A l e = some w ∧ w.guard.isSome) ∧
    (hasTransition A l e = true ↔ ∃ w, view A l e = some w ∧ w.target.isSome) ∧
    invariantPredicate L A l e = (view A l e).map (fun w => w.inv.getD L.ptrue) ∧
    guardPredicate L A l e = (view A l e).map (fun w => w.guard.getD L.ptrue) ∧
    eventKind A l e = (view A l e).bind (·.kind) ∧
    target A l e = some (((view A l e).bind (·.target)).getD l) ∧
    (∀ es, events A l = some es → (e ∈ es ↔ ∃ w, view A l e = some w ∧
      (w.inv.isSome ∨ w.guard.isSome ∨ w.target.isSome))) ∧
    (∀ var : V → E, resetAssignments var A l e = match view A l e with
      | none => none
      | some w => w.reset <|> (equations A l).map fun q => q.2.map fun a => (a.1, var a.1)) := by
  have hp := (C63_mode h l).2.2.2.2
  cases hm : modeOf A l with
  | none =>
    simp [hasInvariant, hasGuard, hasTransition, invariantPredicate, guardPredicate, eventKind, target, events,
      resetAssignments, view, hm]
  | some m =>
    obtain ⟨q, hq, _⟩ := h.modeOf_iff.1 hm
    have w := h.modes _ _ hq
    have hpt : hasPartialMode A l = true := hp.2 ⟨m, hm⟩
    have hr := w.resets e
    refine ⟨?_, ?_, ?_, ?_, ?_, ?_, ?_, ?_, ?_⟩
    · simp [hasInvariant, view, hm, hpt, hasKey, Mode.view]
    · simp [hasGuard, view, hm, hpt, hasKey, Mode.view]
    · simp [hasTransition, view, hm, hpt, hasKey, Mode.view]
    · simp [invariantPredicate, view, hm, Mode.view]
    · simp [guardPredicate, view, hm, Mode.view]
    · simp [eventKind, view, hm, Mode.view]
    · cases ht : find e m.targets <;> simp [target, hasTransition, view, hm, hpt, hasKey, Mode.view, ht]
    · intro es hes
      simp only [events, hm, Option.map_some, Option.some.injEq] at hes
      subst hes
      simp only [view, hm, Option.map_some, Option.some.injEq, exists_eq_left', Mode.view]
      rw [Mode.events, mem_adjoin, mem_adjoin, mem_keys_iff w.sInvs, mem_keys_iff w.sGuards, mem_keys_iff w.sTargets,
        or_assoc]
      rfl
    · intro var
      cases ht : find e m.targets <;> cases hrs : find e m.resets <;>
        simp [ht, hrs] at hr <;>
        simp [resetAssignments, hasTransition, view, equations, hm, hpt, hasKey, Mode.view, ht, hrs]

/-! ### The effect of each call -/

theorem WF.changes (h : WF L A) {l : Loc κ ν} {m m' : Mode κ ν V ε E P} {e : ε} (hm : (l, m) ∈ A)
    (hw : WF L (Container.mset l m' A)) (ha : m'.aux = m.aux) (hd : m'.dyn = m.dyn)
    (hv : ∀ e', e' ≠ e → m'.view e' = m.view e') : Changes A (Container.mset l m' A) l e (m'.view e) := by
  refine ⟨fun l' he => ?_, fun l' e' hor => ?_, fun l' => ?_, fun l' => ?_⟩
  · rw [view, ((h.modeOf_mset hm hw l').1 he).1]; rfl
  · by_cases he : Extends l l'
    · obtain ⟨h1, h2⟩ := (h.modeOf_mset hm hw l').1 he
      rw [view, view, h1, h2]
      simp only [Option.map_some]
      rw [hv e' (hor.resolve_left (not_not.2 he))]
    · rw [view, view, (h.modeOf_mset hm hw l').2 he]
  · by_cases he : Extends l l'
    · obtain ⟨h1, h2⟩ := (h.modeOf_mset hm hw l').1 he
      rw [equations, equations, h1, h2, Option.map_some, Option.map_some, ha, hd]
    · rw [equations, equations, (h.modeOf_mset hm hw l').2 he]
  · rw [Bool.eq_iff_iff, hw.hasLocation_iff, h.hasLocation_iff]
    constructor
    · rintro ⟨v, hv⟩
      rcases h.mem_mset.1 hv with ⟨rfl, _⟩ | ⟨_, hv⟩
      · exact ⟨m, hm⟩
      · exact ⟨v, hv⟩
    · rintro ⟨v, hv⟩
      by_cases he : l' = l
      · exact ⟨m', h.mem_mset.2 (Or.inl ⟨he, rfl⟩)⟩
      · exact ⟨v, h.mem_mset.2 (Or.inr ⟨he, hv⟩)⟩

omit [LinearOrder κ] [LinearOrder ν] [LinearOrder V] in
theorem find_minsert_new {α : Type*} {m : List (ε × α)} (h : SortedKeys m) {e : ε} (v : α) (hn : find e m = none) :
    find e (minsert e v m) = some v := by
  rw [find_minsert h, if_pos rfl, hn]; rfl

omit [LinearOrder κ] [LinearOrder ν] [LinearOrder V] in
theorem find_minsert_ne {α : Type*} {m : List (ε × α)} (h : SortedKeys m) {e e' : ε} (v : α) (hn : e' ≠ e) :
    find e' (minsert e v m) = find e' m := by
  rw [find_minsert h, if_neg hn]

theorem ModeWF.fresh {m : Mode κ ν V ε E P} (w : ModeWF L m) {e : ε} (h : find e m.kinds = none) :
    find e m.invs = none ∧ find e m.guards = none := by
  have := w.kinds e
  rw [h] at this
  simpa using this

/-- C63: `new_mode` succeeds exactly if the location is distinguishable from every other, no variable is defined twice,
and the algebraic equations have no loop; the location and its extensions then have a mode with these equations and no
events, and nothing else changes.  If it fails, the automaton is unchanged. -/
theorem C63_new_mode (h : WF L A) (l : Loc κ ν) (aux dyn : List (V × E)) :
    ((newMode L A l aux dyn).2 = none ↔ (∀ l', hasLocation A l' = true → Distinct l l') ∧
      (aux.map Prod.fst ++ dyn.map Prod.fst).Nodup ∧ ¬ Cyclic (aux.map (toEq L))) ∧
    ((newMode L A l aux dyn).2 ≠ none → (newMode L A l aux dyn).1 = A) ∧
    ((newMode L A l aux dyn).2 = none →
      (∀ l', hasLocation (newMode L A l aux dyn).1 l' = true ↔ l' = l ∨ hasLocation A l' = true) ∧
      (∀ l', Extends l l' → equations (newMode L A l aux dyn).1 l' = some (aux, dyn) ∧
        ∀ e, view (newMode L A l aux dyn).1 l' e = some ⟨none, none, none, none, none⟩) ∧
      (∀ l', ¬ Extends l l' → modeOf (newMode L A l aux dyn).1 l' = modeOf A l')) := by
  have hwf := h.newMode l aux dyn
  have hd : (A.any fun p => !l.areDistinguishable p.1) = false ↔ ∀ l', hasLocation A l' = true → Distinct l l' := by
    rw [List.any_eq_false]
    constructor
    · intro h1 l' hl'
      obtain ⟨m, hm⟩ := h.hasLocation_iff.1 hl'
      have := h1 _ hm
      rw [← (C62_distinguishable l l').1]
      simpa using this
    · rintro h1 ⟨l', m⟩ hm
      have := h1 l' (h.hasLocation_iff.2 ⟨m, hm⟩)
      rw [← (C62_distinguishable l l').1] at this
      simpa using this
  rw [newMode] at hwf ⊢
  cases h1 : A.any (fun p => !l.areDistinguishable p.1) with
  | true =>
    simp only [if_true]
    refine ⟨⟨fun h => by simp at h, fun h' => ?_⟩, fun _ => trivial, fun h => by simp at h⟩
    rw [hd.2 h'.1] at h1; cases h1
  | false =>
    simp only [h1, Bool.false_eq_true, if_false] at hwf ⊢
    by_cases h2 : (aux.map Prod.fst ++ dyn.map Prod.fst).Nodup
    · rw [(C61_unique _).2 h2] at hwf ⊢
      simp only [Bool.not_true, Bool.false_eq_true, if_false] at hwf ⊢
      have hs := (sortAux_eq L aux).2.2
      have hn' : ((aux.map (toEq L)).map (·.lhs)).Nodup := by
        have : (aux.map (toEq L)).map (·.lhs) = aux.map Prod.fst := by simp [toEq]
        rw [this]; exact (List.nodup_append.1 h2).1
      rw [C39_sort_ok_iff hn'] at hs
      cases e : mkMode (ε := ε) (P := P) L l aux dyn with
      | error err =>
        simp only
        refine ⟨⟨fun h => by simp at h, fun h' => ?_⟩, fun _ => trivial, fun h => by simp at h⟩
        obtain ⟨s, hs⟩ := hs.2 h'.2.2
        rw [mkMode, hs] at e
        cases e
      | ok m =>
        rw [e] at hwf
        simp only at hwf ⊢
        obtain ⟨m1, m2, m3, m4, m5, m6, m7, m8, mw⟩ := mkMode_ok h2 e
        have hnone : find l A = none := by
          cases e : find l A with
          | none => rfl
          | some n => exact absurd (hd.1 h1 l (h.hasLocation_iff.2 ⟨n, h.find_iff.1 e⟩)) (Distinct.irrefl l)
        refine ⟨⟨fun _ => ⟨hd.1 h1, h2, ?_⟩, fun _ => trivial⟩, fun h => absurd rfl h, fun _ => ⟨?_, ?_, ?_⟩⟩
        · rw [← hs]
          rw [mkMode] at e
          cases e' : sortAux L aux with
          | error _ => rw [e'] at e; cases e
          | ok s => exact ⟨s, rfl⟩
        · intro l'
          rw [hwf.hasLocation_iff, h.hasLocation_iff]
          constructor
          · rintro ⟨v, hv⟩
            rcases (h.mem_minsert hnone).1 hv with ⟨h3, _⟩ | h3
            · exact Or.inl h3
            · exact Or.inr ⟨v, h3⟩
          · rintro (h3 | ⟨v, h3⟩)
            · exact ⟨m, (h.mem_minsert hnone).2 (Or.inl ⟨h3, rfl⟩)⟩
            · exact ⟨v, (h.mem_minsert hnone).2 (Or.inr h3)⟩
        · intro l' he
          have := hwf.modeOf_iff.2 ⟨l, (h.mem_minsert hnone).2 (Or.inl ⟨rfl, rfl⟩), he⟩
          constructor
          · rw [equations, this, Option.map_some, m2, m3]
          · intro e
            rw [view, this, Option.map_some, Mode.view, m4, m5, m6, m7, m8]
            rfl
        · intro l' he
          ext n
          rw [hwf.modeOf_iff, h.modeOf_iff]
          constructor
          · rintro ⟨q, hq, he'⟩
            rcases (h.mem_minsert hnone).1 hq with ⟨rfl, _⟩ | hq
            · exact absurd he' he
            · exact ⟨q, hq, he'⟩
          · rintro ⟨q, hq, he'⟩
            exact ⟨q, (h.mem_minsert hnone).2 (Or.inr hq), he'⟩
    · have : uniqueElements (aux.map Prod.fst ++ dyn.map Prod.fst) = false := by
        rw [Bool.eq_false_iff]; exact fun hc => h2 ((C61_unique _).1 hc)
      rw [this]
      simp only [Bool.not_false, if_true]
      refine ⟨⟨fun h => by simp at h, fun h' => absurd h'.2.1 h2⟩, fun _ => trivial, fun h => by simp at h⟩

/-- The call fails and leaves the automaton unchanged. -/
def Fails (A : Automaton κ ν V ε E P) (r : Res κ ν V ε E P) : Prop := r.1 = A ∧ r.2 ≠ none

/-- C63: `new_invariant`, `new_guard` and `new_action` with an invariant succeed exactly if the location is one of the
automaton, in which the event has neither an invariant nor a guard; they then set these and the kind of the event in
the location and its extensions, and change nothing else.  If they fail, the automaton is unchanged. -/
theorem C63_constraints (h : WF L A) (l : Loc κ ν) (e : ε) (inv g : P) (k : Kind) :
    (∀ m, (l, m) ∈ A → find e m.kinds = none →
      ((newInvariant A l inv e).2 = none ∧ Changes A (newInvariant A l inv e).1 l e
        ⟨some inv, none, some .invariant, find e m.targets, find e m.resets⟩) ∧
      ((newGuard A l e g k).2 = none ∧ Changes A (newGuard A l e g k).1 l e
        ⟨none, some g, some k, find e m.targets, find e m.resets⟩) ∧
      ((newAction A l inv e g k).2 = none ∧ Changes A (newAction A l inv e g k).1 l e
        ⟨some inv, some g, some k, find e m.targets, find e m.resets⟩)) ∧
    ((¬ ∃ m, (l, m) ∈ A ∧ find e m.kinds = none) →
      Fails A (newInvariant A l inv e) ∧ Fails A (newGuard A l e g k) ∧ Fails A (newAction A l inv e g k)) := by
  constructor
  · intro m hm hk
    have w := h.modes _ _ hm
    obtain ⟨hi, hg⟩ := w.fresh hk
    have hf := h.find_iff.2 hm
    have hkf : hasKey e m.kinds = false := by rw [hasKey, hk]; rfl
    refine ⟨?_, ?_, ?_⟩
    · have hw := h.newInvariant l inv e
      rw [newInvariant, hf] at hw ⊢
      simp only [hkf, Bool.false_eq_true, if_false] at hw ⊢
      refine ⟨trivial, ?_⟩
      have := h.changes (e := e) hm hw rfl rfl fun e' he' => by
        simp only [Mode.view, find_minsert_ne w.sInvs inv he', find_minsert_ne w.sKinds _ he']
      simpa only [Mode.view, find_minsert_new w.sInvs inv hi, find_minsert_new w.sKinds _ hk, hg] using this
    · have hw := h.newGuard l e g k
      rw [newGuard, hf] at hw ⊢
      simp only [hkf, Bool.false_eq_true, if_false] at hw ⊢
      refine ⟨trivial, ?_⟩
      have := h.changes (e := e) hm hw rfl rfl fun e' he' => by
        simp only [Mode.view, find_minsert_ne w.sGuards g he', find_minsert_ne w.sKinds _ he']
      simpa only [Mode.view, find_minsert_new w.sGuards g hg, find_minsert_new w.sKinds _ hk, hi] using this
    · have hw := h.newAction l inv e g k
      rw [newAction, hf] at hw ⊢
      simp only [hkf, Bool.false_eq_true, if_false] at hw ⊢
      refine ⟨trivial, ?_⟩
      have := h.changes (e := e) hm hw rfl rfl fun e' he' => by
        simp only [Mode.view, find_minsert_ne w.sGuards g he', find_minsert_ne w.sKinds _ he',
          find_minsert_ne w.sInvs inv he']
      simpa only [Mode.view, find_minsert_new w.sGuards g hg, find_minsert_new w.sKinds _ hk,
        find_minsert_new w.sInvs inv hi] using this
  · intro hno
    rw [newInvariant, newGuard, newAction]
    cases hf : find l A with
    | none => simp [Fails]
    | some m =>
      have : hasKey e m.kinds = true := by
        rw [hasKey, Option.isSome_iff_ne_none]
        exact fun hc => hno ⟨m, h.find_iff.1 hf, hc⟩
      simp [Fails, this]

/-- C63: `set_invariant` and `set_guard` succeed exactly if the location is one of the automaton; they then set the
invariant or guard, and the kind of the event, in the location and its extensions, and change nothing else. -/
theorem C63_set_constraints (h : WF L A) (l : Loc κ ν) (e : ε) (inv g : P) (k : Kind) :
    (∀ m, (l, m) ∈ A →
      ((setInvariant A l inv e).2 = none ∧ Changes A (setInvariant A l inv e).1 l e
        ⟨some inv, find e m.guards, some .invariant, find e m.targets, find e m.resets⟩) ∧
      ((setGuard A l e g k).2 = none ∧ Changes A (setGuard A l e g k).1 l e
        ⟨find e m.invs, some g, some k, find e m.targets, find e m.resets⟩)) ∧
    (hasLocation A l = false → Fails A (setInvariant A l inv e) ∧ Fails A (setGuard A l e g k)) := by
  constructor
  · intro m hm
    have w := h.modes _ _ hm
    have hf := h.find_iff.2 hm
    refine ⟨?_, ?_⟩
    · have hw := h.setInvariant l inv e
      rw [setInvariant, hf] at hw ⊢
      simp only at hw ⊢
      refine ⟨trivial, ?_⟩
      have := h.changes (e := e) hm hw rfl rfl fun e' he' => by
        simp only [Mode.view, find_mset w.sInvs, find_mset w.sKinds, if_neg he']
      simpa only [Mode.view, find_mset w.sInvs, find_mset w.sKinds, if_true] using this
    · have hw := h.setGuard l e g k
      rw [setGuard, hf] at hw ⊢
      simp only at hw ⊢
      refine ⟨trivial, ?_⟩
      have := h.changes (e := e) hm hw rfl rfl fun e' he' => by
        simp only [Mode.view, find_mset w.sGuards, find_mset w.sKinds, if_neg he']
      simpa only [Mode.view, find_mset w.sGuards, find_mset w.sKinds, if_true] using this
  · intro hno
    have : find l A = none := by
      rw [hasLocation, hasKey] at hno
      simpa using hno
    simp [setInvariant, setGuard, this, Fails]

/-- C63: `new_update` succeeds exactly if source and target are locations of the automaton, the event has no transition
in the source yet, and the reset defines no variable twice and no auxiliary variable of the target; it then sets the
target and the reset, and changes nothing else.  If it fails, the automaton is unchanged. -/
theorem C63_update (h : WF L A) (s : Loc κ ν) (e : ε) (t : Loc κ ν) (reset : List (V × E)) :
    (∀ m mt, UpdateOK A s e t reset m mt → (newUpdate A s e t reset).2 = none ∧
      Changes A (newUpdate A s e t reset).1 s e
        ⟨find e m.invs, find e m.guards, find e m.kinds, some t, some reset⟩) ∧
    ((¬ ∃ m mt, UpdateOK A s e t reset m mt) → Fails A (newUpdate A s e t reset)) := by
  rcases h.newUpdate_cases s e t reset with ⟨err, he, hno⟩ | ⟨m, mt, ho, he⟩
  · rw [he]
    exact ⟨fun m mt ho => absurd ⟨m, mt, ho⟩ hno, fun _ => ⟨rfl, by simp⟩⟩
  · rw [he]
    refine ⟨fun m' mt' ho' => ⟨rfl, ?_⟩, fun hno => absurd ⟨m, mt, ho⟩ hno⟩
    obtain rfl := (h.unique ho'.source ho.source (Extends.refl s) (Extends.refl s)).2
    have w := h.modes _ _ ho.source
    have hr : find e m'.resets = none := by
      have h1 := w.resets e
      rw [ho.new] at h1
      simpa using h1
    have := h.changes (e := e) ho.source (h.update ho) rfl rfl fun e' he' => by
      simp only [Mode.view, find_minsert_ne w.sTargets t he', find_minsert_ne w.sResets _ he']
    simpa only [Mode.view, find_minsert_new w.sTargets t ho.new, find_minsert_new w.sResets _ hr] using this

/-- C63: `new_transition` succeeds exactly if the kind is urgent, impact or permissive, the event has neither an
invariant, a guard nor a transition in the source, and the target and reset are as required for `new_update`; it then
sets guard, kind, target and reset, and for an urgent or impact event the invariant to the negation of the guard, and
changes nothing else. -/
theorem C63_transition (h : WF L A) (s : Loc κ ν) (e : ε) (t : Loc κ ν) (reset : List (V × E)) (g : P) (k : Kind) :
    ((newTransition L A s e t reset g k).2 = none ↔ (k = .urgent ∨ k = .impact ∨ k = .permissive) ∧
      ∃ m mt, UpdateOK A s e t reset m mt ∧ find e m.kinds = none) ∧
    ((newTransition L A s e t reset g k).2 = none → Changes A (newTransition L A s e t reset g k).1 s e
      ⟨if k = .permissive then none else some (L.pnot g), some g, some k, some t, some reset⟩) := by
  by_cases hk : k = .urgent ∨ k = .impact ∨ k = .permissive
  swap
  · have h1 : ¬ (k = .urgent ∨ k = .impact) := fun hc => hk (by tauto)
    have h2 : k ≠ .permissive := fun hc => hk (by tauto)
    simp [newTransition, hk, h1, h2]
  · by_cases hm : ∃ m, (s, m) ∈ A ∧ find e m.kinds = none
    swap
    · obtain ⟨-, h2, h3⟩ := (C63_constraints h s e (L.pnot g) g k).2 hm
      have hr : ∀ r, Fails A r → r.2 ≠ none := fun r h => h.2
      have hne : (newTransition L A s e t reset g k).2 ≠ none := by
        rw [newTransition]
        have : (if k = .urgent ∨ k = .impact then newAction A s (L.pnot g) e g k
            else if k = .permissive then newGuard A s e g k else (A, some .unhandledKind)).2 ≠ none := by
          split_ifs
          · exact h3.2
          · exact h2.2
          · simp
        obtain ⟨err, herr⟩ := Option.ne_none_iff_exists'.1 this
        simp only [herr]
        simp
      refine ⟨⟨fun hc => absurd hc hne, ?_⟩, fun hc => absurd hc hne⟩
      rintro ⟨_, m, mt, ho, hkn⟩
      exact absurd ⟨m, ho.source, hkn⟩ hm
    · obtain ⟨m, hm, hkn⟩ := hm
      have w := h.modes _ _ hm
      obtain ⟨hi, hg⟩ := w.fresh hkn
      have hf := h.find_iff.2 hm
      have hkf : hasKey e m.kinds = false := by rw [hasKey, hkn]; rfl
      obtain ⟨m', hw', hr, hml, hma, hmd, hmt, hmr, hmv, hmi, hmg, hmk⟩ : ∃ m' : Mode κ ν V ε E P, WF L (mset s m' A) ∧
          (if k = .urgent ∨ k = .impact then newAction A s (L.pnot g) e g k
            else if k = .permissive then newGuard A s e g k else (A, some .unhandledKind)) = (mset s m' A, none) ∧
          m'.loc = m.loc ∧ m'.aux = m.aux ∧ m'.dyn = m.dyn ∧ m'.targets = m.targets ∧ m'.resets = m.resets ∧
          (∀ e', e' ≠ e → m'.view e' = m.view e') ∧
          find e m'.invs = (if k = .permissive then none else some (L.pnot g)) ∧ find e m'.guards = some g ∧
          find e m'.kinds = some k := by
        by_cases hp : k = .permissive
        · subst hp
          have hw := h.newGuard s e g .permissive
          rw [newGuard, hf] at hw ⊢
          simp only [hkf, Bool.false_eq_true, if_false] at hw ⊢
          refine ⟨_, hw, by simp, rfl, rfl, rfl, rfl, rfl, fun e' he' => ?_, ?_, ?_, ?_⟩
          · simp only [Mode.view, find_minsert_ne w.sGuards g he', find_minsert_ne w.sKinds _ he']
          · simpa using hi
          · exact find_minsert_new w.sGuards g hg
          · exact find_minsert_new w.sKinds _ hkn
        · have hk' : k = .urgent ∨ k = .impact := by tauto
          have hw := h.newAction s (L.pnot g) e g k
          rw [newAction, hf] at hw ⊢
          simp only [hkf, Bool.false_eq_true, if_false, if_pos hk'] at hw ⊢
          refine ⟨_, hw, rfl, rfl, rfl, rfl, rfl, rfl, fun e' he' => ?_, ?_, ?_, ?_⟩
          · simp only [Mode.view, find_minsert_ne w.sGuards g he', find_minsert_ne w.sKinds _ he',
              find_minsert_ne w.sInvs _ he']
          · simp only [hp, if_false]; exact find_minsert_new w.sInvs _ hi
          · exact find_minsert_new w.sGuards g hg
          · exact find_minsert_new w.sKinds _ hkn
      have hT : newTransition L A s e t reset g k = newUpdate (mset s m' A) s e t reset := by
        rw [newTransition, hr]
      have hc1 := h.changes (e := e) hm hw' hma hmd hmv
      have hU : ∀ mt, UpdateOK A s e t reset m mt → ∃ mt', UpdateOK (mset s m' A) s e t reset m' mt' := by
        intro mt ho
        by_cases hts : t = s
        · have : mt = m := (h.unique ho.target hm (hts ▸ Extends.refl t) (Extends.refl s)).2
          exact ⟨m', h.mem_mset.2 (Or.inl ⟨rfl, rfl⟩), h.mem_mset.2 (Or.inl ⟨hts, rfl⟩), hmt ▸ ho.new,
            by rw [hma, ← this]; exact ho.noAux, ho.once⟩
        · exact ⟨mt, h.mem_mset.2 (Or.inl ⟨rfl, rfl⟩), h.mem_mset.2 (Or.inr ⟨hts, ho.target⟩), hmt ▸ ho.new,
            ho.noAux, ho.once⟩
      have hU' : ∀ n nt, UpdateOK (mset s m' A) s e t reset n nt → n = m' ∧ ∃ mt, UpdateOK A s e t reset m mt := by
        intro n nt ho
        have hn : n = m' := by
          rcases h.mem_mset.1 ho.source with ⟨_, h'⟩ | ⟨h', _⟩
          · exact h'
          · exact absurd rfl h'
        subst hn
        refine ⟨rfl, ?_⟩
        rcases h.mem_mset.1 ho.target with ⟨hts, h'⟩ | ⟨hts, h'⟩
        · exact ⟨m, hm, hts ▸ hm, hmt ▸ ho.new, by rw [← hma, ← h']; exact ho.noAux, ho.once⟩
        · exact ⟨nt, hm, h', hmt ▸ ho.new, ho.noAux, ho.once⟩
      rw [hT]
      constructor
      · constructor
        · intro hn
          by_contra hc
          refine ((C63_update hw' s e t reset).2 ?_).2 hn
          rintro ⟨n, nt, ho⟩
          obtain ⟨_, mt, ho'⟩ := hU' n nt ho
          exact hc ⟨hk, m, mt, ho', hkn⟩
        · rintro ⟨_, n, mt, ho, _⟩
          obtain rfl := (h.unique ho.source hm (Extends.refl s) (Extends.refl s)).2
          obtain ⟨mt', ho'⟩ := hU mt ho
          exact ((C63_update hw' s e t reset).1 m' mt' ho').1
      · intro hn
        have hex : ∃ n nt, UpdateOK (mset s m' A) s e t reset n nt := by
          by_contra hc
          exact ((C63_update hw' s e t reset).2 hc).2 hn
        obtain ⟨n, nt, ho⟩ := hex
        obtain ⟨rfl, mt, -⟩ := hU' n nt ho
        have hc2 := ((C63_update hw' s e t reset).1 n nt ho).2
        rw [hmi, hmg, hmk] at hc2
        exact ⟨hc2.new, fun l' e' he' => (hc2.same l' e' he').trans (hc1.same l' e' he'),
          fun l' => (hc2.equations l').trans (hc1.equations l'),
          fun l' => (hc2.locations l').trans (hc1.locations l')⟩

/-- C63: a call which throws leaves the automaton unchanged, except for `new_transition`. -/
theorem C63_failure_atomic_partial (h : WF L A) (op : Op κ ν V ε E P)
    (hop : ∀ s e t reset g k, op ≠ .transition s e t reset g k) (hf : (step L A op).2 ≠ none) :
    (step L A op).1 = A := by
  cases op with
  | mode l aux dyn => exact (C63_new_mode h l aux dyn).2.1 hf
  | permissiveAction l inv e g k =>
    rw [step] at hf ⊢
    split_ifs at hf ⊢
    · by_cases hm : ∃ m, (l, m) ∈ A ∧ find e m.kinds = none
      · obtain ⟨m, hm, hk⟩ := hm
        exact absurd ((C63_constraints h l e inv g k).1 m hm hk).2.2.1 hf
      · exact ((C63_constraints h l e inv g k).2 hm).2.2.1
    · rfl
  | urgentAction l e g k =>
    rw [step] at hf ⊢
    split_ifs at hf ⊢
    · by_cases hm : ∃ m, (l, m) ∈ A ∧ find e m.kinds = none
      · obtain ⟨m, hm, hk⟩ := hm
        exact absurd ((C63_constraints h l e g g k).1 m hm hk).2.1.1 hf
      · exact ((C63_constraints h l e g g k).2 hm).2.1.1
    · rfl
  | invariant l inv e =>
    by_cases hm : ∃ m, (l, m) ∈ A ∧ find e m.kinds = none
    · obtain ⟨m, hm, hk⟩ := hm
      exact absurd ((C63_constraints h l e inv inv .invariant).1 m hm hk).1.1 hf
    · exact ((C63_constraints h l e inv inv .invariant).2 hm).1.1
  | guard l e g k =>
    by_cases hm : ∃ m, (l, m) ∈ A ∧ find e m.kinds = none
    · obtain ⟨m, hm, hk⟩ := hm
      exact absurd ((C63_constraints h l e g g k).1 m hm hk).2.1.1 hf
    · exact ((C63_constraints h l e g g k).2 hm).2.1.1
  | setInvariant l inv e =>
    by_cases hm : hasLocation A l = true
    · obtain ⟨m, hm⟩ := h.hasLocation_iff.1 hm
      exact absurd ((C63_set_constraints h l e inv inv .invariant).1 m hm).1.1 hf
    · exact ((C63_set_constraints h l e inv inv .invariant).2 (by simpa using hm)).1.1
  | setGuard l e g k =>
    by_cases hm : hasLocation A l = true
    · obtain ⟨m, hm⟩ := h.hasLocation_iff.1 hm
      exact absurd ((C63_set_constraints h l e g g k).1 m hm).2.1 hf
    · exact ((C63_set_constraints h l e g g k).2 (by simpa using hm)).2.1
  | update s e t reset =>
    by_cases hm : ∃ m mt, UpdateOK A s e t reset m mt
    · obtain ⟨m, mt, hm⟩ := hm
      exact absurd ((C63_update h s e t reset).1 m mt hm).1 hf
    · exact ((C63_update h s e t reset).2 hm).1
  | transition s e t reset g k => exact absurd rfl (hop s e t reset g k)

end Verif.Hybrid
