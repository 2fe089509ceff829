import Verif.Simulator.Hybrid
import Verif.Simulator.Props
import Mathlib.Data.List.Chain

/-!
# C101: the hybrid simulator follows executions of its system

The specification: an execution takes the first enabled event of a state, and flows for a step if no event is enabled.
-/

namespace Verif.Simulator.Hybrid

open Verif.Hybrid (Kind)

section

variable {L E P K : Type*} [LinearOrder K] [Zero K]

/-- spec: an event which can be taken at a point of a location -/
def Enabled (S : Sys L E P K) (l : L) (x : P) (e : E) : Prop :=
  ∃ k g, S.kind l e = some k ∧ k ≠ .invariant ∧ k ≠ .progress ∧ S.guard l e = some g ∧ 0 < g x

/-- spec: no function of an invariant or of a progress event is negative at the point -/
def Allowed (S : Sys L E P K) (l : L) (x : P) : Prop :=
  ∃ es, S.events l = some es ∧ ∀ e ∈ es, ∃ k g, S.kind l e = some k ∧ S.guard l e = some g ∧
    (k = .invariant ∨ k = .progress → 0 ≤ g x)

/-- spec: one step of an execution -/
inductive Step [Add K] (S : Sys L E P K) (h : K) : State L E P K → State L E P K → Prop
  | jump {s : State L E P K} {pre post : List E} {e : E} {l : L} {r : P → P} :
      S.events s.loc = some (pre ++ e :: post) → Enabled S s.loc s.pt e → (∀ d ∈ pre, ¬ Enabled S s.loc s.pt d) →
      S.target s.loc e = some l → S.reset s.loc e = some r → Step S h s ⟨l, r s.pt, s.time, s.steps + 1, some e⟩
  | flow {s : State L E P K} {es : List E} {f : P → P} :
      S.events s.loc = some es → (∀ d ∈ es, ¬ Enabled S s.loc s.pt d) → S.flow s.loc = some f →
      Step S h s ⟨s.loc, f s.pt, s.time + h, s.steps, s.last⟩

theorem blocking_iff (k : Kind) : blocking k = true ↔ k = .invariant ∨ k = .progress := by
  cases k <;> simp [blocking]

/-- The guards are those of the events which are activated, in the order of events. -/
theorem guardLoop_first (S : Sys L E P K) (l : L) (x : P) (es : List E) (gs : List (E × (P → K)))
    (h : guardLoop S l es = some gs) :
    (∀ g, gs.find? (fun g => decide (0 < g.2 x)) = some g →
      ∃ pre post, es = pre ++ g.1 :: post ∧ Enabled S l x g.1 ∧ ∀ d ∈ pre, ¬ Enabled S l x d) ∧
    (gs.find? (fun g => decide (0 < g.2 x)) = none → ∀ d ∈ es, ¬ Enabled S l x d) := by
  induction es generalizing gs with
  | nil =>
    rw [guardLoop] at h
    obtain rfl := Option.some.inj h
    exact ⟨fun g hg => by simp at hg, fun _ d hd => by simp at hd⟩
  | cons e es ih =>
    rw [guardLoop] at h
    cases hk : S.kind l e with
    | none => simp [hk] at h
    | some k =>
      simp only [hk] at h
      by_cases hb : blocking k = true
      · rw [if_pos hb] at h
        obtain ⟨h1, h2⟩ := ih gs h
        have hne : ¬ Enabled S l x e := by
          rintro ⟨k', g, hk', n1, n2, _⟩
          rw [hk] at hk'
          obtain rfl := Option.some.inj hk'
          rcases (blocking_iff k).1 hb with hh | hh
          · exact n1 hh
          · exact n2 hh
        refine ⟨fun g hg => ?_, fun hn d hd => ?_⟩
        · obtain ⟨pre, post, rfl, he, hp⟩ := h1 g hg
          refine ⟨e :: pre, post, rfl, he, fun d hd => ?_⟩
          rcases List.mem_cons.1 hd with rfl | hd
          · exact hne
          · exact hp d hd
        · rcases List.mem_cons.1 hd with rfl | hd
          · exact hne
          · exact h2 hn d hd
      · rw [if_neg hb] at h
        cases hg : S.guard l e with
        | none => simp [hg] at h
        | some g =>
          cases hl : guardLoop S l es with
          | none => simp [hg, hl] at h
          | some gs' =>
            simp only [hg, hl, Option.some.injEq] at h
            subst h
            obtain ⟨h1, h2⟩ := ih gs' hl
            have hbn : k ≠ .invariant ∧ k ≠ .progress :=
              ⟨fun hh => hb ((blocking_iff k).2 (Or.inl hh)), fun hh => hb ((blocking_iff k).2 (Or.inr hh))⟩
            by_cases hx : 0 < g x
            · refine ⟨fun g' hg' => ?_, fun hn => ?_⟩
              · rw [List.find?_cons_of_pos (by simpa using hx)] at hg'
                obtain rfl := Option.some.inj hg'
                exact ⟨[], es, rfl, ⟨k, g, hk, hbn.1, hbn.2, hg, hx⟩, by simp⟩
              · rw [List.find?_cons_of_pos (by simpa using hx)] at hn
                simp at hn
            · have hne : ¬ Enabled S l x e := by
                rintro ⟨k', g', _, _, _, hg', h0⟩
                rw [hg] at hg'
                obtain rfl := Option.some.inj hg'
                exact hx h0
              refine ⟨fun g' hg' => ?_, fun hn d hd => ?_⟩
              · rw [List.find?_cons_of_neg (by simpa using hx)] at hg'
                obtain ⟨pre, post, rfl, he, hp⟩ := h1 g' hg'
                refine ⟨e :: pre, post, rfl, he, fun d hd => ?_⟩
                rcases List.mem_cons.1 hd with rfl | hd
                · exact hne
                · exact hp d hd
              · rw [List.find?_cons_of_neg (by simpa using hx)] at hn
                rcases List.mem_cons.1 hd with rfl | hd
                · exact hne
                · exact h2 hn d hd

theorem invariantLoop_true (S : Sys L E P K) (l : L) (x : P) (es : List E) :
    invariantLoop S l x es = some true ↔ ∀ e ∈ es, ∃ k g, S.kind l e = some k ∧ S.guard l e = some g ∧
      (k = .invariant ∨ k = .progress → 0 ≤ g x) := by
  induction es with
  | nil => simp [invariantLoop]
  | cons e es ih =>
    rw [invariantLoop, List.forall_mem_cons, ← ih]
    cases hk : S.kind l e with
    | none => simp
    | some k =>
      cases hg : S.guard l e with
      | none => simp
      | some g =>
        by_cases hb : k = .invariant ∨ k = .progress
        · have hb' := (blocking_iff k).2 hb
          by_cases hx : g x < 0
          · simp [hb', hb, hx]
          · simp [hb', hx, not_lt.1 hx]
        · have hb' : blocking k = false := by
            rw [← Bool.not_eq_true, blocking_iff]
            exact hb
          simp [hb', hb]

theorem satisfies_true (S : Sys L E P K) (l : L) (x : P) : satisfies S l x = some true ↔ Allowed S l x := by
  unfold satisfies Allowed
  cases he : S.events l with
  | none => simp
  | some es => simp [invariantLoop_true]

variable [Add K]

/-- An iteration makes a step of an execution from a state which is allowed, and stops only at one which is not. -/
theorem iterate_spec (S : Sys L E P K) (h : K) (s : State L E P K) :
    (∀ s', iterate S h s = some (some s') → Step S h s s' ∧ Allowed S s.loc s.pt) ∧
    (iterate S h s = some none → ¬ Allowed S s.loc s.pt) := by
  unfold iterate
  cases hs : satisfies S s.loc s.pt with
  | none => simp
  | some b =>
    cases b with
    | false =>
      refine ⟨fun s' h' => by simp at h', fun _ ha => ?_⟩
      rw [(satisfies_true S s.loc s.pt).2 ha] at hs
      simp at hs
    | true =>
      have hal := (satisfies_true S s.loc s.pt).1 hs
      cases hg : guards S s.loc with
      | none => simp
      | some gs =>
        obtain ⟨es, hes, hgl⟩ := Option.bind_eq_some_iff.1 hg
        obtain ⟨h1, h2⟩ := guardLoop_first S s.loc s.pt es gs hgl
        cases hf : gs.find? (fun g => decide (0 < g.2 s.pt)) with
        | some g =>
          obtain ⟨pre, post, hpp, hen, hpre⟩ := h1 g hf
          subst hpp
          cases ht : S.target s.loc g.1 with
          | none => simp [hf, ht]
          | some l =>
            cases hr : S.reset s.loc g.1 with
            | none => simp [hf, ht, hr]
            | some r =>
              cases hfl : S.flow l with
              | none => simp [hf, ht, hr, hfl]
              | some f =>
                cases hg2 : guards S l with
                | none => simp [hf, ht, hr, hfl, hg2]
                | some gs2 =>
                  simp only [hf, ht, hr, hfl, hg2, Option.some.injEq, reduceCtorEq, false_imp_iff, and_true]
                  rintro s' rfl
                  exact ⟨.jump hes hen hpre ht hr, hal⟩
        | none =>
          cases hfl : S.flow s.loc with
          | none => simp [hf]
          | some f =>
            simp only [hf, Option.some.injEq, reduceCtorEq, false_imp_iff, and_true]
            rintro s' rfl
            exact ⟨.flow hes (h2 hf) hfl, hal⟩

/-- The states which are recorded form an execution.  The simulation goes on only from states within the time bound, within
the bound for the number of steps, not entered by a terminating event and allowed by the functions which are tested; and it
ends only at a state for which one of these fails. -/
theorem C101_execution (S : Sys L E P K) (before : K → Bool) (nmax : ℤ) (term : E → Bool) (h : K) (fuel : ℕ)
    (s : State L E P K) (w : List (State L E P K)) (st : Status) (hr : run S before nmax term h fuel s = (w, st)) :
    List.IsChain (Step S h) (s :: w) ∧
    (∀ a ∈ (s :: w).dropLast, before a.time = true ∧ (a.steps : ℤ) < nmax ∧ (∀ e, a.last = some e → term e = false) ∧
      Allowed S a.loc a.pt) ∧
    (st = .ended → ∀ a, (s :: w).getLast? = some a →
      before a.time = false ∨ nmax ≤ a.steps ∨ (∃ e, a.last = some e ∧ term e = true) ∨ ¬ Allowed S a.loc a.pt) := by
  induction fuel generalizing s w with
  | zero =>
    rw [run] at hr
    obtain ⟨rfl, rfl⟩ := Prod.mk.inj hr
    exact ⟨.singleton _, by simp, by simp⟩
  | succ n ih =>
    rw [run] at hr
    have hcont : continues before nmax term s = true ↔
        before s.time = true ∧ (s.steps : ℤ) < nmax ∧ (∀ e, s.last = some e → term e = false) := by
      unfold continues
      cases s.last with
      | none => simp
      | some e => simp [and_assoc]
    by_cases hc : continues before nmax term s = true
    · rw [if_pos hc] at hr
      obtain ⟨i1, i2⟩ := iterate_spec S h s
      cases hi : iterate S h s with
      | none =>
        simp only [hi] at hr
        obtain ⟨rfl, rfl⟩ := Prod.mk.inj hr
        exact ⟨.singleton _, by simp, by simp⟩
      | some o =>
        cases o with
        | none =>
          simp only [hi] at hr
          obtain ⟨rfl, rfl⟩ := Prod.mk.inj hr
          refine ⟨.singleton _, by simp, fun _ a ha => ?_⟩
          simp only [List.getLast?_singleton, Option.some.injEq] at ha
          subst ha
          exact Or.inr (Or.inr (Or.inr (i2 hi)))
        | some s' =>
          simp only [hi] at hr
          obtain ⟨rfl, rfl⟩ := Prod.mk.inj hr
          obtain ⟨hst, hal⟩ := i1 s' hi
          obtain ⟨j1, j2, j3⟩ := ih s' _ rfl
          refine ⟨List.isChain_cons_cons.2 ⟨hst, j1⟩, fun a ha => ?_, fun he a ha => ?_⟩
          · rw [List.dropLast_cons_of_ne_nil (by simp)] at ha
            rcases List.mem_cons.1 ha with rfl | ha
            · obtain ⟨c1, c2, c3⟩ := hcont.1 hc
              exact ⟨c1, c2, c3, hal⟩
            · exact j2 a ha
          · rw [List.getLast?_cons_cons] at ha
            exact j3 he a ha
    · rw [if_neg hc] at hr
      obtain ⟨rfl, rfl⟩ := Prod.mk.inj hr
      refine ⟨.singleton _, by simp, fun _ a ha => ?_⟩
      simp only [List.getLast?_singleton, Option.some.injEq] at ha
      subst ha
      by_contra hn
      push Not at hn
      refine hc (hcont.2 ⟨by simpa using hn.1, hn.2.1, fun e he => ?_⟩)
      simpa using hn.2.2.1 e he

/-- spec: the functions which the simulator obtains exist -/
def Total (S : Sys L E P K) : Prop :=
  ∀ l, ∃ es, S.events l = some es ∧ (S.flow l).isSome ∧ ∀ e ∈ es, ∃ k g, S.kind l e = some k ∧ S.guard l e = some g ∧
    (k ≠ .invariant → k ≠ .progress → (S.target l e).isSome ∧ (S.reset l e).isSome)

omit [Add K] in
theorem guards_some {S : Sys L E P K} (hS : Total S) (l : L) : ∃ gs, guards S l = some gs := by
  obtain ⟨es, he, _, h⟩ := hS l
  unfold guards
  rw [he, Option.bind_some]
  clear he
  induction es with
  | nil => exact ⟨[], rfl⟩
  | cons e es ih =>
    obtain ⟨gs, hgs⟩ := ih fun d hd => h d (List.mem_cons_of_mem _ hd)
    obtain ⟨k, g, hk, hg, _⟩ := h e List.mem_cons_self
    rw [guardLoop]
    simp only [hk, hg, hgs]
    split_ifs
    · exact ⟨_, rfl⟩
    · exact ⟨_, rfl⟩

/-- If a system has a guard function for every event, invariants included, then no simulation throws. -/
theorem C101_no_exception {S : Sys L E P K} (hS : Total S) (before : K → Bool) (nmax : ℤ) (term : E → Bool) (h : K)
    (fuel : ℕ) (s : State L E P K) : (run S before nmax term h fuel s).2 ≠ .threw := by
  induction fuel generalizing s with
  | zero => simp [run]
  | succ n ih =>
    rw [run]
    split_ifs with hc
    · have hi : ∃ o, iterate S h s = some o := by
        unfold iterate
        obtain ⟨es, he, hfl, hev⟩ := hS s.loc
        have hsat : ∃ b, satisfies S s.loc s.pt = some b := by
          unfold satisfies
          rw [he, Option.bind_some]
          clear he
          induction es with
          | nil => exact ⟨true, rfl⟩
          | cons e es ihs =>
            obtain ⟨b, hb⟩ := ihs fun d hd => hev d (List.mem_cons_of_mem _ hd)
            obtain ⟨k, g, hk, hg, _⟩ := hev e List.mem_cons_self
            rw [invariantLoop]
            simp only [hk, hg, hb]
            split_ifs
            · exact ⟨_, rfl⟩
            · exact ⟨_, rfl⟩
        obtain ⟨b, hb⟩ := hsat
        rw [hb]
        cases b with
        | false => exact ⟨_, rfl⟩
        | true =>
          obtain ⟨gs, hgs⟩ := guards_some hS s.loc
          simp only [hgs]
          cases hf : gs.find? (fun g => decide (0 < g.2 s.pt)) with
          | none =>
            obtain ⟨f, hf'⟩ := Option.isSome_iff_exists.1 hfl
            simp only [hf']
            exact ⟨_, rfl⟩
          | some g =>
            obtain ⟨es', he', hgl⟩ := Option.bind_eq_some_iff.1 hgs
            obtain ⟨pre, post, hpp, ⟨k, g', hk, n1, n2, _⟩, _⟩ := (guardLoop_first S s.loc s.pt es' gs hgl).1 g hf
            rw [he] at he'
            obtain rfl := Option.some.inj he'
            obtain ⟨k', _, hk', _, htr⟩ := hev g.1 (by rw [hpp]; simp)
            rw [hk] at hk'
            obtain rfl := Option.some.inj hk'
            obtain ⟨ht, hr⟩ := htr n1 n2
            obtain ⟨l, hl⟩ := Option.isSome_iff_exists.1 ht
            obtain ⟨r, hr⟩ := Option.isSome_iff_exists.1 hr
            obtain ⟨_, _, hfl2, _⟩ := hS l
            obtain ⟨f2, hf2⟩ := Option.isSome_iff_exists.1 hfl2
            obtain ⟨gs2, hgs2⟩ := guards_some hS l
            simp only [hl, hr, hf2, hgs2]
            exact ⟨_, rfl⟩
      obtain ⟨o, ho⟩ := hi
      cases o with
      | none => simp [ho]
      | some s' =>
        simp only [ho]
        exact ih s'
    · simp

/-- A simulation in a list does what that of the single point does, unless the default event is a terminating one. -/
theorem C101_listed_partial (S : Sys L E P K) (before : K → Bool) (nmax : ℤ) (term : E → Bool) (h : K) (dflt : E)
    (hd : term dflt = false) (fuel : ℕ) (l : L) (x : P) (hl : (S.flow l).isSome) (hg : (guards S l).isSome) :
    let r := simulateListed S before nmax term h dflt fuel l x
    let r' := simulate S before nmax term h fuel l x
    r.2 = r'.2 ∧ r.1.map (fun s => (s.loc, s.pt, s.time, s.steps)) = r'.1.map fun s => (s.loc, s.pt, s.time, s.steps) := by
  obtain ⟨f, hf⟩ := Option.isSome_iff_exists.1 hl
  obtain ⟨gs, hgs⟩ := Option.isSome_iff_exists.1 hg
  suffices ∀ (t : K) (n : ℕ), (run S before nmax term h fuel ⟨l, x, t, n, some dflt⟩).2 =
      (run S before nmax term h fuel ⟨l, x, t, n, none⟩).2 ∧
      (run S before nmax term h fuel ⟨l, x, t, n, some dflt⟩).1.map (fun s => (s.loc, s.pt, s.time, s.steps)) =
      (run S before nmax term h fuel ⟨l, x, t, n, none⟩).1.map fun s => (s.loc, s.pt, s.time, s.steps) by
    simpa [simulate, simulateListed, hf, hgs] using this 0 0
  clear hf
  induction fuel generalizing x with
  | zero => intro t n; simp [run]
  | succ m ih =>
    intro t n
    rw [run, run]
    have hc : continues before nmax term (⟨l, x, t, n, some dflt⟩ : State L E P K) =
        continues before nmax term (⟨l, x, t, n, none⟩ : State L E P K) := by simp [continues, hd]
    rw [hc]
    split_ifs
    · have hi : (∃ s, iterate S h ⟨l, x, t, n, some dflt⟩ = s ∧ iterate S h ⟨l, x, t, n, none⟩ = s) ∨
          ∃ f : P → P, iterate S h ⟨l, x, t, n, some dflt⟩ = some (some ⟨l, f x, t + h, n, some dflt⟩) ∧
            iterate S h ⟨l, x, t, n, none⟩ = some (some ⟨l, f x, t + h, n, none⟩) := by
        unfold iterate
        dsimp only
        cases satisfies S l x with
        | none => exact Or.inl ⟨_, rfl, rfl⟩
        | some b =>
          cases b with
          | false => exact Or.inl ⟨_, rfl, rfl⟩
          | true =>
            simp only [hgs]
            cases gs.find? (fun g => decide (0 < g.2 x)) with
            | some g => exact Or.inl ⟨_, rfl, rfl⟩
            | none =>
              cases S.flow l with
              | none => exact Or.inl ⟨_, rfl, rfl⟩
              | some f => exact Or.inr ⟨f, rfl, rfl⟩
      rcases hi with ⟨s, h1, h2⟩ | ⟨f, h1, h2⟩
      · rw [h1, h2]
        exact ⟨rfl, rfl⟩
      · rw [h1, h2]
        obtain ⟨j1, j2⟩ := ih (f x) (t + h) n
        exact ⟨j1, by simp [j2]⟩
    · exact ⟨rfl, rfl⟩

/-- If the default event is a terminating one, then no point of a list is simulated at all. -/
theorem C101_listed_default_event (S : Sys L E P K) (before : K → Bool) (nmax : ℤ) (term : E → Bool) (h : K) (dflt : E)
    (hd : term dflt = true) (fuel : ℕ) (l : L) (x : P) :
    simulateListed S before nmax term h dflt (fuel + 1) l x = ([], .ended) := by
  simp [simulateListed, run, continues, hd]

/-- Nothing is simulated if the maximal number of steps is not positive; for `HybridTime(t)` it is -1. -/
theorem C101_no_steps (S : Sys L E P K) (before : K → Bool) (nmax : ℤ) (hn : nmax ≤ 0) (term : E → Bool) (h : K)
    (fuel : ℕ) (l : L) (x : P) : (simulate S before nmax term h fuel l x).1 = [] := by
  unfold simulate
  cases S.flow l with
  | none => rfl
  | some f =>
    cases guards S l with
    | none => rfl
    | some gs =>
      cases fuel with
      | zero => rfl
      | succ n =>
        have : continues before nmax term (⟨l, x, 0, 0, none⟩ : State L E P K) = false := by
          simp [continues, hn]
        simp [run, this]

end

section Times

variable {L E P K : Type*} [Field K] [LinearOrder K] [IsStrictOrderedRing K]

/-- The time of a state is the step size times the number of iterations which were not events. -/
theorem C101_times (S : Sys L E P K) (h : K) (s : State L E P K) (w : List (State L E P K))
    (hw : List.IsChain (Step S h) (s :: w)) (i : ℕ) (a : State L E P K) (ha : (s :: w)[i]? = some a) :
    s.steps ≤ a.steps ∧ a.steps ≤ s.steps + i ∧ a.time = s.time + ((i : K) - ((a.steps : K) - s.steps)) * h := by
  induction w generalizing s i with
  | nil =>
    cases i with
    | zero =>
      simp only [List.getElem?_cons_zero, Option.some.injEq] at ha
      subst ha
      exact ⟨le_rfl, le_rfl, by simp⟩
    | succ i => simp at ha
  | cons s' w ih =>
    cases i with
    | zero =>
      simp only [List.getElem?_cons_zero, Option.some.injEq] at ha
      subst ha
      exact ⟨le_rfl, le_rfl, by simp⟩
    | succ i =>
      rw [List.getElem?_cons_succ] at ha
      obtain ⟨hst, hch⟩ := List.isChain_cons_cons.1 hw
      obtain ⟨h1, h2, h3⟩ := ih s' hch i ha
      cases hst with
      | jump =>
        dsimp only at h1 h2 h3
        refine ⟨by omega, by omega, ?_⟩
        rw [h3]
        push_cast
        ring
      | flow =>
        dsimp only at h1 h2 h3
        refine ⟨h1, by omega, ?_⟩
        rw [h3]
        push_cast
        ring

/-- The simulation ends: if the time bound is known to be reached after `N` steps of the integrator, then there are at most
`N` such steps and at most the maximal number of events. -/
theorem C101_terminates (S : Sys L E P K) (before : K → Bool) (nmax : ℤ) (term : E → Bool) (h : K) (N : ℕ)
    (hN : ∀ k : ℕ, N ≤ k → before (k * h) = false) (l : L) (x : P) :
    (simulate S before nmax term h (N + nmax.toNat + 1) l x).2 ≠ .fuel := by
  have key : ∀ (fuel k : ℕ) (s : State L E P K), s.time = k * h → (N - k) + (nmax - s.steps).toNat < fuel →
      (run S before nmax term h fuel s).2 ≠ .fuel := by
    intro fuel
    induction fuel with
    | zero => intro k s _ hf; omega
    | succ n ih =>
      intro k s hs hf
      rw [run]
      split_ifs with hc
      · have hb : before s.time = true ∧ (s.steps : ℤ) < nmax := by
          simp only [continues, Bool.and_eq_true, decide_eq_true_eq] at hc
          exact hc.1
        have hk : k < N := by
          by_contra hk
          have := hN k (not_lt.1 hk)
          rw [← hs, hb.1] at this
          simp at this
        cases hi : iterate S h s with
        | none => simp
        | some o =>
          cases o with
          | none => simp
          | some s' =>
            dsimp only
            have hst := ((iterate_spec S h s).1 s' hi).1
            cases hst with
            | jump =>
              refine ih k _ hs ?_
              dsimp only
              have := hb.2
              push_cast
              omega
            | flow =>
              refine ih (k + 1) _ ?_ ?_
              · dsimp only
                rw [hs]
                push_cast
                ring
              · dsimp only
                omega
      · simp
  unfold simulate
  cases S.flow l with
  | none => simp
  | some f =>
    cases guards S l with
    | none => simp
    | some gs =>
      refine key _ 0 _ (by simp) ?_
      dsimp only
      push_cast
      omega

end Times

end Verif.Simulator.Hybrid
