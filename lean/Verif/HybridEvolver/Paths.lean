import Verif.HybridEvolver.Props

/-!
# C74: the events of the sets in an orbit

Every set in an orbit belongs to a location reached by transitions of the system, and no set is evolved after a
terminating event or after the maximum number of steps.  This holds for all operations and all semantics.
-/

namespace Verif.HybridEvolver

open Ariadne Ariadne.Logical Verif.ConstraintSolver Verif.Enclosure Verif.Evolver
open Ariadne.Ext (fin)

variable {L Ev : Type*} {dim : L → ℕ} {n : ℕ} {K : Type*} [Field K] [LinearOrder K] [IsStrictOrderedRing K]
variable {τ : Tools K} {terminating : Ev → Bool} {sys : (q : L) → List (Trans L Ev dim K q)}
variable {flowStep : (q : L) → Box (dim q) K → Flow (dim q) K}

/-- The locations and lists of events which are reached from a location `q₀` with previous events `es` by
transitions of the system, none of which starts where the evolution stops. -/
inductive Path (τ : Tools K) (terminating : Ev → Bool) (sys : (q : L) → List (Trans L Ev dim K q)) (q₀ : L) (es : List Ev) :
    L → List Ev → Prop
  | nil : Path τ terminating sys q₀ es q₀ es
  | snoc {q ev} (tr : Trans L Ev dim K q) (h : Path τ terminating sys q₀ es q ev) (hs : ¬ τ.Stops terminating ev)
      (hm : tr ∈ sys q) (hk : tr.kind ∈ [Kind.permissive, .urgent, .impact]) : Path τ terminating sys q₀ es tr.target (ev ++ [tr.event])

/-- The set comes from a set in the location `q` with events `ev` by one of the transitions. -/
def After {q : L} (l : List (Trans L Ev dim K q)) (ev : List Ev) (S : HSet L Ev dim K) : Prop :=
  ∃ tr ∈ l, tr.kind ∈ [Kind.permissive, .urgent, .impact] ∧ S.loc = tr.target ∧ S.events = ev ++ [tr.event]

/-- What a step from the location `q` with events `ev` may do. -/
def Fits {q : L} (l : List (Trans L Ev dim K q)) (ev : List Ev) : HAction L Ev dim K → Prop
  | .push (S, false) => S.loc = q ∧ S.events = ev
  | .push (S, true) => After l ev S
  | .reach S => S.loc = q ∧ S.events = ev
  | .final S => S.loc = q ∧ S.events = ev
  | .inter S => (S.loc = q ∧ S.events = ev) ∨ After l ev S
  | .drop i => i.1.loc = q ∧ i.1.events = ev

section lists

variable {q : L} {l : List (Trans L Ev dim K q)} {ev : List Ev} {as : List (HAction L Ev dim K)}

theorem fits_append {as bs : List (HAction L Ev dim K)} (h1 : ∀ a ∈ as, Fits l ev a) (h2 : ∀ a ∈ bs, Fits l ev a) :
    ∀ a ∈ as ++ bs, Fits l ev a := fun a ha => (List.mem_append.1 ha).elim (h1 a) (h2 a)

theorem fits_cons {a : HAction L Ev dim K} {bs : List (HAction L Ev dim K)} (h1 : Fits l ev a) (h2 : ∀ a ∈ bs, Fits l ev a) :
    ∀ b ∈ a :: bs, Fits l ev b := fun b hb => (List.mem_cons.1 hb).elim (fun e => e ▸ h1) (h2 b)

theorem fits_ite {c : Prop} [Decidable c] {as bs : List (HAction L Ev dim K)} (h1 : ∀ a ∈ as, Fits l ev a)
    (h2 : ∀ a ∈ bs, Fits l ev a) : ∀ a ∈ (if c then as else bs), Fits l ev a := by
  split
  · exact h1
  · exact h2

theorem fits_nil : ∀ a ∈ ([] : List (HAction L Ev dim K)), Fits l ev a := fun _ h => nomatch h

theorem finals_fits {x : List (Encl n (dim q) K)} (h : τ.finals ev x = some as) : ∀ a ∈ as, Fits l ev a := by
  induction x generalizing as with
  | nil => obtain rfl := Option.some.inj h; exact fits_nil
  | cons F x ih =>
    simp only [Tools.finals] at h
    obtain ⟨o, -, h⟩ := Option.bind_eq_some_iff.1 h
    obtain ⟨bs, hb, rfl⟩ := Option.map_eq_some_iff.1 h
    exact fits_ite (ih hb) (fits_cons ⟨rfl, rfl⟩ (ih hb))

theorem evolved_fits {x : List (Encl n (dim q) K × Encl n (dim q) K)} (h : τ.evolved ev x = some as) :
    ∀ a ∈ as, Fits l ev a := by
  induction x generalizing as with
  | nil => obtain rfl := Option.some.inj h; exact fits_nil
  | cons F x ih =>
    simp only [Tools.evolved] at h
    split at h
    · exact ih h
    · obtain ⟨o, -, h⟩ := Option.bind_eq_some_iff.1 h
      obtain ⟨bs, hb, rfl⟩ := Option.map_eq_some_iff.1 h
      exact fits_ite (ih hb) (fits_cons ⟨rfl, rfl⟩ (fits_cons (Or.inl ⟨rfl, rfl⟩) (ih hb)))

theorem reached_fits {kind : Finish} {x : List (Encl n (dim q) K)} (h : τ.reached ev kind x = some as) :
    ∀ a ∈ as, Fits l ev a := by
  induction x generalizing as with
  | nil => obtain rfl := Option.some.inj h; exact fits_nil
  | cons F x ih =>
    simp only [Tools.reached] at h
    obtain ⟨fs, hfs, h⟩ := Option.bind_eq_some_iff.1 h
    obtain ⟨bs, hb, rfl⟩ := Option.map_eq_some_iff.1 h
    refine fits_append ?_ (fits_cons ⟨rfl, rfl⟩ (ih hb))
    by_cases c : (τ.over F && !(kind = .before)) = true
    · rw [if_pos c] at hfs
      obtain ⟨o, -, rfl⟩ := Option.map_eq_some_iff.1 hfs
      exact fits_ite fits_nil (fits_cons ⟨rfl, rfl⟩ fits_nil)
    · rw [if_neg c] at hfs
      obtain rfl := Option.some.inj hfs
      exact fits_nil

theorem pushAll_fits {x : List (Encl n (dim q) K)} (h : τ.pushAll q ev x = some as) : ∀ a ∈ as, Fits l ev a := by
  induction x generalizing as with
  | nil => obtain rfl := Option.some.inj h; exact fits_nil
  | cons F x ih =>
    simp only [Tools.pushAll] at h
    obtain ⟨o, -, h⟩ := Option.bind_eq_some_iff.1 h
    obtain ⟨bs, hb, rfl⟩ := Option.map_eq_some_iff.1 h
    exact fits_ite (ih hb) (fits_cons ⟨rfl, rfl⟩ (ih hb))

theorem jumpAll_fits {tr : Trans L Ev dim K q} (htr : tr ∈ l) (hk : tr.kind ∈ [Kind.permissive, .urgent, .impact]) {x : List (Encl n (dim q) K)}
    (h : τ.jumpAll ev tr x = some as) : ∀ a ∈ as, Fits l ev a := by
  induction x generalizing as with
  | nil => obtain rfl := Option.some.inj h; exact fits_nil
  | cons F x ih =>
    simp only [Tools.jumpAll] at h
    obtain ⟨o, -, h⟩ := Option.bind_eq_some_iff.1 h
    obtain ⟨bs, hb, rfl⟩ := Option.map_eq_some_iff.1 h
    exact fits_ite (ih hb) (fits_cons ⟨tr, htr, hk, rfl, rfl⟩ (ih hb))

theorem jumps_fits [DecidableEq Ev] {φ : Flow (dim q) K} {E : Encl n (dim q) K} {t : Timing n K}
    {blocking cs : List (Trans L Ev dim K q × Crossing (dim q) K)} (hc : ∀ c ∈ cs, c.1 ∈ l ∧ c.1.kind ∈ [Kind.permissive, .urgent, .impact])
    (h : τ.jumps φ ev E t blocking cs = some as) : ∀ a ∈ as, Fits l ev a := by
  induction cs generalizing as with
  | nil => obtain rfl := Option.some.inj h; exact fits_nil
  | cons c cs ih =>
    simp only [Tools.jumps] at h
    obtain ⟨bs, hb, h⟩ := Option.bind_eq_some_iff.1 h
    obtain ⟨ds, hd, rfl⟩ := Option.map_eq_some_iff.1 h
    simp only [Tools.jump] at hb
    obtain ⟨J, -, hb⟩ := Option.bind_eq_some_iff.1 hb
    obtain ⟨x, -, hb⟩ := Option.bind_eq_some_iff.1 hb
    exact fits_append (jumpAll_fits (hc c (by simp)).1 (hc c (by simp)).2 hb)
      (ih (fun c h => hc c (List.mem_cons_of_mem _ h)) hd)

theorem startingLoop_fits {E I : Encl n (dim q) K} {x : List (Trans L Ev dim K q)} (hx : ∀ tr ∈ x, tr ∈ l)
    {F : Encl n (dim q) K} {o} (h : τ.startingLoop ev E I x F = some o) : ∀ a ∈ o.1, Fits l ev a := by
  induction x generalizing F o with
  | nil => obtain rfl := Option.some.inj h; exact fits_nil
  | cons tr x ih =>
    have ih' : ∀ {F : Encl n (dim q) K} {o}, τ.startingLoop ev E I x F = some o → ∀ a ∈ o.1, Fits l ev a :=
      fun h => ih (fun a ha => hx a (List.mem_cons_of_mem _ ha)) h
    simp only [Tools.startingLoop] at h
    by_cases hk : tr.kind = .invariant ∨ tr.kind = .impact
    · rw [if_pos hk] at h
      exact ih' h
    rw [if_neg hk] at h
    obtain ⟨b, -, h⟩ := Option.bind_eq_some_iff.1 h
    cases b with
    | false => rw [if_neg (by simp)] at h; exact ih' h
    | true =>
      rw [if_pos rfl] at h
      obtain ⟨bs, hb, h⟩ := Option.bind_eq_some_iff.1 h
      obtain ⟨o', h', rfl⟩ := Option.map_eq_some_iff.1 h
      refine fits_append ?_ (ih' h')
      simp only [Tools.immediate] at hb
      by_cases hp : tr.kind = .progress
      · rw [if_pos hp] at hb
        obtain rfl := Option.some.inj hb
        exact fits_nil
      · rw [if_neg hp] at hb
        obtain ⟨e, -, rfl⟩ := Option.map_eq_some_iff.1 hb
        have ha : After l ev (τ.reset ev tr e.2) := by
          refine ⟨tr, hx tr (by simp), ?_, rfl, rfl⟩
          cases hk' : tr.kind <;> simp_all [Kind.activating]
        exact fits_ite fits_nil (fits_cons ⟨rfl, rfl⟩ (fits_cons (Or.inr ha) (fits_cons ha fits_nil)))

theorem activeEvents_sub {F : Encl n (dim q) K} {x y : List (Trans L Ev dim K q)} (h : τ.activeEvents F x = some y) :
    ∀ tr ∈ y, tr ∈ x := by
  induction x generalizing y with
  | nil => obtain rfl := Option.some.inj h; simp
  | cons tr x ih =>
    simp only [Tools.activeEvents] at h
    obtain ⟨b, -, h⟩ := Option.bind_eq_some_iff.1 h
    obtain ⟨z, hz, rfl⟩ := Option.map_eq_some_iff.1 h
    intro a ha
    split at ha
    · rcases List.mem_cons.1 ha with rfl | ha
      · simp
      · exact List.mem_cons_of_mem _ (ih hz a ha)
    · exact List.mem_cons_of_mem _ (ih hz a ha)

theorem timing_sub {φ : Flow (dim q) K} {E : Encl n (dim q) K} {cr o} (h : τ.timing φ E cr = some o) :
    ∀ c ∈ o.2, c ∈ (cr : List (Trans L Ev dim K q × Crossing (dim q) K)) := by
  simp only [Tools.timing] at h
  obtain ⟨tt, -, h⟩ := Option.bind_eq_some_iff.1 h
  obtain ⟨b, -, h⟩ := Option.bind_eq_some_iff.1 h
  cases b with
  | false =>
    rw [if_neg (by simp)] at h
    obtain rfl := Option.some.inj h
    exact fun c h => h
  | true =>
    rw [if_pos rfl] at h
    obtain ⟨⟨s, cr'⟩, h3, rfl⟩ := Option.map_eq_some_iff.1 h
    exact (creepLoop_mem h3).1

theorem apply_fits [DecidableEq Ev] {φ : Flow (dim q) K} {E : Encl n (dim q) K} {t : Timing n K}
    {cr : List (Trans L Ev dim K q × Crossing (dim q) K)} (hc : ∀ c ∈ cr, c.1 ∈ l) (h : τ.apply φ ev E t cr = some as) :
    ∀ a ∈ as, Fits l ev a := by
  simp only [Tools.apply] at h
  obtain ⟨o, -, h⟩ := Option.bind_eq_some_iff.1 h
  by_cases c : LV.definitely o.1 = true
  · rw [if_pos c] at h
    obtain rfl := Option.some.inj h
    exact fits_nil
  rw [if_neg c] at h
  obtain ⟨reach, -, h⟩ := Option.bind_eq_some_iff.1 h
  obtain ⟨next, -, h⟩ := Option.bind_eq_some_iff.1 h
  obtain ⟨evolve, -, h⟩ := Option.bind_eq_some_iff.1 h
  obtain ⟨bs, hb, h⟩ := Option.bind_eq_some_iff.1 h
  obtain ⟨ds, hd, rfl⟩ := Option.map_eq_some_iff.1 h
  refine fits_append ?_ (jumps_fits (fun c h => ?_) hd)
  · by_cases k : t.kind = .at_
    · rw [if_pos k] at hb
      obtain ⟨es, he, rfl⟩ := Option.map_eq_some_iff.1 hb
      refine fits_append (finals_fits he) fun a ha => ?_
      obtain ⟨F, -, rfl⟩ := List.mem_map.1 ha
      exact ⟨rfl, rfl⟩
    · rw [if_neg k] at hb
      obtain ⟨es, he, hb⟩ := Option.bind_eq_some_iff.1 hb
      obtain ⟨fs, hf, rfl⟩ := Option.map_eq_some_iff.1 hb
      exact fits_append (evolved_fits he) (reached_fits hf)
  · obtain ⟨h1, h2⟩ := List.mem_filter.1 h
    exact ⟨hc c h1, Kind.mem_of_activating h2⟩

end lists

theorem evolution_fits [DecidableEq Ev] {S : HSet L Ev dim K} {as} (h : τ.evolution sys flowStep S = some as) :
    ∀ a ∈ as, Fits (sys S.loc) S.events a := by
  simp only [Tools.evolution] at h
  obtain ⟨o, -, h⟩ := Option.bind_eq_some_iff.1 h
  by_cases c0 : LV.definitely o.1 = true
  · rw [if_pos c0] at h
    obtain rfl := Option.some.inj h
    exact fits_nil
  rw [if_neg c0] at h
  by_cases c1 : τ.late o.2 = true
  · rw [if_pos c1] at h
    obtain rfl := Option.some.inj h
    exact fits_cons ⟨rfl, rfl⟩ fits_nil
  rw [if_neg c1] at h
  by_cases c2 : (τ.reconditioning && decide (τ.maximumError < τ.errorNorm o.2)) = true
  · rw [if_pos c2] at h
    obtain rfl := Option.some.inj h
    exact fits_cons ⟨rfl, rfl⟩ fits_nil
  rw [if_neg c2] at h
  by_cases c3 : (!Ext.le (τ.radius (o.2.boundingBox τ.C)) (fin τ.maximumRadius) && (!τ.upper || τ.subdivisions)) = true
  · rw [if_pos c3] at h
    by_cases hu : τ.upper = true
    · rw [if_pos hu] at h
      obtain ⟨l, hl, h⟩ := Option.bind_eq_some_iff.1 h
      exact pushAll_fits h
    · rw [if_neg hu] at h
      obtain rfl := Option.some.inj h
      exact fits_cons ⟨rfl, rfl⟩ fits_nil
  rw [if_neg c3] at h
  obtain ⟨act, hact, h⟩ := Option.bind_eq_some_iff.1 h
  obtain ⟨cr, hcr, h⟩ := Option.bind_eq_some_iff.1 h
  obtain ⟨tm, htm, h⟩ := Option.bind_eq_some_iff.1 h
  exact apply_fits (fun c hc => activeEvents_sub hact _ ((crossings_mem hcr).1 c (timing_sub htm c hc)).1) h

theorem jumped_fits {S : HSet L Ev dim K} {as} (h : τ.jumped terminating sys S = some as) :
    (∀ a ∈ as, Fits (sys S.loc) S.events a) ∧
      (τ.Stops terminating S.events → ∀ a ∈ as, (∃ F, a = .final F) ∨ ∃ i, a = .drop i) := by
  simp only [Tools.jumped] at h
  by_cases c1 : τ.late S.set = true
  · rw [if_pos c1] at h
    obtain rfl := Option.some.inj h
    exact ⟨fits_cons ⟨rfl, rfl⟩ fits_nil, fun _ a ha => Or.inr ⟨_, List.mem_singleton.1 ha⟩⟩
  rw [if_neg c1] at h
  by_cases c2 : τ.maximumSteps ≤ S.events.length ∨ (S.events.getLast?.map terminating).getD false = true
  · rw [if_pos c2] at h
    obtain ⟨I, -, rfl⟩ := Option.map_eq_some_iff.1 h
    exact ⟨fits_cons ⟨rfl, rfl⟩ fits_nil, fun _ a ha => Or.inl ⟨_, List.mem_singleton.1 ha⟩⟩
  rw [if_neg c2] at h
  refine ⟨?_, fun hs => absurd (stops_iff.1 hs) c2⟩
  simp only [Tools.starting] at h
  obtain ⟨I, -, h⟩ := Option.bind_eq_some_iff.1 h
  obtain ⟨o, ho, h⟩ := Option.bind_eq_some_iff.1 h
  obtain ⟨f, -, rfl⟩ := Option.map_eq_some_iff.1 h
  exact fits_append (startingLoop_fits (fun _ h => h) ho) (fits_ite fits_nil (fits_cons ⟨rfl, rfl⟩ fits_nil))

/-- The path of a set. -/
abbrev HSet.Path (τ : Tools K) (terminating : Ev → Bool) (sys : (q : L) → List (Trans L Ev dim K q)) (S₀ S : HSet L Ev dim K) :
    Prop := HybridEvolver.Path τ terminating sys S₀.loc S₀.events S.loc S.events

/-- **C74**: at every moment of every schedule, the location and the events of each set of the orbit come from the
initial set by transitions of the system, and sets are evolved only if the number of their events is below the
maximum and the last event is not terminating. -/
theorem C74_paths [DecidableEq Ev] {S₀ : HSet L Ev dim K} {s}
    (h : Steps (τ.process terminating sys flowStep) (orbitInit S₀) s) :
    (∀ S ∈ s.orbit.reach, S₀.Path τ terminating sys S ∧ ¬ τ.Stops terminating S.events) ∧
    (∀ S ∈ s.orbit.inter, S₀.Path τ terminating sys S) ∧ (∀ S ∈ s.orbit.final, S₀.Path τ terminating sys S) ∧
    ∀ i ∈ s.orbit.dropped, S₀.Path τ terminating sys i.1 := by
  let V : Evolver.Inv (HSet L Ev dim K) (HSet L Ev dim K × Bool) :=
    ⟨fun i => S₀.Path τ terminating sys i.1 ∧ (i.2 = false → ¬ τ.Stops terminating i.1.events),
      fun S => S₀.Path τ terminating sys S ∧ ¬ τ.Stops terminating S.events, fun S => S₀.Path τ terminating sys S,
      fun S => S₀.Path τ terminating sys S, fun i => S₀.Path τ terminating sys i.1⟩
  have hafter : ∀ {q : L} {ev : List Ev}, Path τ terminating sys S₀.loc S₀.events q ev → ¬ τ.Stops terminating ev →
      ∀ S, After (sys q) ev S → S₀.Path τ terminating sys S := by
    rintro q ev hp hs S ⟨tr, h1, h2, h3, h4⟩
    rw [HSet.Path, h3, h4]
    exact .snoc tr hp hs h1 h2
  have hfit : ∀ {q : L} {ev : List Ev}, Path τ terminating sys S₀.loc S₀.events q ev → ¬ τ.Stops terminating ev →
      ∀ a, Fits (sys q) ev a → V.action a := by
    intro q ev hp hs a ha
    have hself : ∀ S : HSet L Ev dim K, S.loc = q ∧ S.events = ev → S₀.Path τ terminating sys S ∧
        ¬ τ.Stops terminating S.events := by
      rintro S ⟨e1, e2⟩
      rw [HSet.Path, e1, e2]
      exact ⟨hp, hs⟩
    cases a with
    | push i =>
      obtain ⟨S, b⟩ := i
      cases b with
      | false => exact ⟨(hself S ha).1, fun _ => (hself S ha).2⟩
      | true => exact ⟨hafter hp hs S ha, fun h => nomatch h⟩
    | reach S => exact hself S ha
    | final S => exact (hself S ha).1
    | inter S => exact ha.elim (fun h => (hself S h).1) (hafter hp hs S)
    | drop i => exact (hself i.1 ha).1
  have hV := Evolver.Inv.steps (V := V) (proc := τ.process terminating sys flowStep) ?_ ?_ h
  · exact ⟨hV.reach, hV.inter, hV.final, hV.drop⟩
  · rintro ⟨S, b⟩ as hx ⟨hp, hs⟩ a ha
    cases b with
    | false =>
      simp only [Tools.process, Bool.false_eq_true, if_false] at hx
      exact hfit hp (hs rfl) a (evolution_fits hx a ha)
    | true =>
      simp only [Tools.process, if_true] at hx
      obtain ⟨h1, h2⟩ := jumped_fits hx
      by_cases hst : τ.Stops terminating S.events
      · have h3 := h1 a ha
        rcases h2 hst a ha with ⟨F, rfl⟩ | ⟨i, rfl⟩
        · show S₀.Path τ terminating sys F
          rw [HSet.Path, h3.1, h3.2]
          exact hp
        · show S₀.Path τ terminating sys i.1
          rw [HSet.Path, h3.1, h3.2]
          exact hp
      · exact hfit hp hst a (h1 a ha)
  · refine ⟨fun i hi => ?_, by simp [orbitInit], by simp [orbitInit, Orbit.none], by simp [orbitInit, Orbit.none],
      by simp [orbitInit, Orbit.none], by simp [orbitInit, Orbit.none]⟩
    rw [List.mem_singleton.1 hi]
    exact ⟨.nil, fun h => nomatch h⟩

theorem Path.length {q₀ q : L} {es ev : List Ev} (h : Path τ terminating sys q₀ es q ev) :
    ev = es ∨ ev.length ≤ τ.maximumSteps := by
  cases h with
  | nil => exact Or.inl rfl
  | snoc tr h hs =>
    refine Or.inr ?_
    simp only [Tools.Stops, not_or, not_le] at hs
    simp only [List.length_append, List.length_cons, List.length_nil]
    omega

end Verif.HybridEvolver
