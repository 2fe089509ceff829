import Verif.Hybrid.AutomatonEffects
import Mathlib.Logic.Relation
import Mathlib.Data.Finset.Card

/-!
# C63: discrete reachability and checking of hybrid automata
-/

namespace Verif.Hybrid

open Verif.Container Ariadne.AlgebraicSort

variable {κ ν V ε E P : Type*} [LinearOrder κ] [LinearOrder ν] [LinearOrder V] [LinearOrder ε]

/-! ### The loop, for any events and targets -/

section Loop

variable (evs : Loc κ ν → Option (List ε)) (tgt : Loc κ ν → ε → Option (Loc κ ν))

/-- One discrete step. -/
def GStep (l t : Loc κ ν) : Prop := ∃ es e, evs l = some es ∧ e ∈ es ∧ tgt l e = some t

/-- The events of a location and their targets are defined. -/
def Good (l : Loc κ ν) : Prop := ∃ es, evs l = some es ∧ ∀ e ∈ es, (tgt l e).isSome

/-- Reachable by discrete steps from the given locations. -/
def Reachable (init : List (Loc κ ν)) (t : Loc κ ν) : Prop :=
  ∃ l ∈ init, Relation.ReflTransGen (GStep evs tgt) l t

omit [LinearOrder ε] in
theorem reachEvents_spec (tg : ε → Option (Loc κ ν)) : ∀ (es : List ε) (r f r' f' : List (Loc κ ν)), Sorted r →
    Sorted f → reachEvents tg es (r, f) = some (r', f') →
    Sorted r' ∧ Sorted f' ∧ (∀ x, x ∈ r' ↔ x ∈ r ∨ ∃ e ∈ es, tg e = some x) ∧
    (∀ x, x ∈ f' ↔ x ∈ f ∨ (x ∈ r' ∧ x ∉ r)) ∧ ∀ e ∈ es, (tg e).isSome := by
  intro es
  induction es with
  | nil =>
    intro r f r' f' hr hf h
    simp only [reachEvents, Option.some.injEq, Prod.mk.injEq] at h
    obtain ⟨rfl, rfl⟩ := h
    refine ⟨hr, hf, by simp, fun x => ?_, by simp⟩
    tauto
  | cons e es ih =>
    intro r f r' f' hr hf h
    rw [reachEvents] at h
    cases ht : tg e with
    | none => rw [ht] at h; cases h
    | some t =>
      rw [ht] at h
      simp only at h
      split_ifs at h with hc
      · have hc' : t ∉ r := by
          rw [Bool.not_eq_true', contains_false hr] at hc; exact hc
        obtain ⟨h1, h2, h3, h4, h5⟩ := ih _ _ _ _ hr.insert hf.insert h
        refine ⟨h1, h2, fun x => ?_, fun x => ?_, ?_⟩
        · rw [h3 x, mem_insert]
          simp only [List.mem_cons, exists_eq_or_imp, ht, Option.some.injEq]
          constructor
          · rintro ((h | h) | h)
            · exact Or.inr (Or.inl h.symm)
            · exact Or.inl h
            · exact Or.inr (Or.inr h)
          · rintro (h | h | h)
            · exact Or.inl (Or.inr h)
            · exact Or.inl (Or.inl h.symm)
            · exact Or.inr h
        · rw [h4 x, mem_insert, mem_insert]
          have hx : x = t → x ∈ r' ∧ x ∉ r := fun hx =>
            ⟨(h3 x).2 (Or.inl (mem_insert.2 (Or.inl hx))), hx ▸ hc'⟩
          tauto
        · intro e' he'
          rcases List.mem_cons.1 he' with rfl | he'
          · rw [ht]; rfl
          · exact h5 e' he'
      · have hc' : t ∈ r := by
          rw [Bool.not_eq_true', Bool.not_eq_false, contains_iff hr] at hc; exact hc
        obtain ⟨h1, h2, h3, h4, h5⟩ := ih _ _ _ _ hr hf h
        refine ⟨h1, h2, fun x => ?_, h4, ?_⟩
        · rw [h3 x]
          simp only [List.mem_cons, exists_eq_or_imp, ht, Option.some.injEq]
          constructor
          · rintro (h | h)
            · exact Or.inl h
            · exact Or.inr (Or.inr h)
          · rintro (h | h | h)
            · exact Or.inl h
            · exact Or.inl (h ▸ hc')
            · exact Or.inr h
        · intro e' he'
          rcases List.mem_cons.1 he' with rfl | he'
          · rw [ht]; rfl
          · exact h5 e' he'

omit [LinearOrder κ] [LinearOrder ν] [LinearOrder ε] in
variable {evs tgt} in
omit [LinearOrder ε] in
theorem reachLocs_spec [LinearOrder κ] [LinearOrder ν] {evs : Loc κ ν → Option (List ε)}
    {tgt : Loc κ ν → ε → Option (Loc κ ν)} : ∀ (ls r f r' f' : List (Loc κ ν)), Sorted r → Sorted f →
    reachLocs evs tgt ls (r, f) = some (r', f') →
    Sorted r' ∧ Sorted f' ∧ (∀ x, x ∈ r' ↔ x ∈ r ∨ ∃ l ∈ ls, GStep evs tgt l x) ∧
    (∀ x, x ∈ f' ↔ x ∈ f ∨ (x ∈ r' ∧ x ∉ r)) ∧ ∀ l ∈ ls, Good evs tgt l := by
  intro ls
  induction ls with
  | nil =>
    intro r f r' f' hr hf h
    simp only [reachLocs, Option.some.injEq, Prod.mk.injEq] at h
    obtain ⟨rfl, rfl⟩ := h
    refine ⟨hr, hf, by simp, fun x => ?_, by simp⟩
    tauto
  | cons l ls ih =>
    intro r f r' f' hr hf h
    rw [reachLocs] at h
    cases he : evs l with
    | none => rw [he] at h; cases h
    | some es =>
      rw [he] at h
      simp only at h
      cases h1 : reachEvents (tgt l) es (r, f) with
      | none => rw [h1] at h; cases h
      | some s =>
        obtain ⟨r1, f1⟩ := s
        rw [h1] at h
        obtain ⟨a1, a2, a3, a4, a5⟩ := reachEvents_spec _ _ _ _ _ _ hr hf h1
        obtain ⟨b1, b2, b3, b4, b5⟩ := ih _ _ _ _ a1 a2 h
        have hg : ∀ x, GStep evs tgt l x ↔ ∃ e ∈ es, tgt l e = some x := by
          intro x
          constructor
          · rintro ⟨es', e, h1, h2, h3⟩
            rw [he, Option.some.injEq] at h1
            subst h1
            exact ⟨e, h2, h3⟩
          · rintro ⟨e, h2, h3⟩
            exact ⟨es, e, he, h2, h3⟩
        refine ⟨b1, b2, fun x => ?_, fun x => ?_, ?_⟩
        · rw [b3 x, a3 x]
          simp only [List.mem_cons, exists_eq_or_imp, hg, or_assoc]
        · rw [b4 x, a4 x]
          have m1 : x ∈ r → x ∈ r1 := fun hx => (a3 x).2 (Or.inl hx)
          have m2 : x ∈ r1 → x ∈ r' := fun hx => (b3 x).2 (Or.inl hx)
          tauto
        · intro l' hl'
          rcases List.mem_cons.1 hl' with rfl | hl'
          · exact ⟨es, he, a5⟩
          · exact b5 l' hl'

/-- The invariant of the loop. -/
structure LoopInv (init r w : List (Loc κ ν)) : Prop where
  sr : Sorted r
  sw : Sorted w
  sub : ∀ x ∈ w, x ∈ r
  ini : ∀ x ∈ init, x ∈ r
  reach : ∀ x ∈ r, Reachable evs tgt init x
  done : ∀ x ∈ r, x ∉ w → Good evs tgt x ∧ ∀ t, GStep evs tgt x t → t ∈ r

variable {evs tgt}

omit [LinearOrder ε] in
theorem LoopInv.next {init r w r' f' : List (Loc κ ν)} (h : LoopInv evs tgt init r w)
    (hs : reachLocs evs tgt w (r, []) = some (r', f')) : LoopInv evs tgt init r' f' := by
  obtain ⟨b1, b2, b3, b4, b5⟩ := reachLocs_spec _ _ _ _ _ h.sr Sorted.nil hs
  refine ⟨b1, b2, fun x hx => ?_, fun x hx => (b3 x).2 (Or.inl (h.ini x hx)), fun x hx => ?_, fun x hx hf => ?_⟩
  · rcases (b4 x).1 hx with hx | hx
    · cases hx
    · exact hx.1
  · rcases (b3 x).1 hx with hx | ⟨l, hl, hs⟩
    · exact h.reach x hx
    · obtain ⟨i, hi, hp⟩ := h.reach l (h.sub l hl)
      exact ⟨i, hi, hp.tail hs⟩
  · have hxr : x ∈ r := by
      by_contra hc
      exact hf ((b4 x).2 (Or.inr ⟨hx, hc⟩))
    by_cases hw : x ∈ w
    · exact ⟨b5 x hw, fun t ht => (b3 t).2 (Or.inr ⟨x, hw, ht⟩)⟩
    · obtain ⟨h1, h2⟩ := h.done x hxr hw
      exact ⟨h1, fun t ht => (b3 t).2 (Or.inl (h2 t ht))⟩

omit [LinearOrder ε] in
/-- If the loop ends, the result is the set of reachable locations, all of which have events and targets. -/
theorem reachLoop_ok {init : List (Loc κ ν)} : ∀ (n : ℕ) (r w R : List (Loc κ ν)), LoopInv evs tgt init r w →
    reachLoop evs tgt n r w = .ok R →
    Sorted R ∧ (∀ t, t ∈ R ↔ Reachable evs tgt init t) ∧ ∀ t ∈ R, Good evs tgt t := by
  intro n
  induction n with
  | zero => intro r w R _ h; cases h
  | succ n ih =>
    intro r w R hI h
    rw [reachLoop] at h
    split_ifs at h with hw
    · simp only [Reach.ok.injEq] at h
      subst h
      rw [List.isEmpty_iff] at hw
      subst hw
      refine ⟨hI.sr, fun t => ⟨hI.reach t, ?_⟩, fun t ht => (hI.done t ht (by simp)).1⟩
      rintro ⟨l, hl, hp⟩
      induction hp with
      | refl => exact hI.ini l hl
      | tail _ hs ih => exact (hI.done _ ih (by simp)).2 _ hs
    · cases hs : reachLocs evs tgt w (r, []) with
      | none => rw [hs] at h; cases h
      | some p =>
        obtain ⟨r', f'⟩ := p
        rw [hs] at h
        exact ih _ _ _ (hI.next hs) h

omit [LinearOrder κ] [LinearOrder ν] [LinearOrder ε] in
theorem Sorted.nodup {α : Type*} [LinearOrder α] {s : List α} (h : Sorted s) : s.Nodup :=
  h.imp fun hab => ne_of_lt hab

omit [LinearOrder ε] in
/-- The loop ends if the reachable locations belong to a finite set and the fuel exceeds its size by two. -/
theorem reachLoop_fuel {init : List (Loc κ ν)} (K : List (Loc κ ν)) (hK : ∀ t, Reachable evs tgt init t → t ∈ K) :
    ∀ (n : ℕ) (r w : List (Loc κ ν)), LoopInv evs tgt init r w → K.length + 2 ≤ n + r.length →
    reachLoop evs tgt n r w ≠ .outOfFuel := by
  have hlen : ∀ (r w : List (Loc κ ν)), LoopInv evs tgt init r w → r.length ≤ K.length := fun r w h =>
    (List.subperm_of_subset (Sorted.nodup h.sr) fun x hx => hK x (h.reach x hx)).length_le
  intro n
  induction n with
  | zero =>
    intro r w hI hn
    have := hlen r w hI
    omega
  | succ n ih =>
    intro r w hI hn
    rw [reachLoop]
    split_ifs with hw
    · simp
    · cases hs : reachLocs evs tgt w (r, []) with
      | none => simp
      | some p =>
        obtain ⟨r', f'⟩ := p
        simp only
        have hI' := hI.next hs
        obtain ⟨b1, b2, b3, b4, b5⟩ := reachLocs_spec _ _ _ _ _ hI.sr Sorted.nil hs
        cases hf : f' with
        | nil =>
          have := hlen r w hI
          obtain ⟨n', rfl⟩ : ∃ n', n = n' + 1 := ⟨n - 1, by omega⟩
          rw [reachLoop]
          simp
        | cons x f'' =>
          rw [← hf]
          refine ih _ _ hI' ?_
          have hx : x ∈ f' := by rw [hf]; simp
          have hx' : x ∈ r' ∧ x ∉ r := by
            rcases (b4 x).1 hx with h | h
            · cases h
            · exact h
          have : (x :: r).length ≤ r'.length := by
            refine (List.subperm_of_subset ?_ ?_).length_le
            · exact List.nodup_cons.2 ⟨hx'.2, Sorted.nodup hI.sr⟩
            · intro y hy
              rcases List.mem_cons.1 hy with rfl | hy
              · exact hx'.1
              · exact (b3 y).2 (Or.inl hy)
          simp only [List.length_cons] at this
          omega

omit [LinearOrder ε] in
theorem LoopInv.start {init : List (Loc κ ν)} (h : Sorted init) : LoopInv evs tgt init init init :=
  ⟨h, h, fun _ h => h, fun _ h => h, fun x hx => ⟨x, hx, Relation.ReflTransGen.refl⟩, fun _ h h' => absurd h h'⟩

omit [LinearOrder ε] in
/-- The loop ends; it gives the set of reachable locations if all of these have events and targets, and otherwise an
exception is thrown. -/
theorem reachLoop_spec {init : List (Loc κ ν)} (h : Sorted init) (K : List (Loc κ ν))
    (hK : ∀ t, Reachable evs tgt init t → t ∈ K) (n : ℕ) (hn : K.length + 2 ≤ n) :
    ((∀ t, Reachable evs tgt init t → Good evs tgt t) →
      ∃ R, reachLoop evs tgt n init init = .ok R ∧ Sorted R ∧ ∀ t, t ∈ R ↔ Reachable evs tgt init t) ∧
    ((∃ t, Reachable evs tgt init t ∧ ¬ Good evs tgt t) → ∃ err, reachLoop evs tgt n init init = .thrown err) := by
  have hf := reachLoop_fuel K hK n init init (LoopInv.start h) (by omega)
  have key : ∀ (n : ℕ) (r w : List (Loc κ ν)) err, LoopInv evs tgt init r w → reachLoop evs tgt n r w = .thrown err →
      ∃ t, Reachable evs tgt init t ∧ ¬ Good evs tgt t := by
    intro n
    induction n with
    | zero => intro r w err _ h; cases h
    | succ n ih =>
      intro r w err hI h
      rw [reachLoop] at h
      split_ifs at h with hw
      cases hs : reachLocs evs tgt w (r, []) with
      | some p =>
        obtain ⟨r', f'⟩ := p
        rw [hs] at h
        exact ih _ _ _ (hI.next hs) h
      | none =>
        by_contra hc
        push Not at hc
        have hgood : ∀ x ∈ w, Good evs tgt x := fun x hx => hc x (hI.reach x (hI.sub x hx))
        have ev : ∀ (tg : ε → Option (Loc κ ν)) (es : List ε) s, (∀ e ∈ es, (tg e).isSome) →
            reachEvents tg es s ≠ none := by
          intro tg es
          induction es with
          | nil => intro s _; simp [reachEvents]
          | cons e es ih =>
            intro s hes
            obtain ⟨r, f⟩ := s
            rw [reachEvents]
            obtain ⟨t, ht⟩ := Option.isSome_iff_exists.1 (hes e (by simp))
            rw [ht]
            simp only
            split_ifs
            · exact ih _ fun e he => hes e (by simp [he])
            · exact ih _ fun e he => hes e (by simp [he])
        have lc : ∀ (ls : List (Loc κ ν)) s, (∀ x ∈ ls, Good evs tgt x) → reachLocs evs tgt ls s ≠ none := by
          intro ls
          induction ls with
          | nil => intro s _; simp [reachLocs]
          | cons l ls ih =>
            intro s hls
            obtain ⟨es, he, hes⟩ := hls l (by simp)
            rw [reachLocs, he]
            simp only
            obtain ⟨s', hs'⟩ := Option.ne_none_iff_exists'.1 (ev (tgt l) es s hes)
            rw [hs']
            exact ih _ fun x hx => hls x (by simp [hx])
        exact lc w _ hgood hs
  cases hr : reachLoop evs tgt n init init with
  | outOfFuel => exact absurd hr hf
  | ok R =>
    obtain ⟨h1, h2, h3⟩ := reachLoop_ok n init init R (LoopInv.start h) hr
    refine ⟨fun _ => ⟨R, rfl, h1, h2⟩, ?_⟩
    rintro ⟨t, ht, hg⟩
    exact absurd (h3 t ((h2 t).2 ht)) hg
  | thrown err =>
    refine ⟨fun hall => ?_, fun _ => ⟨err, rfl⟩⟩
    obtain ⟨t, ht, hg⟩ := key n init init err (LoopInv.start h) hr
    exact absurd (hall t ht) hg

end Loop

/-! ### Discrete reachability -/

variable {L : Lang V E P} {A : Automaton κ ν V ε E P}

/-- `A` has an event from `l` to `t`. -/
def Jump (A : Automaton κ ν V ε E P) (l t : Loc κ ν) : Prop := ∃ e w, view A l e = some w ∧ w.target = some t

/-- `t` is reached from one of the given locations by a sequence of events. -/
def Reaches (A : Automaton κ ν V ε E P) (init : List (Loc κ ν)) (t : Loc κ ν) : Prop :=
  ∃ l ∈ init, Relation.ReflTransGen (Jump A) l t

theorem WF.gstep_iff (h : WF L A) (l t : Loc κ ν) (hs : GStep (events A) (target A) l t) : Jump A l t ∨ t = l := by
  obtain ⟨es, e, h1, h2, h3⟩ := hs
  have ho := C63_observers h l e
  obtain ⟨w, hw, -⟩ := (ho.2.2.2.2.2.2.2.1 es h1).1 h2
  rw [ho.2.2.2.2.2.2.1, hw] at h3
  simp only [Option.bind_some, Option.some.injEq] at h3
  cases ht : w.target with
  | none => rw [ht] at h3; exact Or.inr h3.symm
  | some t' =>
    rw [ht] at h3
    simp only [Option.getD_some] at h3
    subst h3
    exact Or.inl ⟨e, w, hw, ht⟩

theorem WF.gstep_of_jump (h : WF L A) (l t : Loc κ ν) (hj : Jump A l t) : GStep (events A) (target A) l t := by
  obtain ⟨e, w, hw, ht⟩ := hj
  have ho := C63_observers h l e
  cases hm : modeOf A l with
  | none => rw [view, hm] at hw; cases hw
  | some m =>
    refine ⟨m.events, e, by rw [events, hm]; rfl, ?_, ?_⟩
    · exact (ho.2.2.2.2.2.2.2.1 m.events (by rw [events, hm]; rfl)).2 ⟨w, hw, Or.inr (Or.inr (by rw [ht]; rfl))⟩
    · rw [ho.2.2.2.2.2.2.1, hw]
      simp [ht]

theorem WF.reachable_iff (h : WF L A) (init : List (Loc κ ν)) (t : Loc κ ν) :
    Reachable (events A) (target A) init t ↔ Reaches A init t := by
  constructor
  · rintro ⟨l, hl, hp⟩
    refine ⟨l, hl, ?_⟩
    induction hp with
    | refl => exact .refl
    | tail _ hs ih =>
      rcases h.gstep_iff _ _ hs with hj | rfl
      · exact ih.tail hj
      · exact ih
  · rintro ⟨l, hl, hp⟩
    refine ⟨l, hl, ?_⟩
    induction hp with
    | refl => exact .refl
    | tail _ hs ih => exact ih.tail (h.gstep_of_jump _ _ hs)

theorem WF.jump_target (h : WF L A) {l t : Loc κ ν} (hj : Jump A l t) : ∃ mt, (t, mt) ∈ A := by
  obtain ⟨e, w, hw, ht⟩ := hj
  rw [view, Option.map_eq_some_iff] at hw
  obtain ⟨m, hm, rfl⟩ := hw
  obtain ⟨q, hq, -⟩ := h.modeOf_iff.1 hm
  obtain ⟨mt, hmt, -⟩ := h.targets q m e t hq ht
  exact ⟨mt, hmt⟩

theorem WF.reaches_cases (h : WF L A) {init : List (Loc κ ν)} {t : Loc κ ν} (hr : Reaches A init t) :
    t ∈ init ∨ ∃ mt, (t, mt) ∈ A := by
  obtain ⟨l, hl, hp⟩ := hr
  cases hp with
  | refl => exact Or.inl hl
  | tail _ hs => exact Or.inr (h.jump_target hs)

theorem WF.good_iff (h : WF L A) (l : Loc κ ν) : Good (events A) (target A) l ↔ ∃ m, modeOf A l = some m := by
  constructor
  · rintro ⟨es, he, -⟩
    rw [events, Option.map_eq_some_iff] at he
    obtain ⟨m, hm, -⟩ := he
    exact ⟨m, hm⟩
  · rintro ⟨m, hm⟩
    refine ⟨m.events, by rw [events, hm]; rfl, fun e _ => ?_⟩
    rw [(C63_observers h l e).2.2.2.2.2.2.1]
    rfl

/-- C63: `discrete_reachability` terminates.  If every initial location has a mode, it gives exactly the locations
which are reached from one of these by a sequence of events; otherwise an exception is thrown. -/
theorem C63_discrete_reachability (h : WF L A) {init : List (Loc κ ν)} (hi : Sorted init) (n : ℕ)
    (hn : init.length + A.length + 2 ≤ n) :
    ((∀ l ∈ init, ∃ m, modeOf A l = some m) →
      ∃ R, discreteReachability A n init = .ok R ∧ Sorted R ∧ ∀ t, t ∈ R ↔ Reaches A init t) ∧
    ((∃ l ∈ init, modeOf A l = none) → ∃ err, discreteReachability A n init = .thrown err) := by
  have hK : ∀ t, Reachable (events A) (target A) init t → t ∈ init ++ A.map Prod.fst := by
    intro t ht
    rw [List.mem_append]
    rcases h.reaches_cases ((h.reachable_iff init t).1 ht) with h1 | ⟨m, h1⟩
    · exact Or.inl h1
    · exact Or.inr (List.mem_map.2 ⟨_, h1, rfl⟩)
  have hs := reachLoop_spec hi _ hK n (by simpa using hn)
  constructor
  · intro hall
    obtain ⟨R, h1, h2, h3⟩ := hs.1 fun t ht => (h.good_iff t).2 (by
      rcases h.reaches_cases ((h.reachable_iff init t).1 ht) with h1 | ⟨m, h1⟩
      · exact hall t h1
      · exact ⟨m, h.modeOf_self h1⟩)
    exact ⟨R, h1, h2, fun t => (h3 t).trans (h.reachable_iff init t)⟩
  · rintro ⟨l, hl, hm⟩
    refine hs.2 ⟨l, ⟨l, hl, .refl⟩, fun hg => ?_⟩
    obtain ⟨m, hm'⟩ := (h.good_iff l).1 hg
    rw [hm] at hm'
    cases hm'

/-! ### Checking -/

/-- A variable defined by an equation of a mode. -/
def Mode.Defines (m : Mode κ ν V ε E P) (v : V) : Prop := (∃ a ∈ m.aux, a.1 = v) ∨ ∃ a ∈ m.dyn, a.1 = v

/-- Every variable used in the mode is defined there, and every reset assigns the state variables of the target, no
more and no less. -/
structure WellSpecified (L : Lang V E P) (A : Automaton κ ν V ε E P) (m : Mode κ ν V ε E P) : Prop where
  aux : ∀ a ∈ m.aux, ∀ v ∈ L.eargs a.2, m.Defines v
  dyn : ∀ a ∈ m.dyn, ∀ v ∈ L.eargs a.2, m.Defines v
  invs : ∀ e p, find e m.invs = some p → ∀ v ∈ L.pargs p, m.Defines v
  guards : ∀ e p, find e m.guards = some p → ∀ v ∈ L.pargs p, m.Defines v
  resets : ∀ e r, find e m.resets = some r → ∀ a ∈ r, ∀ v ∈ L.eargs a.2, m.Defines v
  targets : ∀ e r, find e m.resets = some r → ∃ t mt, find e m.targets = some t ∧ (t, mt) ∈ A ∧
    ∀ v, (∃ a ∈ r, a.1 = v) ↔ ∃ a ∈ mt.dyn, a.1 = v

omit [LinearOrder ν] [LinearOrder ε] in
theorem argsDefined_iff (m : Mode κ ν V ε E P) (args : Finset V) :
    argsDefined (m.dyn.map Prod.fst ++ m.aux.map Prod.fst) args = true ↔ ∀ v ∈ args, m.Defines v := by
  rw [argsDefined, decide_eq_true_eq, Finset.subset_iff]
  refine forall₂_congr fun v _ => ?_
  rw [List.mem_toFinset, List.mem_append, List.mem_map, List.mem_map, Mode.Defines, or_comm]

omit [LinearOrder ν] [LinearOrder ε] in
theorem any_argsDefined {α : Type*} (m : Mode κ ν V ε E P) (s : List α) (f : α → Finset V) :
    (s.any fun a => !argsDefined (m.dyn.map Prod.fst ++ m.aux.map Prod.fst) (f a)) = true ↔
      ¬ ∀ a ∈ s, ∀ v ∈ f a, m.Defines v := by
  rw [← Bool.not_eq_false, not_iff_not, List.any_eq_false]
  refine forall₂_congr fun a _ => ?_
  rw [Bool.not_eq_true', Bool.not_eq_false, argsDefined_iff]

omit [LinearOrder κ] [LinearOrder ν] [LinearOrder V] in
theorem forall_find {α : Type*} {s : List (ε × α)} (hs : SortedKeys s) (Q : α → Prop) :
    (∀ a ∈ s, Q a.2) ↔ ∀ e x, find e s = some x → Q x := by
  constructor
  · intro h1 e x hx
    exact h1 (e, x) ((find_iff hs).1 hx)
  · rintro h1 ⟨e, x⟩ hx
    exact h1 e x ((find_iff hs).2 hx)

/-- C63: `check_mode` accepts exactly the locations whose mode is well specified. -/
theorem C63_check_mode (h : WF L A) (l : Loc κ ν) :
    checkMode L A l = none ↔ ∃ m, modeOf A l = some m ∧ WellSpecified L A m := by
  rw [checkMode]
  cases hm : modeOf A l with
  | none => simp
  | some m =>
    obtain ⟨q, hq, -⟩ := h.modeOf_iff.1 hm
    have w := h.modes _ _ hq
    simp only [Option.some.injEq, exists_eq_left']
    have hany2 : (m.resets.any fun r => r.2.any fun a =>
        !argsDefined (m.dyn.map Prod.fst ++ m.aux.map Prod.fst) (L.eargs a.2)) = true ↔
          ¬ ∀ r ∈ m.resets, ∀ a ∈ r.2, ∀ v ∈ L.eargs a.2, m.Defines v := by
      rw [← Bool.not_eq_false, not_iff_not, List.any_eq_false]
      refine forall₂_congr fun r _ => ?_
      rw [any_argsDefined m r.2 fun a => L.eargs a.2, not_not]
    have hsub : ∀ r tv : List V, (Container.subset (ofList r) (ofList tv) = true ↔ ∀ v ∈ r, v ∈ tv) := by
      intro r tv
      cases r with
      | nil => simp [ofList, Container.subset]
      | cons v₀ r =>
        rw [(C61_set_tests (C61_of_list (v₀ :: r)).1 (C61_of_list tv).1 [] v₀).2.1]
        simp only [(C61_of_list _).2]
    have hlast : (m.resets.findSome? fun r =>
        match find r.1 m.targets with
        | none => some Err.assertion
        | some t => match stateVariables A t with
          | none => some .specification
          | some tv =>
            if !Container.subset (ofList (r.2.map Prod.fst)) (ofList tv) then some .underspecifiedDynamic
            else if !Container.subset (ofList tv) (ofList (r.2.map Prod.fst)) then some .underspecifiedReset
            else none) = none ↔
        ∀ e r, find e m.resets = some r → ∃ t mt, find e m.targets = some t ∧ (t, mt) ∈ A ∧
          ∀ v, (∃ a ∈ r, a.1 = v) ↔ ∃ a ∈ mt.dyn, a.1 = v := by
      rw [List.findSome?_eq_none_iff]
      constructor
      · intro h1 e r hr
        have h2 := h1 (e, r) ((find_iff w.sResets).1 hr)
        simp only at h2
        cases ht : find e m.targets with
        | none => rw [ht] at h2; cases h2
        | some t =>
          obtain ⟨mt, hmt, -⟩ := h.targets q m e t hq ht
          rw [ht] at h2
          simp only [stateVariables, h.modeOf_self hmt, Option.map_some] at h2
          split_ifs at h2 with h3 h4
          rw [Bool.not_eq_true', Bool.not_eq_false, hsub] at h3 h4
          refine ⟨t, mt, rfl, hmt, fun v => ?_⟩
          rw [← List.mem_map, ← List.mem_map]
          exact ⟨h3 v, h4 v⟩
      · rintro h1 ⟨e, r⟩ hr
        obtain ⟨t, mt, ht, hmt, hv⟩ := h1 e r ((find_iff w.sResets).2 hr)
        simp only [ht, stateVariables, h.modeOf_self hmt, Option.map_some]
        have h3 := (hsub (r.map Prod.fst) (mt.dyn.map Prod.fst)).2 fun v hv' =>
          List.mem_map.2 ((hv v).1 (List.mem_map.1 hv'))
        have h4 := (hsub (mt.dyn.map Prod.fst) (r.map Prod.fst)).2 fun v hv' =>
          List.mem_map.2 ((hv v).2 (List.mem_map.1 hv'))
        simp [h3, h4]
    have e1 := any_argsDefined m m.aux fun a => L.eargs a.2
    have e2 := any_argsDefined m m.dyn fun a => L.eargs a.2
    have e3 := any_argsDefined m m.invs fun a => L.pargs a.2
    have e4 := any_argsDefined m m.guards fun a => L.pargs a.2
    rw [forall_find w.sInvs fun p => ∀ v ∈ L.pargs p, m.Defines v] at e3
    rw [forall_find w.sGuards fun p => ∀ v ∈ L.pargs p, m.Defines v] at e4
    rw [forall_find w.sResets fun r => ∀ a ∈ r, ∀ v ∈ L.eargs a.2, m.Defines v] at hany2
    constructor
    · intro h1
      split_ifs at h1 with c1 c2 c3 c4 c5
      exact ⟨not_not.1 (mt e1.2 c1), not_not.1 (mt e2.2 c2), not_not.1 (mt e3.2 c3), not_not.1 (mt e4.2 c4),
        not_not.1 (mt hany2.2 c5), hlast.1 h1⟩
    · intro hw
      rw [if_neg fun c => e1.1 c hw.aux, if_neg fun c => e2.1 c hw.dyn, if_neg fun c => e3.1 c hw.invs,
        if_neg fun c => e4.1 c hw.guards, if_neg fun c => hany2.1 c hw.resets]
      exact hlast.2 hw.targets

/-- C63: `check_reachable_modes` accepts exactly if every initial location has a mode, and every location reached from
these is well specified. -/
theorem C63_check_reachable (h : WF L A) {init : List (Loc κ ν)} (hi : Sorted init) (n : ℕ)
    (hn : init.length + A.length + 2 ≤ n) :
    checkReachable L A n init = .ok () ↔
      ∀ t, Reaches A init t → ∃ m, modeOf A t = some m ∧ WellSpecified L A m := by
  have hd := C63_discrete_reachability h hi n hn
  rw [checkReachable]
  by_cases hall : ∀ l ∈ init, ∃ m, modeOf A l = some m
  · obtain ⟨R, h1, h2, h3⟩ := hd.1 hall
    rw [h1]
    simp only
    have key : R.findSome? (checkMode L A) = none ↔
        ∀ t, Reaches A init t → ∃ m, modeOf A t = some m ∧ WellSpecified L A m := by
      rw [List.findSome?_eq_none_iff]
      exact ⟨fun h4 t ht => (C63_check_mode h t).1 (h4 t ((h3 t).2 ht)),
        fun h4 t ht => (C63_check_mode h t).2 (h4 t ((h3 t).1 ht))⟩
    rw [← key]
    cases R.findSome? (checkMode L A) <;> simp
  · push Not at hall
    obtain ⟨l, hl, hno⟩ := hall
    have hnone : modeOf A l = none := by
      cases e : modeOf A l with
      | none => rfl
      | some m => exact absurd e (hno m)
    obtain ⟨err, he⟩ := hd.2 ⟨l, hl, hnone⟩
    rw [he]
    simp only [reduceCtorEq, false_iff]
    intro h4
    obtain ⟨m, hm, -⟩ := h4 l ⟨l, hl, .refl⟩
    exact hno m hm

omit [LinearOrder κ] [LinearOrder ν] [LinearOrder ε] in
theorem mem_foldl_union (s : List (Finset V)) (u : Finset V) (v : V) :
    v ∈ s.foldl (· ∪ ·) u ↔ v ∈ u ∨ ∃ f ∈ s, v ∈ f := by
  induction s generalizing u with
  | nil => simp
  | cons f s ih => rw [List.foldl_cons, ih]; simp [or_assoc]

/-- C63: the input variables of a mode are those which are used in it and not defined in it. -/
theorem C63_inputs {m : Mode κ ν V ε E P} (w : ModeWF L m) (v : V) : v ∈ m.inputs L ↔ ¬ m.Defines v ∧
    ((∃ a ∈ m.aux, v ∈ L.eargs a.2) ∨ (∃ a ∈ m.dyn, v ∈ L.eargs a.2) ∨
      (∃ e p, find e m.invs = some p ∧ v ∈ L.pargs p) ∨ (∃ e p, find e m.guards = some p ∧ v ∈ L.pargs p) ∨
      ∃ e r, find e m.resets = some r ∧ ∃ a ∈ r, v ∈ L.eargs a.2) := by
  have hd : m.Defines v ↔ v ∈ m.aux.map Prod.fst ∨ v ∈ m.dyn.map Prod.fst := by
    rw [List.mem_map, List.mem_map, Mode.Defines]
  rw [Mode.inputs]
  rw [Finset.mem_filter, mem_foldl_union, hd, not_or, and_comm]
  refine and_congr Iff.rfl ?_
  simp only [find_iff w.sInvs, find_iff w.sGuards, find_iff w.sResets, Finset.notMem_empty, false_or, List.mem_append,
    List.mem_map, List.mem_flatMap]
  constructor
  · rintro ⟨f, ((⟨x, ⟨a, ha, rfl⟩ | ⟨a, ha, rfl⟩, rfl⟩ | ⟨x, ⟨⟨e, a⟩, ha, rfl⟩ | ⟨⟨e, a⟩, ha, rfl⟩, rfl⟩) |
      ⟨x, ⟨⟨e, r⟩, hr, a, ha, rfl⟩, rfl⟩), hv⟩
    · exact Or.inl ⟨a, ha, hv⟩
    · exact Or.inr (Or.inl ⟨a, ha, hv⟩)
    · exact Or.inr (Or.inr (Or.inl ⟨e, a, ha, hv⟩))
    · exact Or.inr (Or.inr (Or.inr (Or.inl ⟨e, a, ha, hv⟩)))
    · exact Or.inr (Or.inr (Or.inr (Or.inr ⟨e, r, hr, a, ha, hv⟩)))
  · rintro (⟨a, ha, hv⟩ | ⟨a, ha, hv⟩ | ⟨e, a, ha, hv⟩ | ⟨e, a, ha, hv⟩ | ⟨e, r, hr, a, ha, hv⟩)
    · exact ⟨_, Or.inl (Or.inl ⟨a.2, Or.inl ⟨a, ha, rfl⟩, rfl⟩), hv⟩
    · exact ⟨_, Or.inl (Or.inl ⟨a.2, Or.inr ⟨a, ha, rfl⟩, rfl⟩), hv⟩
    · exact ⟨_, Or.inl (Or.inr ⟨a, Or.inl ⟨(e, a), ha, rfl⟩, rfl⟩), hv⟩
    · exact ⟨_, Or.inl (Or.inr ⟨a, Or.inr ⟨(e, a), ha, rfl⟩, rfl⟩), hv⟩
    · exact ⟨_, Or.inr ⟨a.2, ⟨(e, r), hr, a, ha, rfl⟩, rfl⟩, hv⟩

end Verif.Hybrid
