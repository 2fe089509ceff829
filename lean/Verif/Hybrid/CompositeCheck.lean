import Verif.Hybrid.CompositeProps
import Mathlib.Data.List.Sections

/-!
# C65: checking the composition of hybrid automata
-/

namespace Verif.Hybrid

open Verif.Container Ariadne.AlgebraicSort

variable {N κ ν V ε E P : Type*} [LinearOrder N] [LinearOrder κ] [LinearOrder ν] [LinearOrder V] [LinearOrder ε]

/-! ### Ordering the algebraic equations -/

/-- Invariant of the loop of `order`: `vars` are the variables still to be ordered. -/
structure OrderInv (L : Lang V E P) (as : List (V × E)) (inputs : List V) (vars : List V) (deps : V → Finset V)
    (out : List (V × E)) : Prop where
  perm : (out.map Prod.fst ++ vars).Perm (as.map Prod.fst)
  sub : ∀ a ∈ out, a ∈ as
  deps : ∀ a ∈ as, ∀ w, w ∈ deps a.1 ↔ w ∈ L.eargs a.2 ∧ w ∉ inputs ∧ w ∉ out.map Prod.fst
  ordered : ∀ p a s, out = p ++ a :: s → ∀ v ∈ L.eargs a.2, v ∈ inputs ∨ v ∈ p.map Prod.fst

omit [LinearOrder V] in
theorem find_fst [DecidableEq V] {as : List (V × E)} (hn : (as.map Prod.fst).Nodup) {a : V × E} (ha : a ∈ as) :
    as.find? (fun b => b.1 = a.1) = some a := by
  induction as with
  | nil => simp at ha
  | cons b bs ih =>
    rw [List.map_cons, List.nodup_cons] at hn
    rcases List.mem_cons.1 ha with e | e
    · rw [e]; simp
    · rw [List.find?_cons_of_neg, ih hn.2 e]
      simp only [decide_eq_true_eq]
      intro h; exact hn.1 (h ▸ List.mem_map_of_mem e)

theorem OrderInv.step {L : Lang V E P} {as : List (V × E)} {inputs : List V} {vars : List V} {deps : V → Finset V}
    {out : List (V × E)} (h : OrderInv L as inputs vars deps out) {a : V × E} (ha : a ∈ as) (hav : a.1 ∈ vars)
    (hd : deps a.1 = ∅) :
    OrderInv L as inputs (vars.erase a.1) (fun w => (deps w).erase a.1) (out ++ [a]) := by
  refine ⟨?_, ?_, ?_, ?_⟩
  · rw [List.map_append, List.map_cons, List.map_nil, List.append_assoc, List.singleton_append]
    exact (List.Perm.append_left _ (List.perm_cons_erase hav).symm).trans h.perm
  · intro b hb
    rcases List.mem_append.1 hb with e | e
    · exact h.sub b e
    · rw [List.mem_singleton.1 e]; exact ha
  · intro b hb w
    simp only [Finset.mem_erase, h.deps b hb, List.map_append, List.map_cons, List.map_nil, List.mem_append,
      List.mem_singleton, not_or]
    tauto
  · intro p b s he v hv
    rcases List.eq_nil_or_concat s with rfl | ⟨s', c, rfl⟩
    · obtain ⟨h1, h2⟩ := List.append_inj' he rfl
      simp only [List.cons.injEq, and_true] at h2
      subst h1 h2
      by_contra hc
      push Not at hc
      have : v ∈ deps a.1 := (h.deps a ha v).2 ⟨hv, hc⟩
      rw [hd] at this
      simp at this
    · rw [List.concat_eq_append, ← List.cons_append, ← List.append_assoc] at he
      exact h.ordered p b s' (List.append_inj' he rfl).1 v hv

/-- What the loop of `order` gives. -/
theorem orderLoop_spec {L : Lang V E P} {as : List (V × E)} {inputs : List V} (hn : (as.map Prod.fst).Nodup) :
    ∀ (n : ℕ) (vars : List V) (deps : V → Finset V) (out : List (V × E)), vars.length ≤ n →
      OrderInv L as inputs vars deps out →
      (∀ r, orderLoop as n vars deps out = some r → ∃ deps', OrderInv L as inputs [] deps' r) ∧
      (orderLoop as n vars deps out = none → ∃ vars' deps' out', OrderInv L as inputs vars' deps' out' ∧ vars' ≠ [] ∧
        ∀ v ∈ vars', deps' v ≠ ∅) := by
  intro n
  induction n with
  | zero =>
    intro vars deps out hl h
    have hv : vars = [] := List.length_eq_zero_iff.1 (by omega)
    subst hv
    refine ⟨fun r hr => ?_, fun hr => ?_⟩
    · simp only [orderLoop, if_true, Option.some.injEq] at hr
      subst hr
      exact ⟨deps, h⟩
    · simp [orderLoop] at hr
  | succ n ih =>
    intro vars deps out hl h
    rw [orderLoop]
    by_cases hv : vars = []
    · subst hv
      rw [if_pos rfl]
      refine ⟨fun r hr => ?_, fun hr => ?_⟩
      · cases hr; exact ⟨deps, h⟩
      · cases hr
    · rw [if_neg hv]
      cases hf : vars.find? (fun v => deps v = ∅) with
      | none =>
        refine ⟨fun r hr => ?_, fun _ => ⟨vars, deps, out, h, hv, fun v hv => ?_⟩⟩
        · cases hr
        · simpa using List.find?_eq_none.1 hf v hv
      | some v =>
        have hm := List.mem_of_find?_eq_some hf
        have hd : deps v = ∅ := by simpa using List.find?_some hf
        obtain ⟨a, ha, rfl⟩ := List.mem_map.1 (h.perm.mem_iff.1 (List.mem_append_right _ hm))
        simp only
        rw [find_fst hn ha, Option.toList_some]
        refine ih _ _ _ ?_ (h.step ha hm hd)
        rw [List.length_erase_of_mem hm]
        omega

/-- spec: an equation uses a variable which is defined by another equation and is not an input -/
def Uses (L : Lang V E P) (as : List (V × E)) (inputs : List V) (v w : V) : Prop :=
  w ∈ as.map Prod.fst ∧ w ∉ inputs ∧ ∃ a ∈ as, a.1 = v ∧ w ∈ L.eargs a.2

/-- C65: for equations of different variables, `order` succeeds exactly if every variable used is an input or defined by
an equation, and there is no algebraic loop.  The result is a permutation of the equations in which every equation uses
inputs and the variables of previous equations only. -/
theorem C65_order (L : Lang V E P) {as : List (V × E)} (hn : (as.map Prod.fst).Nodup) (inputs : List V) :
    ((∃ r, order L as inputs = some r) ↔ (∀ a ∈ as, ∀ v ∈ L.eargs a.2, v ∈ inputs ∨ v ∈ as.map Prod.fst) ∧
      ∀ v, ¬ Relation.TransGen (Uses L as inputs) v v) ∧
    ∀ r, order L as inputs = some r → r.Perm as ∧
      ∀ p a s, r = p ++ a :: s → ∀ v ∈ L.eargs a.2, v ∈ inputs ∨ v ∈ p.map Prod.fst := by
  have hof := C61_of_list (as.map Prod.fst)
  have hperm : (ofList (as.map Prod.fst)).Perm (as.map Prod.fst) :=
    (List.perm_ext_iff_of_nodup (Sorted.nodup hof.1) hn).2 hof.2
  have h0 : OrderInv L as inputs (ofList (as.map Prod.fst)) (fun v => match as.find? (fun a => a.1 = v) with
        | none => ∅
        | some a => L.eargs a.2 \ inputs.toFinset) [] := by
    refine ⟨by simpa using hperm, by simp, fun a ha w => ?_, by simp⟩
    rw [find_fst hn ha]
    simp
  have hlen : (ofList (as.map Prod.fst)).length ≤ as.length := by
    rw [hperm.length_eq, List.length_map]
  obtain ⟨s1, s2⟩ := orderLoop_spec hn as.length _ _ _ hlen h0
  have hok : ∀ r, order L as inputs = some r → r.Perm as ∧
      ∀ p a s, r = p ++ a :: s → ∀ v ∈ L.eargs a.2, v ∈ inputs ∨ v ∈ p.map Prod.fst := by
    intro r hr
    rw [order] at hr
    split at hr
    · cases hr
    · next r' hr' =>
      split_ifs at hr with hl
      cases hr
      obtain ⟨deps', hi⟩ := s1 _ hr'
      have hp := hi.perm
      rw [List.append_nil] at hp
      refine ⟨?_, hi.ordered⟩
      have hno : (r.map Prod.fst).Nodup := hp.nodup_iff.2 hn
      refine (List.perm_ext_iff_of_nodup (hno.of_map _) (hn.of_map _)).2 fun a => ⟨hi.sub a, fun ha => ?_⟩
      obtain ⟨b, hb, e⟩ := List.mem_map.1 (hp.mem_iff.2 (List.mem_map_of_mem ha))
      have h1 := find_fst hn (hi.sub b hb)
      rw [e, find_fst hn ha] at h1
      cases h1
      exact hb
  refine ⟨⟨?_, ?_⟩, hok⟩
  · rintro ⟨r, hr⟩
    obtain ⟨hp, ho⟩ := hok r hr
    refine ⟨fun a ha v hv => ?_, fun v hv => ?_⟩
    · obtain ⟨p, s, hps⟩ := List.append_of_mem (hp.mem_iff.2 ha)
      refine (ho p a s hps v hv).imp_right fun h => (hp.map Prod.fst).mem_iff.1 ?_
      rw [hps, List.map_append]
      exact List.mem_append_left _ h
    · have hnr : (r.map Prod.fst).Nodup := (hp.map Prod.fst).nodup_iff.2 hn
      have key : ∀ v w, Uses L as inputs v w → (r.map Prod.fst).idxOf w < (r.map Prod.fst).idxOf v := by
        rintro v w ⟨-, hwi, a, ha, rfl, hwa⟩
        obtain ⟨p, s, hps⟩ := List.append_of_mem (hp.mem_iff.2 ha)
        have h1 := (ho p a s hps w hwa).resolve_left hwi
        rw [hps, List.map_append, List.map_cons] at hnr ⊢
        have h2 : a.1 ∉ p.map Prod.fst := fun hc => (List.nodup_append.1 hnr).2.2 _ hc _ (by simp) rfl
        rw [List.idxOf_append_of_mem h1, List.idxOf_append_of_notMem h2]
        have := List.idxOf_lt_length_of_mem h1
        omega
      have : ∀ v w, Relation.TransGen (Uses L as inputs) v w → (r.map Prod.fst).idxOf w < (r.map Prod.fst).idxOf v := by
        intro v w h
        induction h with
        | single h => exact key _ _ h
        | tail _ h ih => exact (key _ _ h).trans ih
      exact lt_irrefl _ (this v v hv)
  · rintro ⟨hdef, hcyc⟩
    rw [order]
    split
    · next hr =>
      exfalso
      obtain ⟨vars, deps, out, hi, hne, hst⟩ := s2 hr
      have hdep : ∀ v ∈ vars, ∃ w ∈ vars, Uses L as inputs v w := by
        intro v hv
        obtain ⟨a, ha, rfl⟩ := List.mem_map.1 (hi.perm.mem_iff.1 (List.mem_append_right _ hv))
        obtain ⟨w, hw⟩ := Finset.nonempty_iff_ne_empty.2 (hst _ hv)
        rw [hi.deps a ha] at hw
        have hwa := (hdef a ha w hw.1).resolve_left hw.2.1
        exact ⟨w, (List.mem_append.1 (hi.perm.mem_iff.2 hwa)).resolve_left hw.2.2, hwa, hw.2.1, a, ha, rfl, hw.1⟩
      let S := {v // v ∈ vars.toFinset}
      haveI : Nonempty S := by
        obtain ⟨v, hv⟩ := List.exists_mem_of_ne_nil _ hne
        exact ⟨⟨v, List.mem_toFinset.2 hv⟩⟩
      let r : S → S → Prop := fun a b => Relation.TransGen (Uses L as inputs) b.1 a.1
      haveI : IsTrans S r := ⟨fun a b c h1 h2 => Relation.TransGen.trans h2 h1⟩
      haveI : Std.Irrefl r := ⟨fun a h => hcyc a.1 h⟩
      haveI : Finite S := Finite.of_fintype S
      have hwf : WellFounded r := Finite.wellFounded_of_trans_of_irrefl r
      obtain ⟨m, _, hm⟩ := hwf.has_min Set.univ Set.univ_nonempty
      obtain ⟨w, hw, hd⟩ := hdep m.1 (List.mem_toFinset.1 m.2)
      exact hm ⟨w, List.mem_toFinset.2 hw⟩ trivial (Relation.TransGen.single hd)
    · next r hr =>
      obtain ⟨deps', hi⟩ := s1 _ hr
      have := hi.perm.length_eq
      simp only [List.append_nil, List.length_map] at this
      exact ⟨r, if_pos this⟩

/-! ### What the components give -/

variable {L : CLang V E P} {C : Composite N κ ν V ε E P}

omit [LinearOrder N] [LinearOrder V] [LinearOrder ε] in
theorem cAppend_at {α : Type*} {l : Loc κ ν} (f : Automaton κ ν V ε E P → Option (List α))
    (g : Mode κ ν V ε E P → List α) : ∀ {C : Composite N κ ν V ε E P} {ms : List (Mode κ ν V ε E P)}, At C l ms →
    (∀ c ∈ C, ∀ m, modeOf c.2 l = some m → f c.2 = some (g m)) → cAppend f C = some (ms.flatMap g)
  | [], _, .nil, _ => rfl
  | c :: C, _, .cons h t, hf => by
    rw [cAppend, hf c (by simp) _ h, cAppend_at f g t fun c hc => hf c (by simp [hc])]
    simp

omit [LinearOrder N] [LinearOrder V] [LinearOrder ε] in
theorem cAppend_none {α : Type*} {l : Loc κ ν} (f : Automaton κ ν V ε E P → Option (List α))
    (C : Composite N κ ν V ε E P) (hno : ¬ ∃ ms, At C l ms) (hf : ∀ c ∈ C, modeOf c.2 l = none → f c.2 = none) :
    cAppend f C = none := by
  induction C with
  | nil => exact absurd ⟨[], .nil⟩ hno
  | cons c C ih =>
    rw [cAppend]
    cases hm : modeOf c.2 l with
    | none => rw [hf c (by simp) hm]
    | some m =>
      rw [ih (fun ⟨ms, h⟩ => hno ⟨m :: ms, .cons hm h⟩) fun c hc => hf c (by simp [hc])]
      cases f c.2 <;> rfl

omit [LinearOrder N] [LinearOrder V] [LinearOrder ε] in
theorem cPredicateLoop_at {l : Loc κ ν} (f : Automaton κ ν V ε E P → Option P) (g : Mode κ ν V ε E P → P) :
    ∀ {C : Composite N κ ν V ε E P} {ms : List (Mode κ ν V ε E P)} (acc : P), At C l ms →
    (∀ c ∈ C, ∀ m, modeOf c.2 l = some m → f c.2 = some (g m)) →
    cPredicateLoop L f C acc = some ((ms.map g).foldl (conjoin L) acc)
  | [], _, _, .nil, _ => rfl
  | c :: C, _, acc, .cons h t, hf => by
    rw [cPredicateLoop, hf c (by simp) _ h]
    simp only
    rw [cPredicateLoop_at f g _ t fun c hc => hf c (by simp [hc])]
    rfl

/-- spec: the assignments of a mode with an event: those of its transition, or without one each variable keeps its
value -/
def Mode.resetOf (L : CLang V E P) (e : ε) (m : Mode κ ν V ε E P) : List (V × E) :=
  (find e m.resets).getD (m.dyn.map fun a => (a.1, L.evar a.1))

theorem hasTransition_of {A : Automaton κ ν V ε E P} (h : WF L.toLang A) {l : Loc κ ν} {m : Mode κ ν V ε E P}
    (hm : modeOf A l = some m) (e : ε) : hasTransition A l e = (find e m.targets).isSome := by
  rw [hasTransition, hm]
  simp only
  rw [(C63_mode h l).2.2.2.2.2 ⟨m, hm⟩, Bool.true_and, hasKey]

theorem hasGuard_of {A : Automaton κ ν V ε E P} (h : WF L.toLang A) {l : Loc κ ν} {m : Mode κ ν V ε E P}
    (hm : modeOf A l = some m) (e : ε) : hasGuard A l e = (find e m.guards).isSome := by
  rw [hasGuard, hm]
  simp only
  rw [(C63_mode h l).2.2.2.2.2 ⟨m, hm⟩, Bool.true_and, hasKey]

theorem resetAssignments_of {A : Automaton κ ν V ε E P} (h : WF L.toLang A) {l : Loc κ ν} {m : Mode κ ν V ε E P}
    (hm : modeOf A l = some m) (e : ε) : resetAssignments L.evar A l e = some (m.resetOf L e) := by
  obtain ⟨q, hq, -⟩ := h.modeOf_iff.1 hm
  have w := (h.modes q m hq).resets e
  rw [resetAssignments, hasTransition_of h hm, Mode.resetOf, hm]
  cases ht : find e m.targets with
  | none =>
    cases hr : find e m.resets with
    | none => simp
    | some r => rw [ht, hr] at w; simp at w
  | some t =>
    cases hr : find e m.resets with
    | none => rw [ht, hr] at w; simp at w
    | some r => simp [hr]

/-- C65: the equations and resets of the composition are those of the components: in the order of these, for each
component the assignments of its transition or, without one, the identity.  All fail exactly if a component has no mode
in the location. -/
theorem C65_assignments (hC : ∀ c ∈ C, WF L.toLang c.2) (l : Loc κ ν) (e : ε) :
    (∀ ms, At C l ms → cStateVariables C l = some (ms.flatMap fun m => m.dyn.map Prod.fst) ∧
      cAuxiliary C l = some (ms.flatMap (·.aux)) ∧ cDynamic C l = some (ms.flatMap (·.dyn)) ∧
      cResets L C l e = some (ms.flatMap (Mode.resetOf L e))) ∧
    ((¬ ∃ ms, At C l ms) → cStateVariables C l = none ∧ cAuxiliary C l = none ∧ cDynamic C l = none ∧
      cResets L C l e = none) := by
  refine ⟨fun ms ha => ⟨?_, ?_, ?_, ?_⟩, fun hno => ⟨?_, ?_, ?_, ?_⟩⟩
  · exact cAppend_at _ _ ha fun c _ m hm => by rw [stateVariables, hm]; rfl
  · exact cAppend_at _ _ ha fun c _ m hm => by rw [hm]; rfl
  · exact cAppend_at _ _ ha fun c _ m hm => by rw [hm]; rfl
  · exact cAppend_at _ _ ha fun c hc m hm => resetAssignments_of (hC c hc) hm e
  · exact cAppend_none (l := l) _ _ hno fun c _ hm => by rw [stateVariables, hm]; rfl
  · exact cAppend_none (l := l) _ _ hno fun c _ hm => by rw [hm]; rfl
  · exact cAppend_none (l := l) _ _ hno fun c _ hm => by rw [hm]; rfl
  · exact cAppend_none (l := l) _ _ hno fun c _ hm => by
      rw [resetAssignments, hasTransition, hm]
      rfl

/-! ### Predicates -/

/-- What is assumed of the language: `&&` uses the variables of both sides and is not a constant, constants use no
variables and are not both true and false, a variable uses only itself. -/
structure CLang.Ok (L : CLang V E P) : Prop where
  pand : ∀ p q, L.pargs (L.pand p q) = L.pargs p ∪ L.pargs q
  ptrue : L.pargs L.ptrue = ∅
  isTrue : ∀ p, L.isTrue p = true → L.pargs p = ∅
  isFalse : ∀ p, L.isFalse p = true → L.pargs p = ∅
  excl : ∀ p, L.isTrue p = true → L.isFalse p = false
  pandFalse : ∀ p q, L.isFalse (L.pand p q) = false
  ptrueFalse : L.isFalse L.ptrue = false
  evar : ∀ v, L.eargs (L.evar v) = {v}

/-- The variables of a conjunction: none if one of the predicates is the constant `false`, and otherwise those of all. -/
theorem conjoin_args (hL : L.Ok) (ps : List P) : ∀ acc : P,
    ((∃ p ∈ acc :: ps, L.isFalse p = true) → L.isFalse (ps.foldl (conjoin L) acc) = true) ∧
    ((∀ p ∈ acc :: ps, L.isFalse p = false) →
      ∀ v, v ∈ L.pargs (ps.foldl (conjoin L) acc) ↔ ∃ p ∈ acc :: ps, v ∈ L.pargs p) := by
  induction ps with
  | nil => intro acc; simp
  | cons q ps ih =>
    intro acc
    rw [List.foldl_cons]
    obtain ⟨ih1, ih2⟩ := ih (conjoin L acc q)
    constructor
    · rintro ⟨p, hp, hf⟩
      refine ih1 ?_
      simp only [List.mem_cons] at hp
      by_cases hmem : p ∈ ps
      · exact ⟨p, by simp [hmem], hf⟩
      · refine ⟨conjoin L acc q, by simp, ?_⟩
        rw [conjoin]
        rcases hp with rfl | rfl | hp
        · by_cases h1 : L.isTrue p || L.isFalse q
          · rw [if_pos h1]
            rw [Bool.or_eq_true] at h1
            by_cases h2 : L.isFalse q = true
            · exact h2
            · rw [hL.excl p (h1.resolve_right h2)] at hf
              cases hf
          · rw [if_neg h1, if_pos (by simp [hf])]
            exact hf
        · rw [if_pos (by simp [hf])]
          exact hf
        · exact absurd hp hmem
    · intro hall v
      have ha := hall acc (by simp)
      have hq := hall q (by simp)
      have hc : L.isFalse (conjoin L acc q) = false ∧ L.pargs (conjoin L acc q) = L.pargs acc ∪ L.pargs q := by
        rw [conjoin, ha, hq, Bool.or_false, Bool.or_false]
        by_cases h1 : L.isTrue acc = true
        · rw [if_pos h1, hL.isTrue acc h1, Finset.empty_union]
          exact ⟨hq, rfl⟩
        · rw [if_neg h1]
          by_cases h2 : L.isTrue q = true
          · rw [if_pos h2, hL.isTrue q h2, Finset.union_empty]
            exact ⟨ha, rfl⟩
          · rw [if_neg h2]
            exact ⟨hL.pandFalse _ _, hL.pand _ _⟩
      rw [ih2 (by
        intro p hp
        rcases List.mem_cons.1 hp with rfl | hp
        · exact hc.1
        · exact hall p (by simp [hp])) v]
      simp only [List.mem_cons, exists_eq_or_imp, hc.2, Finset.mem_union, or_assoc]

/-- spec: the invariants and guards used are within the variables `Q`, where a constant `false` makes the others
irrelevant -/
def ArgsOK (L : CLang V E P) (Q : V → Prop) (ps : List P) : Prop :=
  (∃ p ∈ ps, L.isFalse p = true) ∨ ∀ p ∈ ps, ∀ v ∈ L.pargs p, Q v

theorem conjoin_argsOK (hL : L.Ok) (Q : V → Prop) (ps : List P) :
    (∀ v ∈ L.pargs (ps.foldl (conjoin L) L.ptrue), Q v) ↔ ArgsOK L Q ps := by
  obtain ⟨h1, h2⟩ := conjoin_args hL ps L.ptrue
  rw [ArgsOK]
  by_cases hf : ∃ p ∈ ps, L.isFalse p = true
  · obtain ⟨p, hp, hpf⟩ := hf
    rw [hL.isFalse _ (h1 ⟨p, by simp [hp], hpf⟩)]
    exact iff_of_true (by simp) (Or.inl ⟨p, hp, hpf⟩)
  · rw [or_iff_right hf]
    push Not at hf
    have hall : ∀ p ∈ L.ptrue :: ps, L.isFalse p = false := by
      intro p hp
      rcases List.mem_cons.1 hp with rfl | hp
      · exact hL.ptrueFalse
      · simpa using hf p hp
    simp only [h2 hall, List.mem_cons, exists_eq_or_imp, hL.ptrue, Finset.notMem_empty, false_or]
    exact ⟨fun h p hp v hv => h v ⟨p, hp, hv⟩, fun h v ⟨p, hp, hv⟩ => h p hp v hv⟩

theorem predicates_at (l : Loc κ ν) (e : ε) {ms : List (Mode κ ν V ε E P)} (ha : At C l ms) :
    cInvariantPredicate L C l e = some ((ms.map fun m => (find e m.invs).getD L.ptrue).foldl (conjoin L) L.ptrue) ∧
    cGuardPredicate L C l e = some ((ms.map fun m => (find e m.guards).getD L.ptrue).foldl (conjoin L) L.ptrue) :=
  ⟨cPredicateLoop_at _ _ _ ha fun c _ m hm => by rw [invariantPredicate, hm]; rfl,
    cPredicateLoop_at _ _ _ ha fun c _ m hm => by rw [guardPredicate, hm]; rfl⟩

/-! ### Checking -/

/-- spec: an event which is urgent in a component -/
def Urgent (A : Automaton κ ν V ε E P) (l : Loc κ ν) (e : ε) : Prop :=
  ∃ m, modeOf A l = some m ∧ (find e m.guards).isSome ∧
    (find e m.kinds = some .urgent ∨ find e m.kinds = some .impact)

/-- spec: an event with a nontrivial guard, which is not urgent in a component -/
def Restricting (L : CLang V E P) (A : Automaton κ ν V ε E P) (l : Loc κ ν) (e : ε) : Prop :=
  ∃ m g, modeOf A l = some m ∧ find e m.guards = some g ∧ find e m.kinds ≠ some .urgent ∧
    find e m.kinds ≠ some .impact ∧ L.isTrue g = false

theorem foldl_insert_if {α : Type*} (C : List (N × α)) (b : N × α → Bool) : ∀ acc : List N, Sorted acc →
    Sorted (C.foldl (fun s c => if b c then Container.insert c.1 s else s) acc) ∧
    ∀ n, n ∈ C.foldl (fun s c => if b c then Container.insert c.1 s else s) acc ↔
      n ∈ acc ∨ ∃ c ∈ C, b c = true ∧ c.1 = n := by
  induction C with
  | nil => intro acc h; simpa using h
  | cons c C ih =>
    intro acc h
    rw [List.foldl_cons]
    by_cases hb : b c = true
    · rw [if_pos hb]
      obtain ⟨h1, h2⟩ := ih _ (h.insert (x := c.1))
      refine ⟨h1, fun n => ?_⟩
      rw [h2, mem_insert]
      simp only [List.mem_cons, exists_eq_or_imp, hb, true_and]
      rw [eq_comm (a := n)]
      tauto
    · rw [if_neg hb]
      obtain ⟨h1, h2⟩ := ih _ h
      refine ⟨h1, fun n => ?_⟩
      rw [h2]
      simp [hb]

/-- The urgent components. -/
theorem urgentIn_spec (hC : ∀ c ∈ C, WF L.toLang c.2) (l : Loc κ ν) (e : ε) :
    Sorted (urgentIn C l e) ∧ ∀ n, n ∈ urgentIn C l e ↔ ∃ c ∈ C, Urgent c.2 l e ∧ c.1 = n := by
  classical
  have heq : urgentIn C l e = C.foldl (fun s c => if decide (Urgent c.2 l e) then Container.insert c.1 s else s) [] := by
    rw [urgentIn]
    refine List.foldl_ext _ _ _ fun s c hc => ?_
    cases hm : modeOf c.2 l with
    | none => simp [hasGuard, Urgent, hm]
    | some m =>
      rw [hasGuard_of (hC c hc) hm, eventKind, hm]
      simp only [Urgent, hm, Option.some.injEq, exists_eq_left', Option.bind_some]
      cases find e m.guards with
      | none => simp
      | some g =>
        cases find e m.kinds with
        | none => simp
        | some k => cases k <;> simp
  rw [heq]
  obtain ⟨h1, h2⟩ := foldl_insert_if C (fun c => decide (Urgent c.2 l e)) [] Sorted.nil
  refine ⟨h1, fun n => ?_⟩
  rw [h2]
  simp

theorem permissiveIn_spec (hC : ∀ c ∈ C, WF L.toLang c.2) (l : Loc κ ν) (e : ε) :
    ∀ n, n ∈ permissiveIn L C l e ↔ ∃ c ∈ C, Restricting L c.2 l e ∧ c.1 = n := by
  classical
  have heq : permissiveIn L C l e =
      C.foldl (fun s c => if decide (Restricting L c.2 l e) then Container.insert c.1 s else s) [] := by
    rw [permissiveIn]
    refine List.foldl_ext _ _ _ fun s c hc => ?_
    cases hm : modeOf c.2 l with
    | none => simp [hasGuard, Restricting, hm]
    | some m =>
      rw [hasGuard_of (hC c hc) hm, eventKind, hm, guardPredicate, hm]
      simp only [Restricting, hm, Option.some.injEq, exists_and_left, exists_eq_left', Option.bind_some]
      cases hgd : find e m.guards with
      | none => simp
      | some g =>
        cases find e m.kinds with
        | none => cases hg : L.isTrue g <;> simp [hg, hgd]
        | some k => cases k <;> cases hg : L.isTrue g <;> simp [hg, hgd]
  rw [heq]
  obtain ⟨h1, h2⟩ := foldl_insert_if C (fun c => decide (Restricting L c.2 l e)) [] Sorted.nil
  intro n
  rw [h2]
  simp

omit [LinearOrder N] in
theorem length_le_one_iff {α : Type*} {s : List α} (h : s.Nodup) : ¬ 1 < s.length ↔ ∀ x ∈ s, ∀ y ∈ s, x = y := by
  match s, h with
  | [], _ => simp
  | [a], _ => simp
  | a :: b :: s, h =>
    simp only [List.length_cons, Nat.lt_add_left_iff_pos, Nat.zero_lt_succ, not_true_eq_false, false_iff]
    intro hall
    rw [List.nodup_cons] at h
    exact h.1 (hall a (by simp) b (by simp) ▸ by simp)

/-- spec: what is required of an event of a location of the composition -/
structure EventOK (L : CLang V E P) (C : Composite N κ ν V ε E P) (l : Loc κ ν) (ms : List (Mode κ ν V ε E P))
    (e : ε) : Prop where
  /-- the guards use variables defined in the location -/
  guard : ArgsOK L (fun v => ∃ m ∈ ms, m.Defines v) (ms.map fun m => (find e m.guards).getD L.ptrue)
  /-- the event is urgent in components of one name only -/
  urgent : ∀ c ∈ C, ∀ c' ∈ C, Urgent c.2 l e → Urgent c'.2 l e → c.1 = c'.1
  /-- if it is, then no other component restricts it -/
  restrict : ∀ c ∈ C, ∀ c' ∈ C, Urgent c.2 l e → ¬ Restricting L c'.2 l e
  /-- the resets use variables defined in the location -/
  reset : ∀ m ∈ ms, ∀ r, find e m.resets = some r → ∀ a ∈ r, ∀ v ∈ L.eargs a.2, ∃ m' ∈ ms, m'.Defines v
  /-- the target is a location of the composition, and its state variables are reset once each, and no others -/
  target : ∃ t ms', cTarget C l e = some t ∧ At C t ms' ∧
    ((ms.flatMap (Mode.resetOf L e)).map Prod.fst).Nodup ∧
    ∀ v, (∃ m ∈ ms, ∃ a ∈ m.resetOf L e, a.1 = v) ↔ ∃ m ∈ ms', ∃ a ∈ m.dyn, a.1 = v

/-- spec: what is required of a location of the composition -/
structure CWellSpecified (L : CLang V E P) (C : Composite N κ ν V ε E P) (l : Loc κ ν)
    (ms : List (Mode κ ν V ε E P)) : Prop where
  /-- every variable is defined once -/
  once : ((ms.flatMap (·.dyn)).map Prod.fst ++ (ms.flatMap (·.aux)).map Prod.fst).Nodup
  /-- the equations use variables defined in the location -/
  aux : ∀ m ∈ ms, ∀ a ∈ m.aux, ∀ v ∈ L.eargs a.2, ∃ m' ∈ ms, m'.Defines v
  dyn : ∀ m ∈ ms, ∀ a ∈ m.dyn, ∀ v ∈ L.eargs a.2, ∃ m' ∈ ms, m'.Defines v
  /-- there is no algebraic loop -/
  acyclic : ∀ v, ¬ Relation.TransGen (DependsOn ((ms.flatMap (·.aux)).map (toEq L.toLang))) v v
  /-- guards and transitions match -/
  matched : Matched ms
  /-- the invariants use variables defined in the location -/
  invs : ∀ e, ArgsOK L (fun v => ∃ m ∈ ms, m.Defines v) (ms.map fun m => (find e m.invs).getD L.ptrue)
  events : ∀ e, (∃ m ∈ ms, e ∈ m.events) → EventOK L C l ms e

/-- The variables defined in the location. -/
theorem argsDefined_at (ms : List (Mode κ ν V ε E P)) (args : Finset V) :
    argsDefined ((ms.flatMap (·.dyn)).map Prod.fst ++ (ms.flatMap (·.aux)).map Prod.fst) args = true ↔
      ∀ v ∈ args, ∃ m ∈ ms, m.Defines v := by
  rw [argsDefined, decide_eq_true_eq, Finset.subset_iff]
  refine forall₂_congr fun v _ => ?_
  simp only [List.mem_toFinset, List.mem_append, List.mem_map, List.mem_flatMap, Mode.Defines]
  constructor
  · rintro (⟨a, ⟨m, hm, ha⟩, rfl⟩ | ⟨a, ⟨m, hm, ha⟩, rfl⟩)
    · exact ⟨m, hm, Or.inr ⟨a, ha, rfl⟩⟩
    · exact ⟨m, hm, Or.inl ⟨a, ha, rfl⟩⟩
  · rintro ⟨m, hm, ⟨a, ha, rfl⟩ | ⟨a, ha, rfl⟩⟩
    · exact Or.inr ⟨a, ⟨m, hm, ha⟩, rfl⟩
    · exact Or.inl ⟨a, ⟨m, hm, ha⟩, rfl⟩

theorem any_argsDefined_at {α : Type*} (ms : List (Mode κ ν V ε E P)) (g : Mode κ ν V ε E P → List α)
    (f : α → Finset V) :
    ((ms.flatMap g).any fun a => !argsDefined ((ms.flatMap (·.dyn)).map Prod.fst ++ (ms.flatMap (·.aux)).map Prod.fst)
      (f a)) = true ↔ ¬ ∀ m ∈ ms, ∀ a ∈ g m, ∀ v ∈ f a, ∃ m' ∈ ms, m'.Defines v := by
  rw [← Bool.not_eq_false, not_iff_not, List.any_eq_false]
  simp only [List.mem_flatMap, forall_exists_index, and_imp]
  constructor
  · intro h m hm a ha
    have := h a m hm ha
    rwa [Bool.not_eq_true', Bool.not_eq_false, argsDefined_at] at this
  · intro h a m hm ha
    rw [Bool.not_eq_true', Bool.not_eq_false, argsDefined_at]
    exact h m hm a ha

theorem subset_ofList (r tv : List V) : Container.subset (ofList r) (ofList tv) = true ↔ ∀ v ∈ r, v ∈ tv := by
  rw [Container.subset, List.all_eq_true]
  simp only [contains_iff (C61_of_list tv).1, (C61_of_list _).2]

/-- The check of one event. -/
theorem checkEvent_iff (hL : L.Ok) (hC : ∀ c ∈ C, WF L.toLang c.2) {l : Loc κ ν} {ms : List (Mode κ ν V ε E P)}
    (ha : At C l ms) (e : ε) :
    checkEvent L C l ((ms.flatMap (·.dyn)).map Prod.fst ++ (ms.flatMap (·.aux)).map Prod.fst) e = none ↔
      EventOK L C l ms e := by
  have hw := ha.wf hC
  obtain ⟨t, ht⟩ := (C65_target C l e).1.2 ⟨ms, ha⟩
  obtain ⟨hv1, hv2⟩ := C65_assignments (L := L) hC t e
  rw [checkEvent, ht]
  simp only
  rw [(predicates_at (L := L) l e ha).2, ((C65_assignments (L := L) hC l e).1 ms ha).2.2.2]
  by_cases hat : ∃ ms', At C t ms'
  swap
  · rw [(hv2 hat).1]
    simp only [reduceCtorEq, false_iff]
    intro h
    obtain ⟨t', ms', ht', hat', -⟩ := h.target
    rw [ht] at ht'
    cases ht'
    exact hat ⟨ms', hat'⟩
  obtain ⟨ms', hat'⟩ := hat
  rw [(hv1 ms' hat').1]
  simp only
  obtain ⟨us, um⟩ := urgentIn_spec hC l e
  have pm := permissiveIn_spec hC l e
  -- the conditions
  have c1 : ¬ 1 < (urgentIn C l e).length ↔ ∀ c ∈ C, ∀ c' ∈ C, Urgent c.2 l e → Urgent c'.2 l e → c.1 = c'.1 := by
    rw [length_le_one_iff (Sorted.nodup us)]
    constructor
    · intro h c hc c' hc' hu hu'
      exact h _ ((um _).2 ⟨c, hc, hu, rfl⟩) _ ((um _).2 ⟨c', hc', hu', rfl⟩)
    · intro h x hx y hy
      obtain ⟨c, hc, hu, rfl⟩ := (um x).1 hx
      obtain ⟨c', hc', hu', rfl⟩ := (um y).1 hy
      exact h c hc c' hc' hu hu'
  have c2 : ¬ 1 < (urgentIn C l e).length →
      (¬ ((urgentIn C l e).length = 1 ∧ 0 < (permissiveIn L C l e).length) ↔
        ∀ c ∈ C, ∀ c' ∈ C, Urgent c.2 l e → ¬ Restricting L c'.2 l e) := by
    intro h1
    constructor
    · intro h c hc c' hc' hu hr
      refine h ⟨?_, List.length_pos_of_mem ((pm _).2 ⟨c', hc', hr, rfl⟩)⟩
      have := List.length_pos_of_mem ((um _).2 ⟨c, hc, hu, rfl⟩)
      omega
    · rintro h ⟨h2, h3⟩
      obtain ⟨x, hx⟩ := List.length_pos_iff_exists_mem.1 (show 0 < (urgentIn C l e).length by omega)
      obtain ⟨y, hy⟩ := List.length_pos_iff_exists_mem.1 h3
      obtain ⟨c, hc, hu, rfl⟩ := (um x).1 hx
      obtain ⟨c', hc', hr, rfl⟩ := (pm y).1 hy
      exact h c hc c' hc' hu hr
  have c3 := (argsDefined_at ms (L.pargs ((ms.map fun m => (find e m.guards).getD L.ptrue).foldl (conjoin L) L.ptrue))).trans
    (conjoin_argsOK hL (fun v => ∃ m ∈ ms, m.Defines v) _)
  have c4 := any_argsDefined_at ms (Mode.resetOf L e) fun a => L.eargs a.2
  have c4' : (∀ m ∈ ms, ∀ a ∈ m.resetOf L e, ∀ v ∈ L.eargs a.2, ∃ m' ∈ ms, m'.Defines v) ↔
      ∀ m ∈ ms, ∀ r, find e m.resets = some r → ∀ a ∈ r, ∀ v ∈ L.eargs a.2, ∃ m' ∈ ms, m'.Defines v := by
    refine forall₂_congr fun m hm => ?_
    rw [Mode.resetOf]
    cases hr : find e m.resets with
    | some r => simp
    | none =>
      simp only [Option.getD_none, List.mem_map, reduceCtorEq, false_imp_iff, implies_true, iff_true]
      rintro _ ⟨a, ha, rfl⟩ v hv
      simp only [hL.evar, Finset.mem_singleton] at hv
      subst hv
      exact ⟨m, hm, Or.inr ⟨a, ha, rfl⟩⟩
  have m1 : ∀ v, v ∈ (ms.flatMap (Mode.resetOf L e)).map Prod.fst ↔ ∃ m ∈ ms, ∃ a ∈ m.resetOf L e, a.1 = v := by
    intro v
    simp only [List.mem_map, List.mem_flatMap]
    exact ⟨fun ⟨a, ⟨m, hm, ha⟩, h⟩ => ⟨m, hm, a, ha, h⟩, fun ⟨m, hm, a, ha, h⟩ => ⟨a, ⟨m, hm, ha⟩, h⟩⟩
  have m2 : ∀ v, v ∈ (ms'.flatMap fun m => m.dyn.map Prod.fst) ↔ ∃ m ∈ ms', ∃ a ∈ m.dyn, a.1 = v := by
    intro v
    simp only [List.mem_map, List.mem_flatMap]
  have c6 := subset_ofList ((ms.flatMap (Mode.resetOf L e)).map Prod.fst) (ms'.flatMap fun m => m.dyn.map Prod.fst)
  have c7 := subset_ofList (ms'.flatMap fun m => m.dyn.map Prod.fst) ((ms.flatMap (Mode.resetOf L e)).map Prod.fst)
  have c5 := C61_unique ((ms.flatMap (Mode.resetOf L e)).map Prod.fst)
  constructor
  · intro h
    split_ifs at h with h1 h2 h3 h4 h5 h6 h7
    rw [Bool.not_eq_true', Bool.not_eq_false] at h3 h5 h6 h7
    refine ⟨c3.1 h3, c1.1 h1, (c2 h1).1 h2, c4'.1 (not_not.1 (mt c4.2 h4)), t, ms', ht, hat', c5.1 h5, fun v => ?_⟩
    rw [← m1, ← m2]
    exact ⟨c6.1 h6 v, c7.1 h7 v⟩
  · intro h
    obtain ⟨t', ms'', ht', hat'', hn, hv⟩ := h.target
    rw [ht] at ht'
    cases ht'
    rw [hat''.unique hat'] at hv
    have h1 := c1.2 h.urgent
    rw [if_neg h1, if_neg ((c2 h1).2 h.restrict), if_neg (by rw [c3.2 h.guard]; simp),
      if_neg fun hc => c4.1 hc (c4'.2 h.reset), if_neg (by rw [c5.2 hn]; simp), if_neg, if_neg]
    · rw [c7.2 fun v h' => (m1 v).2 ((hv v).2 ((m2 v).1 h'))]; simp
    · rw [c6.2 fun v h' => (m2 v).2 ((hv v).1 ((m1 v).1 h'))]; simp

/-- C65: `check_mode` of a composition accepts exactly the locations which are well specified: every variable has one
definition, every variable used is defined, there is no algebraic loop, guards and transitions match, an urgent event
has its guard in one component only, and the resets of all components together assign the state variables of the target
once each. -/
theorem C65_check_mode (hL : L.Ok) (hC : ∀ c ∈ C, WF L.toLang c.2) (l : Loc κ ν) :
    cCheckMode L C l = none ↔ ∃ ms, At C l ms ∧ CWellSpecified L C l ms := by
  rw [cCheckMode]
  by_cases hat : ∃ ms, At C l ms
  swap
  · cases he : C.map Prod.fst with
    | nil =>
      exfalso
      have : C = [] := by simpa using he
      subst this
      exact hat ⟨[], .nil⟩
    | cons n ns =>
      obtain ⟨e1, e2⟩ : cAuxiliary C l = none ∧ cDynamic C l = none :=
        ⟨cAppend_none (l := l) _ _ hat fun c _ hm => by rw [hm]; rfl,
          cAppend_none (l := l) _ _ hat fun c _ hm => by rw [hm]; rfl⟩
      rw [e1, e2]
      simp only [reduceCtorEq, false_iff]
      rintro ⟨ms, h, -⟩
      exact hat ⟨ms, h⟩
  obtain ⟨ms, ha⟩ := hat
  have e1 : cAuxiliary C l = some (ms.flatMap (·.aux)) := cAppend_at _ _ ha fun c _ m hm => by rw [hm]; rfl
  have e2 : cDynamic C l = some (ms.flatMap (·.dyn)) := cAppend_at _ _ ha fun c _ m hm => by rw [hm]; rfl
  rw [e1, e2]
  simp only
  have hex : (∃ ms, At C l ms ∧ CWellSpecified L C l ms) ↔ CWellSpecified L C l ms :=
    ⟨fun ⟨ms', h1, h2⟩ => ha.unique h1 ▸ h2, fun h => ⟨ms, ha, h⟩⟩
  rw [hex]
  have b1 := C61_unique ((ms.flatMap (·.dyn)).map Prod.fst ++ (ms.flatMap (·.aux)).map Prod.fst)
  have b2 := any_argsDefined_at ms (·.aux) fun a => L.eargs a.2
  have b3 := any_argsDefined_at ms (·.dyn) fun a => L.eargs a.2
  have b4 : ((ms.flatMap (·.dyn)).map Prod.fst ++ (ms.flatMap (·.aux)).map Prod.fst).Nodup →
      (∀ m ∈ ms, ∀ a ∈ m.aux, ∀ v ∈ L.eargs a.2, ∃ m' ∈ ms, m'.Defines v) →
      ((∃ r, order L.toLang (ms.flatMap (·.aux)) ((ms.flatMap (·.dyn)).map Prod.fst) = some r) ↔
        ∀ v, ¬ Relation.TransGen (DependsOn ((ms.flatMap (·.aux)).map (toEq L.toLang))) v v) := by
    intro hn hd
    obtain ⟨n1, n2, n3⟩ := List.nodup_append.1 hn
    rw [(C65_order L.toLang n2 _).1, and_iff_right]
    · have huses : Uses L.toLang (ms.flatMap (·.aux)) ((ms.flatMap (·.dyn)).map Prod.fst) =
          DependsOn ((ms.flatMap (·.aux)).map (toEq L.toLang)) := by
        ext v w
        have hlm : ((ms.flatMap (·.aux)).map (toEq L.toLang)).map (·.lhs) = (ms.flatMap (·.aux)).map Prod.fst := by
          rw [List.map_map]; rfl
        rw [Uses, Ariadne.AlgebraicSort.DependsOn, hlm]
        constructor
        · rintro ⟨h1, h2, a, h3, h4, h5⟩
          exact ⟨h1, toEq L.toLang a, List.mem_map_of_mem h3, h4, h5⟩
        · rintro ⟨h1, q, h3, h4, h5⟩
          obtain ⟨a, h6, rfl⟩ := List.mem_map.1 h3
          exact ⟨h1, fun hc => n3 w hc w h1 rfl, a, h6, h4, h5⟩
      rw [huses]
    · intro a h1 v hv
      obtain ⟨m, hm, h1⟩ := List.mem_flatMap.1 h1
      obtain ⟨m', hm', ⟨b, hb, rfl⟩ | ⟨b, hb, rfl⟩⟩ := hd m hm a h1 v hv
      · exact Or.inr (List.mem_map_of_mem (List.mem_flatMap.2 ⟨m', hm', hb⟩))
      · exact Or.inl (List.mem_map_of_mem (List.mem_flatMap.2 ⟨m', hm', hb⟩))
  have b5 : (∃ es, cEvents C l = some es) ↔ Matched ms := by
    rw [(C65_events hC l).1]
    exact ⟨fun ⟨ms', h1, h2⟩ => ha.unique h1 ▸ h2, fun h => ⟨ms, ha, h⟩⟩
  have b6 : ∀ es, cEvents C l = some es → ∀ e, e ∈ es ↔ ∃ m ∈ ms, e ∈ m.events := by
    intro es hes e
    rw [((C65_events hC l).2 es hes).2 e]
    constructor
    · rintro ⟨c, hc, es', he, h⟩
      rw [events, Option.map_eq_some_iff] at he
      obtain ⟨m, hm, rfl⟩ := he
      exact ⟨m, (ha.mem m).2 ⟨c, hc, hm⟩, h⟩
    · rintro ⟨m, hm, h⟩
      obtain ⟨c, hc, hm⟩ := (ha.mem m).1 hm
      exact ⟨c, hc, m.events, by rw [events, hm]; rfl, h⟩
  -- events without an invariant
  have b7 : ∀ e, (¬ ∃ m ∈ ms, e ∈ m.events) →
      ArgsOK L (fun v => ∃ m ∈ ms, m.Defines v) (ms.map fun m => (find e m.invs).getD L.ptrue) := by
    intro e he
    refine Or.inr fun p hp v hv => ?_
    obtain ⟨m, hm, rfl⟩ := List.mem_map.1 hp
    cases hf : find e m.invs with
    | none =>
      simp only [hf, Option.getD_none, hL.ptrue] at hv
      exact absurd hv (Finset.notMem_empty v)
    | some p =>
      refine absurd ⟨m, hm, ?_⟩ he
      rw [Mode.events, mem_adjoin, mem_adjoin, mem_keys_find (ha.wf hC m hm).1.sInvs, hf]
      exact Or.inl (Or.inl rfl)
  have b8 : ∀ e, checkInvariant L C l ((ms.flatMap (·.dyn)).map Prod.fst ++ (ms.flatMap (·.aux)).map Prod.fst) e = none ↔
      ArgsOK L (fun v => ∃ m ∈ ms, m.Defines v) (ms.map fun m => (find e m.invs).getD L.ptrue) := by
    intro e
    rw [checkInvariant, (predicates_at (L := L) l e ha).1]
    simp only
    rw [← conjoin_argsOK hL, ← argsDefined_at]
    split_ifs with h <;> simpa using h
  constructor
  · intro h
    split_ifs at h with h1 h2 h3
    rw [Bool.not_eq_true', Bool.not_eq_false] at h1
    have h1 := b1.1 h1
    have h2 := not_not.1 (mt b2.2 h2)
    have h3 := not_not.1 (mt b3.2 h3)
    split at h
    · cases h
    · next r hr =>
      split at h
      · cases h
      · next es hes =>
        split at h
        · cases h
        · next hinv =>
          rw [List.findSome?_eq_none_iff] at h hinv
          refine ⟨h1, h2, h3, (b4 h1 h2).1 ⟨r, hr⟩, b5.1 ⟨es, hes⟩, fun e => ?_, fun e he => ?_⟩
          · by_cases he : ∃ m ∈ ms, e ∈ m.events
            · exact (b8 e).1 (hinv e ((b6 es hes e).2 he))
            · exact b7 e he
          · exact (checkEvent_iff hL hC ha e).1 (h e ((b6 es hes e).2 he))
  · intro h
    rw [if_neg (by rw [b1.2 h.once]; simp), if_neg fun hc => b2.1 hc h.aux, if_neg fun hc => b3.1 hc h.dyn]
    obtain ⟨r, hr⟩ := (b4 h.once h.aux).2 h.acyclic
    obtain ⟨es, hes⟩ := b5.2 h.matched
    rw [hr, hes]
    simp only
    rw [List.findSome?_eq_none_iff.2 fun e he => (b8 e).2 (h.invs e)]
    simp only
    exact List.findSome?_eq_none_iff.2 fun e he => (checkEvent_iff hL hC ha e).2 (h.events e ((b6 es hes e).1 he))

/-! ### Discrete reachability -/

/-- spec: with some event of the components, each component goes to its next location -/
def CJump (C : Composite N κ ν V ε E P) (l t : Loc κ ν) : Prop :=
  ∃ ms e, At C l ms ∧ (∃ m ∈ ms, e ∈ m.events) ∧ ∀ k, t.get k = ms.findSome? fun m => (m.next e).get k

/-- spec: reached by a sequence of events from one of the given locations -/
def CReaches (C : Composite N κ ν V ε E P) (init : List (Loc κ ν)) (t : Loc κ ν) : Prop :=
  ∃ l ∈ init, Relation.ReflTransGen (CJump C) l t

theorem gstep_composite (hC : ∀ c ∈ C, WF L.toLang c.2) (l t : Loc κ ν) :
    GStep (cEvents C) (cTarget C) l t ↔ (∃ ms, At C l ms ∧ Matched ms) ∧ CJump C l t := by
  have hev : ∀ ms, At C l ms → ∀ es, cEvents C l = some es → ∀ e, e ∈ es ↔ ∃ m ∈ ms, e ∈ m.events := by
    intro ms ha es hes e
    rw [((C65_events hC l).2 es hes).2 e]
    constructor
    · rintro ⟨c, hc, es', he, h⟩
      rw [events, Option.map_eq_some_iff] at he
      obtain ⟨m, hm, rfl⟩ := he
      exact ⟨m, (ha.mem m).2 ⟨c, hc, hm⟩, h⟩
    · rintro ⟨m, hm, h⟩
      obtain ⟨c, hc, hm⟩ := (ha.mem m).1 hm
      exact ⟨c, hc, m.events, by rw [events, hm]; rfl, h⟩
  constructor
  · rintro ⟨es, e, h1, h2, h3⟩
    obtain ⟨ms, ha, hM⟩ := (C65_events hC l).1.1 ⟨es, h1⟩
    exact ⟨⟨ms, ha, hM⟩, ms, e, ha, (hev ms ha es h1 e).1 h2, (C65_target C l e).2 ms t ha h3⟩
  · rintro ⟨⟨ms, ha, hM⟩, ms', e, ha', he, ht⟩
    rw [← ha.unique ha'] at he ht
    obtain ⟨es, hes⟩ := (C65_events hC l).1.2 ⟨ms, ha, hM⟩
    obtain ⟨t', ht'⟩ := (C65_target C l e).1.2 ⟨ms, ha⟩
    have : t' = t := Loc.ext_get fun k => by rw [(C65_target C l e).2 ms t' ha ht' k, ht k]
    exact ⟨es, e, hes, (hev ms ha es hes e).2 he, this ▸ ht'⟩

theorem good_composite (hC : ∀ c ∈ C, WF L.toLang c.2) (l : Loc κ ν) :
    Good (cEvents C) (cTarget C) l ↔ ∃ ms, At C l ms ∧ Matched ms := by
  rw [← (C65_events hC l).1]
  constructor
  · rintro ⟨es, h, -⟩
    exact ⟨es, h⟩
  · rintro ⟨es, h⟩
    refine ⟨es, h, fun e _ => ?_⟩
    obtain ⟨ms, ha, -⟩ := (C65_events hC l).1.1 ⟨es, h⟩
    obtain ⟨t, ht⟩ := (C65_target C l e).1.2 ⟨ms, ha⟩
    rw [ht]
    rfl

/-- The locations which the composition can reach after a step. -/
def joins (C : Composite N κ ν V ε E P) : List (Loc κ ν) :=
  (List.sections (C.map fun c => c.2.map Prod.fst)).map fun ls => ls.foldl Loc.join Loc.empty

theorem jump_mem_joins (hC : ∀ c ∈ C, WF L.toLang c.2) {l t : Loc κ ν} (h : CJump C l t) : t ∈ joins C := by
  obtain ⟨ms, e, ha, -, ht⟩ := h
  refine List.mem_map.2 ⟨ms.map (Mode.next e), ?_, ?_⟩
  · rw [List.mem_sections]
    clear ht
    induction ha with
    | nil => exact .nil
    | @cons c m C ms h tl ih =>
      refine .cons ?_ (ih fun c hc => hC c (by simp [hc]))
      have w := hC c (by simp)
      obtain ⟨q, hq, -⟩ := w.modeOf_iff.1 h
      rw [Mode.next]
      cases hf : find e m.targets with
      | none => exact List.mem_map.2 ⟨(q, m), hq, by rw [Option.getD_none, w.loc q m hq]⟩
      | some t' =>
        obtain ⟨mt, hmt, -⟩ := w.targets q m e t' hq hf
        exact List.mem_map.2 ⟨(t', mt), hmt, rfl⟩
  · refine Loc.ext_get fun k => ?_
    rw [foldl_join_get, ht k, List.findSome?_map]
    rfl

theorem length_sections' (C : Composite N κ ν V ε E P) :
    (joins C).length = (C.map fun c => c.2.length).prod := by
  rw [joins, List.length_map]
  induction C with
  | nil => rfl
  | cons c C ih =>
    rw [List.map_cons, List.map_cons, List.prod_cons, List.sections, List.length_flatMap, ← ih]
    simp only [List.length_map, List.map_const', List.sum_replicate, smul_eq_mul]
    exact Nat.mul_comm _ _

/-- C65: `discrete_reachability` of a composition terminates, after at most as many rounds as there are initial
locations and combinations of locations of the components.  If in every location reached by a sequence of events all
components have modes and guards match transitions, it gives exactly these locations; otherwise an exception is
thrown. -/
theorem C65_discrete_reachability (hC : ∀ c ∈ C, WF L.toLang c.2) {init : List (Loc κ ν)} (hi : Sorted init) (n : ℕ)
    (hn : init.length + (C.map fun c => c.2.length).prod + 2 ≤ n) :
    ((∀ t, CReaches C init t → ∃ ms, At C t ms ∧ Matched ms) →
      ∃ R, cDiscreteReachability C n init = .ok R ∧ Sorted R ∧ ∀ t, t ∈ R ↔ CReaches C init t) ∧
    ((∃ t, CReaches C init t ∧ ¬ ∃ ms, At C t ms ∧ Matched ms) →
      ∃ err, cDiscreteReachability C n init = .thrown err) := by
  have sub : ∀ t, Reachable (cEvents C) (cTarget C) init t → CReaches C init t := by
    rintro t ⟨l, hl, h⟩
    exact ⟨l, hl, Relation.ReflTransGen.mono (fun a b hab => ((gstep_composite hC a b).1 hab).2) _ _ h⟩
  have hK : ∀ t, Reachable (cEvents C) (cTarget C) init t → t ∈ init ++ joins C := by
    intro t ht
    rw [List.mem_append]
    obtain ⟨l, hl, h⟩ := sub t ht
    cases h with
    | refl => exact Or.inl hl
    | tail _ hs => exact Or.inr (jump_mem_joins hC hs)
  have hs := reachLoop_spec hi _ hK n (by rw [List.length_append, length_sections']; exact hn)
  -- a location reached through bad ones, or a bad one reached properly
  have key : ∀ t, CReaches C init t → Reachable (cEvents C) (cTarget C) init t ∨
      ∃ u, Reachable (cEvents C) (cTarget C) init u ∧ ¬ Good (cEvents C) (cTarget C) u := by
    rintro t ⟨l, hl, h⟩
    induction h with
    | refl => exact Or.inl ⟨l, hl, .refl⟩
    | @tail a b _ hab ih =>
      rcases ih with ⟨l', hl', h'⟩ | h'
      · by_cases hg : Good (cEvents C) (cTarget C) a
        · exact Or.inl ⟨l', hl', h'.tail ((gstep_composite hC a b).2 ⟨(good_composite hC a).1 hg, hab⟩)⟩
        · exact Or.inr ⟨a, ⟨l', hl', h'⟩, hg⟩
      · exact Or.inr h'
  constructor
  · intro hall
    have hgood : ∀ t, Reachable (cEvents C) (cTarget C) init t → Good (cEvents C) (cTarget C) t := fun t ht =>
      (good_composite hC t).2 (hall t (sub t ht))
    obtain ⟨R, h1, h2, h3⟩ := hs.1 hgood
    refine ⟨R, h1, h2, fun t => (h3 t).trans ⟨sub t, fun ht => ?_⟩⟩
    rcases key t ht with h | ⟨u, hu, hb⟩
    · exact h
    · exact absurd (hgood u hu) hb
  · rintro ⟨t, ht, hbad⟩
    refine hs.2 ?_
    rcases key t ht with h | h
    · exact ⟨t, h, mt (good_composite hC t).1 hbad⟩
    · exact h

/-- C65: `check_reachable_modes` accepts exactly if every location reached by a sequence of events is well specified. -/
theorem C65_check_reachable (hL : L.Ok) (hC : ∀ c ∈ C, WF L.toLang c.2) {init : List (Loc κ ν)} (hi : Sorted init)
    (n : ℕ) (hn : init.length + (C.map fun c => c.2.length).prod + 2 ≤ n) :
    cCheckReachable L C n init = .ok () ↔
      ∀ t, CReaches C init t → ∃ ms, At C t ms ∧ CWellSpecified L C t ms := by
  obtain ⟨d1, d2⟩ := C65_discrete_reachability hC hi n hn
  rw [cCheckReachable]
  by_cases hall : ∀ t, CReaches C init t → ∃ ms, At C t ms ∧ Matched ms
  · obtain ⟨R, h1, -, h3⟩ := d1 hall
    rw [h1]
    simp only
    have key : R.findSome? (cCheckMode L C) = none ↔
        ∀ t, CReaches C init t → ∃ ms, At C t ms ∧ CWellSpecified L C t ms := by
      rw [List.findSome?_eq_none_iff]
      exact ⟨fun h4 t ht => (C65_check_mode hL hC t).1 (h4 t ((h3 t).2 ht)),
        fun h4 t ht => (C65_check_mode hL hC t).2 (h4 t ((h3 t).1 ht))⟩
    rw [← key]
    cases R.findSome? (cCheckMode L C) <;> simp
  · push Not at hall
    obtain ⟨t, ht, hbad⟩ := hall
    obtain ⟨err, he⟩ := d2 ⟨t, ht, fun ⟨ms, h1, h2⟩ => hbad ms h1 h2⟩
    rw [he]
    simp only [reduceCtorEq, false_iff]
    intro h
    obtain ⟨ms, h1, h2⟩ := h t ht
    exact hbad ms h1 h2.matched

end Verif.Hybrid
