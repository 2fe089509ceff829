import Verif.AlgebraicSort.Model
import Mathlib.Order.WellFounded
import Mathlib.Order.RelClasses
import Mathlib.Data.Fintype.Order
import Mathlib.Logic.Relation
import Mathlib.Data.Finset.Max

/-!
# C39: ordering algebraic equations
-/

namespace Ariadne.AlgebraicSort

variable {V : Type*} [DecidableEq V]

/-- spec: every equation uses only variables defined before it, or not at all -/
def Ordered (aux l : List (Equation V)) : Prop :=
  ∀ p a s, l = p ++ a :: s → ∀ v ∈ a.args, v ∈ aux.map (·.lhs) → v ∈ p.map (·.lhs)

/-- spec: `DependsOn aux v w`: the equation for `v` uses the defined variable `w` -/
def DependsOn (aux : List (Equation V)) (v w : V) : Prop :=
  w ∈ aux.map (·.lhs) ∧ ∃ a ∈ aux, a.lhs = v ∧ w ∈ a.args

/-- spec: there is an algebraic loop -/
def Cyclic (aux : List (Equation V)) : Prop := ∃ v, Relation.TransGen (DependsOn aux) v v

theorem find_lhs {aux : List (Equation V)} (hn : (aux.map (·.lhs)).Nodup) {a : Equation V} (ha : a ∈ aux) :
    aux.find? (fun b => b.lhs = a.lhs) = some a := by
  induction aux with
  | nil => simp at ha
  | cons b bs ih =>
    rw [List.map_cons, List.nodup_cons] at hn
    rcases List.mem_cons.1 ha with e | e
    · rw [e]; simp
    · rw [List.find?_cons_of_neg, ih hn.2 e]
      simp only [decide_eq_true_eq]
      intro h; exact hn.1 (h ▸ List.mem_map_of_mem e)

/-- Invariant of the loop. -/
structure Inv (aux : List (Equation V)) (lhs : List V) (deps : V → Finset V) (out : List (Equation V)) : Prop where
  perm : (out.map (·.lhs) ++ lhs).Perm (aux.map (·.lhs))
  sub : ∀ a ∈ out, a ∈ aux
  deps : ∀ a ∈ aux, ∀ w, w ∈ deps a.lhs ↔ w ∈ a.args ∧ w ∈ aux.map (·.lhs) ∧ w ∉ out.map (·.lhs)
  ordered : Ordered aux out

theorem Inv.init {aux : List (Equation V)} (hn : (aux.map (·.lhs)).Nodup) :
    Inv aux (aux.map (·.lhs)) (dependencies aux) [] := by
  refine ⟨by simp, by simp, ?_, ?_⟩
  · intro a ha w
    unfold dependencies
    rw [find_lhs hn ha]
    simp only [Finset.mem_inter, List.mem_toFinset]
    simp
  · intro p a s h
    simp at h

theorem Inv.step {aux : List (Equation V)} (hn : (aux.map (·.lhs)).Nodup) {lhs : List V} {deps : V → Finset V}
    {out : List (Equation V)} (h : Inv aux lhs deps out) {a : Equation V} (ha : a ∈ aux) (hal : a.lhs ∈ lhs)
    (hd : deps a.lhs = ∅) : Inv aux (lhs.erase a.lhs) (fun w => (deps w).erase a.lhs) (out ++ [a]) := by
  refine ⟨?_, ?_, ?_, ?_⟩
  · rw [List.map_append, List.map_cons, List.map_nil, List.append_assoc, List.singleton_append]
    exact (List.Perm.append_left _ (List.perm_cons_erase hal).symm).trans h.perm
  · intro b hb
    rcases List.mem_append.1 hb with e | e
    · exact h.sub b e
    · rw [List.mem_singleton.1 e]; exact ha
  · intro b hb w
    simp only [Finset.mem_erase, h.deps b hb, List.map_append, List.map_cons, List.map_nil, List.mem_append,
      List.mem_singleton, not_or]
    tauto
  · intro p b s he v hv hva
    rcases List.append_eq_append_iff.1 he with ⟨t, h1, h2⟩ | ⟨t, h1, h2⟩
    · cases t with
      | nil =>
        simp only [List.nil_append, List.cons.injEq] at h2
        simp only [List.append_nil] at h1
        rw [h1]
        rw [← h2.1] at hv
        by_contra hc
        have : v ∈ deps a.lhs := (h.deps a ha v).2 ⟨hv, hva, hc⟩
        rw [hd] at this; simp at this
      | cons c t =>
        simp only [List.cons_append, List.cons.injEq] at h2
        exact absurd h2.2 (by simp)
    · cases t with
      | nil =>
        simp only [List.nil_append, List.cons.injEq] at h2
        simp only [List.append_nil] at h1
        rw [← h1]
        rw [h2.1] at hv
        by_contra hc
        have : v ∈ deps a.lhs := (h.deps a ha v).2 ⟨hv, hva, hc⟩
        rw [hd] at this; simp at this
      | cons c t =>
        simp only [List.cons_append, List.cons.injEq] at h2
        rw [← h2.1] at h1
        exact h.ordered p b t h1 v hv hva

theorem sortLoop_spec {aux : List (Equation V)} (hn : (aux.map (·.lhs)).Nodup) :
    ∀ (n : ℕ) (lhs : List V) (deps : V → Finset V) (out : List (Equation V)), lhs.length = n →
    Inv aux lhs deps out →
    ∃ lhs' deps', Inv aux lhs' deps' (sortLoop aux lhs deps out) ∧ (∀ v ∈ lhs', deps' v ≠ ∅) ∧
      out <+: sortLoop aux lhs deps out ∧ ((∃ v ∈ lhs, deps v = ∅) → sortLoop aux lhs deps out ≠ out) := by
  intro n
  induction n with
  | zero =>
    intro lhs deps out hl h
    have : lhs = [] := List.length_eq_zero_iff.1 hl
    subst this
    rw [sortLoop]
    exact ⟨[], deps, h, by simp, List.prefix_refl _, by simp⟩
  | succ n ih =>
    intro lhs deps out hl h
    rw [sortLoop]
    split
    · rename_i hf
      refine ⟨lhs, deps, h, ?_, List.prefix_refl _, ?_⟩
      · intro v hv hd
        have := List.find?_eq_none.1 hf v hv
        simp [hd] at this
      · rintro ⟨v, hv, hd⟩
        have := List.find?_eq_none.1 hf v hv
        simp [hd] at this
    · rename_i v hf
      have hv := List.mem_of_find?_eq_some hf
      have hd : deps v = ∅ := by have := List.find?_some hf; simpa using this
      have hva : v ∈ aux.map (·.lhs) := h.perm.mem_iff.1 (List.mem_append_right _ hv)
      obtain ⟨a, ha, rfl⟩ := List.mem_map.1 hva
      rw [find_lhs hn ha]
      simp only [Option.toList_some]
      obtain ⟨l', d', i1, i2, i3, _⟩ := ih (lhs.erase a.lhs) (fun w => (deps w).erase a.lhs) (out ++ [a])
        (by rw [List.length_erase_of_mem hv]; omega) (h.step hn ha hv hd)
      refine ⟨l', d', i1, i2, (List.prefix_append _ _).trans i3, fun _ he => ?_⟩
      rw [he] at i3
      have := i3.length_le
      simp at this
      omega

theorem perm_of_lhs_perm {aux out : List (Equation V)} (hn : (aux.map (·.lhs)).Nodup) (hs : ∀ a ∈ out, a ∈ aux)
    (hp : (out.map (·.lhs)).Perm (aux.map (·.lhs))) : out.Perm aux := by
  have hno : (out.map (·.lhs)).Nodup := hp.nodup_iff.2 hn
  have n1 : out.Nodup := hno.of_map _
  have n2 : aux.Nodup := hn.of_map _
  refine (List.perm_ext_iff_of_nodup n1 n2).2 fun a => ⟨hs a, fun ha => ?_⟩
  have : a.lhs ∈ out.map (·.lhs) := hp.mem_iff.2 (List.mem_map_of_mem ha)
  obtain ⟨b, hb, e⟩ := List.mem_map.1 this
  have h1 := find_lhs hn (hs b hb)
  have h2 := find_lhs hn ha
  rw [e, h2] at h1
  cases h1; exact hb

/-- C39: a successful sort is a permutation of the equations in an order of evaluation. -/
theorem C39_sort_ok {aux l : List (Equation V)} (hn : (aux.map (·.lhs)).Nodup) (h : algebraicSort aux = .ok l) :
    l.Perm aux ∧ Ordered aux l := by
  obtain ⟨lhs', deps', hi, _, _, _⟩ := sortLoop_spec hn _ (aux.map (·.lhs)) (dependencies aux) [] rfl (Inv.init hn)
  unfold algebraicSort at h
  simp only at h
  split_ifs at h with h1 h2
  simp only [Outcome.ok.injEq] at h
  rw [h] at hi h2
  have hlen := hi.perm.length_eq
  simp only [List.length_append, List.length_map] at hlen
  have : lhs' = [] := List.length_eq_zero_iff.1 (by omega)
  have hp := hi.perm
  rw [this, List.append_nil] at hp
  exact ⟨perm_of_lhs_perm hn hi.sub hp, hi.ordered⟩

theorem ordered_index {aux l : List (Equation V)} (ho : Ordered aux l) (hn : (aux.map (·.lhs)).Nodup) (hp : l.Perm aux) {v w : V}
    (h : DependsOn aux v w) : (l.map (·.lhs)).idxOf w < (l.map (·.lhs)).idxOf v := by
  obtain ⟨hw, a, ha, rfl, hwa⟩ := h
  obtain ⟨p, s, rfl⟩ := List.append_of_mem (hp.mem_iff.2 ha)
  have h1 := ho p a s rfl w hwa hw
  have hnl : ((p ++ a :: s).map (·.lhs)).Nodup := (hp.map (·.lhs)).nodup_iff.2 hn
  rw [List.map_append, List.map_cons] at hnl ⊢
  have h2 : a.lhs ∉ p.map (·.lhs) := by
    intro hc
    rw [List.nodup_append] at hnl
    exact hnl.2.2 _ hc _ (by simp) rfl
  rw [List.idxOf_append_of_mem h1, List.idxOf_append_of_notMem h2]
  have := List.idxOf_lt_length_of_mem h1
  omega

/-- C39: the sort succeeds exactly if there is no algebraic loop. -/
theorem C39_sort_ok_iff {aux : List (Equation V)} (hn : (aux.map (·.lhs)).Nodup) :
    (∃ l, algebraicSort aux = .ok l) ↔ ¬ Cyclic aux := by
  constructor
  · rintro ⟨l, hl⟩ ⟨v, hv⟩
    obtain ⟨hp, ho⟩ := C39_sort_ok hn hl
    have : ∀ v w, Relation.TransGen (DependsOn aux) v w → (l.map (·.lhs)).idxOf w < (l.map (·.lhs)).idxOf v := by
      intro v w h
      induction h with
      | single h => exact ordered_index ho hn hp h
      | tail _ h ih => exact (ordered_index ho hn hp h).trans ih
    exact absurd (this v v hv) (lt_irrefl _)
  · intro hc
    obtain ⟨lhs', deps', hi, hst, _, hne⟩ := sortLoop_spec hn _ (aux.map (·.lhs)) (dependencies aux) [] rfl (Inv.init hn)
    -- nothing remains
    have hempty : lhs' = [] := by
      by_contra hne'
      -- every remaining variable depends on a remaining variable
      have hdep : ∀ v ∈ lhs', ∃ w ∈ lhs', DependsOn aux v w := by
        intro v hv
        have hva : v ∈ aux.map (·.lhs) := hi.perm.mem_iff.1 (List.mem_append_right _ hv)
        obtain ⟨a, ha, rfl⟩ := List.mem_map.1 hva
        obtain ⟨w, hw⟩ := Finset.nonempty_iff_ne_empty.2 (hst _ hv)
        rw [hi.deps a ha] at hw
        have : w ∈ lhs' := by
          rcases List.mem_append.1 (hi.perm.mem_iff.2 hw.2.1) with h | h
          · exact absurd h hw.2.2
          · exact h
        exact ⟨w, this, hw.2.1, a, ha, rfl, hw.1⟩
      -- so there is a cycle
      let S := {v // v ∈ lhs'.toFinset}
      haveI : Nonempty S := by
        obtain ⟨v, hv⟩ := List.exists_mem_of_ne_nil _ hne'
        exact ⟨⟨v, List.mem_toFinset.2 hv⟩⟩
      let r : S → S → Prop := fun a b => Relation.TransGen (DependsOn aux) b.1 a.1
      haveI : IsTrans S r := ⟨fun a b c h1 h2 => Relation.TransGen.trans h2 h1⟩
      haveI : Std.Irrefl r := ⟨fun a h => hc ⟨a.1, h⟩⟩
      haveI : Finite S := Finite.of_fintype S
      have hwf : WellFounded r := Finite.wellFounded_of_trans_of_irrefl r
      obtain ⟨m, _, hm⟩ := hwf.has_min Set.univ Set.univ_nonempty
      obtain ⟨w, hw, hd⟩ := hdep m.1 (List.mem_toFinset.1 m.2)
      exact hm ⟨w, List.mem_toFinset.2 hw⟩ trivial (Relation.TransGen.single hd)
    have hlen := hi.perm.length_eq
    rw [hempty, List.append_nil, List.length_map, List.length_map] at hlen
    unfold algebraicSort
    simp only
    refine ⟨sortLoop aux (aux.map (·.lhs)) (dependencies aux) [], ?_⟩
    rw [if_neg, if_pos hlen.symm]
    rintro ⟨h1, h2⟩
    rw [h2] at hlen
    cases aux with
    | nil => simp at h1
    | cons a as => simp at hlen

/-- C39: which error: `AlgebraicLoopError` is thrown exactly if there are equations, and all of
them use defined variables; any other loop ends in the failed assertion. -/
theorem C39_sort_error {aux : List (Equation V)} (hn : (aux.map (·.lhs)).Nodup) :
    algebraicSort aux = .loopError ↔ aux ≠ [] ∧ ∀ a ∈ aux, ∃ v ∈ a.args, v ∈ aux.map (·.lhs) := by
  obtain ⟨lhs', deps', hi, hst, hpre, hne⟩ := sortLoop_spec hn _ (aux.map (·.lhs)) (dependencies aux) [] rfl (Inv.init hn)
  have hnil : (aux.map (·.lhs) ≠ []) ↔ aux ≠ [] := by simp
  unfold algebraicSort
  simp only
  constructor
  · intro h
    split_ifs at h with h1 h2
    refine ⟨hnil.1 h1.1, fun a ha => ?_⟩
    rw [h1.2] at hi
    have hp : a.lhs ∈ lhs' := by
      have := hi.perm.mem_iff.2 (List.mem_map_of_mem ha)
      simpa using this
    obtain ⟨w, hw⟩ := Finset.nonempty_iff_ne_empty.2 (hst _ hp)
    rw [hi.deps a ha] at hw
    exact ⟨w, hw.1, hw.2.1⟩
  · rintro ⟨h1, h2⟩
    have hout : sortLoop aux (aux.map (·.lhs)) (dependencies aux) [] = [] := by
      cases ho : sortLoop aux (aux.map (·.lhs)) (dependencies aux) [] with
      | nil => rfl
      | cons b bs =>
        exfalso
        rw [ho] at hi
        obtain ⟨v, hv, hv'⟩ := h2 b (hi.sub b (by simp))
        have := hi.ordered [] b bs rfl v hv hv'
        simp at this
    rw [if_pos ⟨hnil.2 h1, hout⟩]

/-- C39: a loop besides a solvable equation is not reported as `AlgebraicLoopError`. -/
theorem C39_loop_counterexample :
    let aux : List (Equation ℕ) := [⟨0, ∅⟩, ⟨1, {2}⟩, ⟨2, {1}⟩]
    Cyclic aux ∧ algebraicSort aux ≠ .loopError ∧ ∀ l, algebraicSort aux ≠ .ok l := by
  have hn : (([⟨0, ∅⟩, ⟨1, {2}⟩, ⟨2, {1}⟩] : List (Equation ℕ)).map (·.lhs)).Nodup := by simp
  have hc : Cyclic ([⟨0, ∅⟩, ⟨1, {2}⟩, ⟨2, {1}⟩] : List (Equation ℕ)) := by
    refine ⟨1, Relation.TransGen.trans (Relation.TransGen.single (b := 2) ?_) (Relation.TransGen.single ?_)⟩
    · exact ⟨by simp, ⟨1, {2}⟩, by simp, rfl, by simp⟩
    · exact ⟨by simp, ⟨2, {1}⟩, by simp, rfl, by simp⟩
  refine ⟨hc, ?_, ?_⟩
  · intro h
    have := ((C39_sort_error hn).1 h).2 ⟨0, ∅⟩ (by simp)
    simp at this
  · intro l h
    exact (C39_sort_ok_iff hn).1 ⟨l, h⟩ hc

/-- Non-vacuity: equations which need reordering. -/
example : ((([⟨2, {1, 0}⟩, ⟨1, {7}⟩, ⟨0, {1}⟩] : List (Equation ℕ)).map (·.lhs)).Nodup) := by simp
example : ∃ l, algebraicSort ([⟨2, {1}⟩, ⟨1, {7}⟩] : List (Equation ℕ)) = .ok l ∧ l.map (·.lhs) = [1, 2] := by
  have hn : (([⟨2, {1}⟩, ⟨1, {7}⟩] : List (Equation ℕ)).map (·.lhs)).Nodup := by simp
  refine ⟨[⟨1, {7}⟩, ⟨2, {1}⟩], ?_, rfl⟩
  have h : sortLoop ([⟨2, {1}⟩, ⟨1, {7}⟩] : List (Equation ℕ)) [2, 1]
      (dependencies [⟨2, {1}⟩, ⟨1, {7}⟩]) [] = [⟨1, {7}⟩, ⟨2, {1}⟩] := by
    rw [sortLoop]
    have d2 : dependencies ([⟨2, {1}⟩, ⟨1, {7}⟩] : List (Equation ℕ)) 2 = {1} := by decide
    have d1 : dependencies ([⟨2, {1}⟩, ⟨1, {7}⟩] : List (Equation ℕ)) 1 = ∅ := by decide
    split
    · rename_i hf; simp [d1] at hf
    · rename_i v hf
      simp [d1, d2] at hf
      subst hf
      rw [sortLoop]
      split
      · rename_i hf; simp [d1, d2] at hf
      · rename_i v hf
        simp [d1, d2] at hf
        subst hf
        rw [sortLoop]
        split
        · rfl
        · rename_i v hf; simp at hf
  unfold algebraicSort
  simp only [List.map_cons, List.map_nil, h]
  simp

end Ariadne.AlgebraicSort
