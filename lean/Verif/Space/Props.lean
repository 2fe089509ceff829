import Verif.Space.Model
import Mathlib.Order.Nat
import Mathlib.Tactic.ByContra
/-!
# Property C43: state space indexing, and conversion between valuations and vectors
-/
namespace Verif.Space

namespace Space
variable {N : Type} [DecidableEq N]

/-- Every space a user can build: by the default constructor, from a list, and by the operations. -/
inductive Reach : Space N → Prop
  | empty : Reach empty
  | ofList {vs s} : ofList vs = some s → Reach s
  | append {s v t} : Reach s → s.append v = some t → Reach t
  | insert {s v} : Reach s → Reach (s.insert v)
  | adjoin {s t} : Reach s → Reach t → Reach (s.adjoin t)
  | join {s t} : Reach s → Reach t → Reach (s.join t)
  | joinVar {s v t} : Reach s → s.joinVar v = some t → Reach t

theorem append_eq (s : Space N) (v : N) :
    s.append v = if v ∈ s.vars then none else some ⟨s.vars ++ [v]⟩ := by
  unfold append
  by_cases h : v ∈ s.vars
  · rw [if_neg, if_pos h]
    simp only [List.all_eq_true, decide_eq_true_eq, not_forall, not_not]
    exact ⟨v, h, rfl⟩
  · rw [if_pos, if_neg h]
    simp only [List.all_eq_true, decide_eq_true_eq]
    rintro u hu rfl; exact h hu

theorem insert_eq (s : Space N) (v : N) :
    s.insert v = if v ∈ s.vars then s else ⟨s.vars ++ [v]⟩ := by
  unfold insert
  by_cases h : v ∈ s.vars
  · rw [if_pos, if_pos h]
    simp only [List.any_eq_true, decide_eq_true_eq]
    exact ⟨v, h, rfl⟩
  · rw [if_neg, if_neg h]
    simp only [List.any_eq_true, decide_eq_true_eq, not_exists, not_and]
    rintro u hu rfl; exact h hu

theorem append_nodup {s : Space N} {v t} (hs : s.vars.Nodup) (h : s.append v = some t) :
    t.vars.Nodup := by
  rw [append_eq] at h
  split at h
  · simp at h
  · rename_i hv
    simp only [Option.some.injEq] at h
    subst h
    simp only [List.nodup_append, hs, true_and]
    simp only [List.nodup_cons, List.not_mem_nil, not_false_eq_true, List.nodup_nil, and_self,
      List.mem_singleton, true_and]
    rintro a ha b rfl rfl; exact hv ha

theorem insert_nodup {s : Space N} (v) (hs : s.vars.Nodup) : (s.insert v).vars.Nodup := by
  rw [insert_eq]
  split
  · exact hs
  · rename_i hv
    exact append_nodup hs (by rw [append_eq, if_neg hv])

theorem foldl_insert_nodup (l : List N) : ∀ (s : Space N), s.vars.Nodup →
    (l.foldl insert s).vars.Nodup := by
  induction l with
  | nil => intro s h; exact h
  | cons a l ih => intro s h; exact ih _ (insert_nodup a h)

theorem foldlM_append_eq (l : List N) : ∀ (s : Space N), s.vars.Nodup →
    l.foldlM append s = if (s.vars ++ l).Nodup then some ⟨s.vars ++ l⟩ else none := by
  induction l with
  | nil => intro s h; simp [h]
  | cons a l ih =>
    intro s h
    rw [List.foldlM_cons, append_eq]
    by_cases ha : a ∈ s.vars
    · rw [if_pos ha, if_neg]
      · rfl
      · intro hn
        rw [List.nodup_append] at hn
        exact hn.2.2 a ha a (by simp) rfl
    · rw [if_neg ha]
      have hn : (⟨s.vars ++ [a]⟩ : Space N).vars.Nodup :=
        append_nodup h (by rw [append_eq, if_neg ha])
      have := ih ⟨s.vars ++ [a]⟩ hn
      simpa [List.append_assoc] using this

theorem ofList_eq (l : List N) : ofList l = if l.Nodup then some ⟨l⟩ else none := by
  have := foldlM_append_eq l (empty : Space N) (by simp [empty])
  rw [ofList, this]
  simp only [empty, List.nil_append]
  congr 1

theorem Reach.nodup {s : Space N} (h : Reach s) : s.vars.Nodup := by
  induction h with
  | empty => simp [Space.empty]
  | ofList h => rw [ofList_eq] at h; split at h
                · simp only [Option.some.injEq] at h; subst h; assumption
                · simp at h
  | append _ h ih => exact append_nodup ih h
  | insert _ ih => exact insert_nodup _ ih
  | adjoin _ _ ih _ => exact foldl_insert_nodup _ _ ih
  | join _ _ ih _ => exact foldl_insert_nodup _ _ ih
  | joinVar _ h ih => exact append_nodup ih h

theorem contains_iff (s : Space N) (v : N) : s.contains v = true ↔ v ∈ s.vars := by
  have : ∀ l : List N, containsLoop v l = true ↔ v ∈ l := by
    intro l
    induction l with
    | nil => simp [containsLoop]
    | cons a l ih => simp only [containsLoop, List.mem_cons]; split <;> simp_all
  exact this _

theorem indexLoop_some (v : N) (l : List N) : ∀ k i, indexLoop v k l = some i →
    k ≤ i ∧ l[i - k]? = some v := by
  induction l with
  | nil => intro k i h; simp [indexLoop] at h
  | cons a l ih =>
    intro k i h
    simp only [indexLoop] at h
    split at h
    · simp only [Option.some.injEq] at h; subst h; rename_i e; subst e; simp
    · obtain ⟨h1, h2⟩ := ih _ _ h
      refine ⟨by omega, ?_⟩
      obtain ⟨j, hj⟩ : ∃ j, i - k = j + 1 := ⟨i - k - 1, by omega⟩
      rw [hj, List.getElem?_cons_succ]
      have : i - (k + 1) = j := by omega
      rwa [this] at h2

theorem indexLoop_none (v : N) (l : List N) : ∀ k, indexLoop v k l = none ↔ v ∉ l := by
  induction l with
  | nil => intro k; simp [indexLoop]
  | cons a l ih =>
    intro k
    simp only [indexLoop, List.mem_cons]
    split <;> simp_all

theorem index_iff {s : Space N} (hs : s.vars.Nodup) (v : N) (i : Nat) :
    s.index v = some i ↔ s.vars[i]? = some v := by
  constructor
  · intro h; have := indexLoop_some v _ _ _ h; simpa using this.2
  · intro h
    have hm : v ∈ s.vars := List.mem_of_getElem? h
    cases e : s.index v with
    | none => exact absurd hm ((indexLoop_none v _ _).1 e)
    | some j =>
      have hj := (indexLoop_some v _ _ _ e).2
      simp only [Nat.sub_zero] at hj
      obtain ⟨hi', hi''⟩ := List.getElem?_eq_some_iff.1 h
      obtain ⟨hj', hj''⟩ := List.getElem?_eq_some_iff.1 hj
      have : j = i := (List.Nodup.getElem_inj_iff hs).1 (hj''.trans hi''.symm)
      rw [this]

/-! ### Theorems -/

/-- C43: the variables of a space are distinct, whatever the history of its construction. -/
theorem C43_distinct {s : Space N} (h : Reach s) (i j : Nat) (v : N)
    (hi : s.var i = some v) (hj : s.var j = some v) : i = j := by
  have h1 := (index_iff h.nodup v i).2 hi
  have h2 := (index_iff h.nodup v j).2 hj
  rw [h1] at h2; simpa using h2

/-- C43: `index` and `variable` are mutually inverse: the variables are in bijection with the
indices `0, …, size-1`. -/
theorem C43_bijection {s : Space N} (h : Reach s) :
    (∀ v i, s.index v = some i ↔ s.var i = some v) ∧
    (∀ i, (∃ v, s.var i = some v) ↔ i < s.size) := by
  refine ⟨fun v i => index_iff h.nodup v i, fun i => ?_⟩
  constructor
  · rintro ⟨v, hv⟩
    exact (List.getElem?_eq_some_iff.1 hv).1
  · intro hi
    exact ⟨s.vars[i]'hi, List.getElem?_eq_getElem hi⟩

/-- C43: `contains` and `index` agree with each other: looking up an index raises an error exactly
if the space does not contain the variable. -/
theorem C43_contains {s : Space N} (h : Reach s) (v : N) :
    (s.contains v = true ↔ ∃ i, s.var i = some v) ∧
    (s.index v = none ↔ s.contains v = false) := by
  refine ⟨?_, ?_⟩
  · rw [contains_iff]
    exact List.mem_iff_getElem?
  · rw [← Bool.not_eq_true, contains_iff]
    exact indexLoop_none v _ _

/-- C43: containing a set of variables is containing each of them. -/
theorem C43_contains_all (s : Space N) (vs : List N) :
    s.containsAll vs = true ↔ ∀ v ∈ vs, s.contains v = true := by
  induction vs with
  | nil => simp [containsAll]
  | cons v vs ih =>
    simp only [containsAll, List.mem_cons, forall_eq_or_imp]
    cases h : s.contains v <;> simp [ih]

/-- C43: a space can be constructed from a list of variables exactly if no variable is repeated,
and then numbers them in the order given. -/
theorem C43_of_list (vs : List N) :
    ((∃ s, ofList vs = some s) ↔ ∀ (i j : Nat) (v : N), vs[i]? = some v → vs[j]? = some v → i = j) ∧
    (∀ s, ofList vs = some s → s.size = vs.length ∧ ∀ i : Nat, s.var i = vs[i]?) := by
  rw [ofList_eq]
  constructor
  · constructor
    · rintro ⟨s, hs⟩ i j v hi hj
      split at hs
      · rename_i hn
        obtain ⟨hi', hi''⟩ := List.getElem?_eq_some_iff.1 hi
        obtain ⟨hj', hj''⟩ := List.getElem?_eq_some_iff.1 hj
        exact (List.Nodup.getElem_inj_iff hn).1 (hi''.trans hj''.symm)
      · simp at hs
    · intro h
      have : vs.Nodup := by
        rw [List.nodup_iff_injective_get]
        intro a b hab
        apply Fin.ext
        refine h a b (vs.get a) ?_ ?_
        · simp
        · rw [hab]; simp
      rw [if_pos this]; exact ⟨_, rfl⟩
  · intro s hs
    split at hs
    · simp only [Option.some.injEq] at hs; subst hs; exact ⟨rfl, fun i => rfl⟩
    · simp at hs

/-- C43: appending raises an error exactly if the variable is present; otherwise it becomes the
last one and no other index changes. -/
theorem C43_append (s : Space N) (v : N) :
    (s.append v = none ↔ s.contains v = true) ∧
    (∀ t, s.append v = some t → t.size = s.size + 1 ∧ t.var s.size = some v ∧
      ∀ i < s.size, t.var i = s.var i) := by
  rw [append_eq]
  constructor
  · rw [contains_iff]; split <;> simp_all
  · intro t ht
    split at ht
    · simp at ht
    · simp only [Option.some.injEq] at ht; subst ht
      refine ⟨by simp [size], by simp [size, var], ?_⟩
      intro i hi
      simp only [var]
      exact List.getElem?_append_left hi

/-- C43: inserting never fails; it changes nothing if the variable is present and appends it
otherwise. -/
theorem C43_insert (s : Space N) (v : N) :
    (s.contains v = true → s.insert v = s) ∧
    (s.contains v = false → s.append v = some (s.insert v)) ∧ (s.insert v).contains v = true := by
  rw [append_eq, insert_eq, ← Bool.not_eq_true, contains_iff, contains_iff]
  by_cases h : v ∈ s.vars <;> simp [h]

/-- C43: equal spaces are those giving every index the same variable. -/
theorem C43_eq (s t : Space N) : s.eq t = true ↔ ∀ i, s.var i = t.var i := by
  simp only [eq, decide_eq_true_eq, var]
  exact List.ext_getElem?_iff

theorem foldl_insert_vars (l : List N) : ∀ (s : Space N), l.Nodup →
    (l.foldl insert s).vars = s.vars ++ l.filter (fun v => decide (v ∉ s.vars)) := by
  induction l with
  | nil => intro s _; simp
  | cons a l ih =>
    intro s hn
    rw [List.nodup_cons] at hn
    rw [List.foldl_cons, ih _ hn.2, insert_eq]
    by_cases ha : a ∈ s.vars
    · simp [ha]
    · rw [if_neg ha, List.filter_cons_of_pos (by simpa using ha)]
      simp only [List.append_assoc, List.singleton_append, List.mem_append, List.mem_singleton]
      congr 2
      apply List.filter_congr
      intro x hx
      have : x ≠ a := by rintro rfl; exact hn.1 hx
      simp [this]

/-- C43: adjoining and joining never fail; the variables of the first space keep their indices, the
result contains exactly the variables of the two, and the new ones follow in the order they have in
the second. -/
theorem C43_adjoin {s t : Space N} (ht : Reach t) :
    s.join t = s.adjoin t ∧
    (∀ v i, s.var i = some v → (s.adjoin t).var i = some v) ∧
    (∀ v, (s.adjoin t).contains v = true ↔ s.contains v = true ∨ t.contains v = true) ∧
    ∃ new, new.Sublist t.vars ∧ (∀ v ∈ new, s.contains v = false) ∧
      (s.adjoin t).vars = s.vars ++ new := by
  have hv := foldl_insert_vars t.vars s ht.nodup
  refine ⟨rfl, ?_, ?_, t.vars.filter (fun v => decide (v ∉ s.vars)), ?_, ?_, hv⟩
  · intro v i h
    simp only [adjoin, var] at *
    rw [hv, List.getElem?_append_left (List.getElem?_eq_some_iff.1 h).1, h]
  · intro v
    rw [contains_iff, contains_iff, contains_iff, adjoin, hv]
    simp only [List.mem_append, List.mem_filter, decide_eq_true_eq]
    by_cases h : v ∈ s.vars <;> simp [h]
  · exact List.filter_sublist
  · intro v hv
    rw [← Bool.not_eq_true, contains_iff]
    simpa using (List.mem_filter.1 hv).2

/-- C43: adjoining a space to itself, or a second time, changes nothing. -/
theorem C43_adjoin_idem {s t : Space N} (hs : Reach s) (ht : Reach t) :
    s.adjoin s = s ∧ (s.adjoin t).adjoin t = s.adjoin t := by
  have key : ∀ s : Space N, (∀ v ∈ t.vars, v ∈ s.vars) → s.adjoin t = s := by
    intro s h
    have hv := foldl_insert_vars t.vars s ht.nodup
    have : t.vars.filter (fun v => decide (v ∉ s.vars)) = [] := by
      rw [List.filter_eq_nil_iff]; intro a ha; simpa using h a ha
    rw [this, List.append_nil] at hv
    cases s; simp only [adjoin]; generalize List.foldl insert _ t.vars = r at *; cases r; simp_all
  refine ⟨?_, ?_⟩
  · have hv := foldl_insert_vars s.vars s hs.nodup
    have : s.vars.filter (fun v => decide (v ∉ s.vars)) = [] := by
      rw [List.filter_eq_nil_iff]; intro a ha; simpa using ha
    rw [this, List.append_nil] at hv
    simp only [adjoin]; generalize List.foldl insert s s.vars = r at *; cases r; cases s; simp_all
  · apply key
    intro v hv
    rw [← contains_iff, (C43_adjoin ht).2.2.1, contains_iff, contains_iff]
    exact .inr hv

theorem indicesLoop_eq (l : List N) : ∀ (m : List (N × Nat)) (pre : List N),
    m = pre.zipIdx → (pre ++ l).Nodup →
    indicesLoop pre.length m l = some ((pre ++ l).zipIdx) := by
  induction l with
  | nil => intro m pre hm _; simp [indicesLoop, hm]
  | cons a l ih =>
    intro m pre hm hn
    rw [indicesLoop, if_neg]
    · have := ih (m ++ [(a, pre.length)]) (pre ++ [a]) (by simp [hm, List.zipIdx_append])
        (by simpa using hn)
      simpa using this
    · simp only [List.any_eq_true, decide_eq_true_eq, not_exists, not_and]
      rintro ⟨x, k⟩ hx rfl
      rw [hm] at hx
      have hx' : x ∈ pre := by
        have := List.mem_zipIdx_iff_getElem?.1 hx
        exact List.mem_of_getElem? this
      rw [List.nodup_append] at hn
      exact hn.2.2 x hx' x (by simp) rfl

/-- C43: the map of indices exists for every space (the check for repetitions never fires), and
lists exactly the pairs of a variable and its index. -/
theorem C43_indices {s : Space N} (h : Reach s) :
    ∃ m, s.indices = some m ∧ ∀ v i, (v, i) ∈ m ↔ s.index v = some i := by
  refine ⟨_, indicesLoop_eq s.vars [] [] rfl (by simpa using h.nodup), ?_⟩
  intro v i
  rw [index_iff h.nodup]
  simp only [List.nil_append]
  exact List.mem_zipIdx_iff_getElem?

example : ∃ s : Space Nat, Reach s ∧ s.vars = [5, 7, 3] ∧ s.index 7 = some 1 ∧ s.index 4 = none :=
  ⟨(⟨[5, 7]⟩ : Space Nat).adjoin ⟨[7, 3]⟩,
    .adjoin (.ofList (vs := [5, 7]) (by decide)) (.ofList (vs := [7, 3]) (by decide)),
    by decide, by decide, by decide⟩

end Space

/-! ### Valuations -/
section
variable {N X : Type} [LinearOrder N]

/-- The invariant of `std::map`: keys in strictly increasing order. -/
def Sorted (v : Val N X) : Prop := v.Pairwise (fun a b => a.1 < b.1)

theorem mem_iff_find (v : Val N X) (h : Sorted v) (n : N) (x : X) :
    (n, x) ∈ v ↔ find n v = some x := by
  induction v with
  | nil => simp [find]
  | cons a v ih =>
    obtain ⟨m, y⟩ := a
    have h' := List.pairwise_cons.1 h
    simp only [find, List.mem_cons, Prod.mk.injEq]
    by_cases e : m = n
    · subst e
      simp only [true_and, if_true, Option.some.injEq]
      constructor
      · rintro (rfl | hm)
        · rfl
        · exact absurd (h'.1 _ hm) (lt_irrefl _)
      · rintro rfl; exact .inl rfl
    · rw [if_neg e, ← ih h'.2]
      constructor
      · rintro (⟨rfl, _⟩ | hm)
        · exact absurd rfl e
        · exact hm
      · exact .inr

theorem find_eq_none_of_lt (v : Val N X) (n : N) (h : ∀ b ∈ v, n < b.1) : find n v = none := by
  induction v with
  | nil => rfl
  | cons a v ih =>
    obtain ⟨m, y⟩ := a
    have hm : n < m := h (m, y) (by simp)
    rw [find, if_neg hm.ne', ih (fun b hb => h b (by simp [hb]))]

theorem mem_insert_fst (n : N) (x : X) (v : Val N X) : ∀ b ∈ insert n x v, b.1 = n ∨ b ∈ v := by
  induction v with
  | nil => intro b hb; simp only [insert, List.mem_singleton] at hb; subst hb; exact .inl rfl
  | cons a v ih =>
    obtain ⟨m, y⟩ := a
    intro b hb
    simp only [insert] at hb
    split at hb
    · rcases List.mem_cons.1 hb with rfl | hb
      · exact .inl rfl
      · exact .inr hb
    · split at hb
      · exact .inr hb
      · rcases List.mem_cons.1 hb with rfl | hb
        · exact .inr (by simp)
        · rcases ih b hb with h | h
          · exact .inl h
          · exact .inr (by simp [h])

theorem insert_sorted (n : N) (x : X) (v : Val N X) (h : Sorted v) : Sorted (insert n x v) := by
  induction v with
  | nil => simp [insert, Sorted]
  | cons a v ih =>
    obtain ⟨m, y⟩ := a
    have h' := List.pairwise_cons.1 h
    simp only [insert]
    split
    · rename_i hl
      refine List.pairwise_cons.2 ⟨?_, h⟩
      intro b hb
      rcases List.mem_cons.1 hb with rfl | hb
      · exact hl
      · exact hl.trans (h'.1 b hb)
    · split
      · exact h
      · rename_i hl he
        refine List.pairwise_cons.2 ⟨?_, ih h'.2⟩
        intro b hb
        rcases mem_insert_fst n x v b hb with hb | hb
        · rw [hb]; exact lt_of_le_of_ne (not_lt.1 hl) (fun e => he e.symm)
        · exact h'.1 b hb

theorem find_insert (n : N) (x : X) (v : Val N X) (h : Sorted v) (k : N) :
    find k (insert n x v) =
      if k = n then some ((find n v).getD x) else find k v := by
  induction v with
  | nil => simp [insert, find, eq_comm]
  | cons a v ih =>
    obtain ⟨m, y⟩ := a
    have h' := List.pairwise_cons.1 h
    simp only [insert]
    by_cases hl : n < m
    · rw [if_pos hl]
      by_cases hk : k = n
      · subst hk
        have : find k ((m, y) :: v) = none := find_eq_none_of_lt _ _ (by
          intro b hb
          rcases List.mem_cons.1 hb with rfl | hb
          · exact hl
          · exact hl.trans (h'.1 b hb))
        rw [this]; simp [find]
      · rw [if_neg hk, find, if_neg (fun e => hk e.symm)]
    · rw [if_neg hl]
      by_cases he : n = m
      · subst he
        rw [if_pos rfl]
        by_cases hk : k = n
        · subst hk; simp [find]
        · rw [if_neg hk]
      · rw [if_neg he]
        have ih' := ih h'.2
        by_cases hm : m = k
        · subst hm
          simp [find, Ne.symm he]
        · rw [find, if_neg hm, ih', find, if_neg (Ne.symm he)]
          by_cases hk : k = n
          · simp [hk]
          · simp [hk, find, hm]

theorem set_eq (n : N) (x : X) (v : Val N X) (h : Sorted v) :
    Sorted (set n x v) ∧ ∀ k, find k (set n x v) = if k = n then some x else find k v := by
  induction v with
  | nil => exact ⟨by simp [set, Sorted], fun k => by simp [set, find, eq_comm]⟩
  | cons a v ih =>
    obtain ⟨m, y⟩ := a
    have h' := List.pairwise_cons.1 h
    obtain ⟨ih1, ih2⟩ := ih h'.2
    have hfst : ∀ (w : Val N X), ∀ b ∈ set n x w, b.1 = n ∨ b ∈ w := by
      intro w
      induction w with
      | nil => intro b hb; simp only [set, List.mem_singleton] at hb; subst hb; exact .inl rfl
      | cons c w ihw =>
        obtain ⟨p, z⟩ := c
        intro b hb
        simp only [set] at hb
        split at hb
        · rcases List.mem_cons.1 hb with rfl | hb
          · exact .inl rfl
          · exact .inr hb
        · split at hb
          · rename_i e
            rcases List.mem_cons.1 hb with rfl | hb
            · exact .inl e.symm
            · exact .inr (by simp [hb])
          · rcases List.mem_cons.1 hb with rfl | hb
            · exact .inr (by simp)
            · rcases ihw b hb with hb | hb
              · exact .inl hb
              · exact .inr (by simp [hb])
    simp only [set]
    by_cases hl : n < m
    · rw [if_pos hl]
      refine ⟨List.pairwise_cons.2 ⟨?_, h⟩, ?_⟩
      · intro b hb
        rcases List.mem_cons.1 hb with rfl | hb
        · exact hl
        · exact hl.trans (h'.1 b hb)
      · intro k
        rw [find]
        by_cases hk : n = k
        · simp [hk]
        · rw [if_neg hk, if_neg (Ne.symm hk)]
    · rw [if_neg hl]
      by_cases he : n = m
      · subst he
        rw [if_pos rfl]
        refine ⟨List.pairwise_cons.2 ⟨h'.1, h'.2⟩, ?_⟩
        intro k
        by_cases hk : n = k
        · simp [find, hk]
        · simp [find, hk, Ne.symm hk]
      · rw [if_neg he]
        refine ⟨List.pairwise_cons.2 ⟨?_, ih1⟩, ?_⟩
        · intro b hb
          rcases hfst v b hb with hb | hb
          · rw [hb]; exact lt_of_le_of_ne (not_lt.1 hl) (Ne.symm he)
          · exact h'.1 b hb
        · intro k
          rw [find, find, ih2]
          by_cases hm : m = k
          · subst hm; simp [Ne.symm he]
          · simp [hm]

/-- Valuations a user can build. -/
inductive Built (d : X) : Val N X → Prop
  | ofEntries (l) : Built d (ofEntries l)
  | ofArray {xs s v} : ofArray xs s = some v → Built d v
  | insert {v} (n x) : Built d v → Built d (insert n x v)
  | set {v} (n x) : Built d v → Built d (set n x v)
  | getMut {v} (n) : Built d v → Built d (getMut d v n).2
  | readSpace {v} (ns) : Built d v → Built d (readSpace d ns v).2

theorem ofArrayLoop_sorted (s : Space N) (xs : List X) : ∀ i v w, Sorted v →
    ofArrayLoop s i v xs = some w → Sorted w := by
  induction xs with
  | nil => intro i v w hv h; simp only [ofArrayLoop, Option.some.injEq] at h; exact h ▸ hv
  | cons x xs ih =>
    intro i v w hv h
    simp only [ofArrayLoop] at h
    split at h
    · simp at h
    · exact ih _ _ _ (insert_sorted _ _ _ hv) h

theorem foldl_insert_sorted (l : List (N × X)) : ∀ v : Val N X, Sorted v →
    Sorted (l.foldl (fun v e => insert e.1 e.2 v) v) := by
  induction l with
  | nil => intro v h; exact h
  | cons a l ih => intro v h; exact ih _ (insert_sorted _ _ _ h)

theorem getMut_sorted (d : X) (v : Val N X) (n : N) (h : Sorted v) : Sorted (getMut d v n).2 := by
  unfold getMut; split
  · exact h
  · exact insert_sorted _ _ _ h

theorem readSpace_sorted (d : X) (ns : List N) : ∀ v : Val N X, Sorted v →
    Sorted (readSpace d ns v).2 := by
  induction ns with
  | nil => intro v h; exact h
  | cons n ns ih => intro v h; exact ih _ (getMut_sorted d v n h)

theorem Built.sorted {d : X} {v : Val N X} (h : Built d v) : Sorted v := by
  induction h with
  | ofEntries l => exact foldl_insert_sorted _ _ List.Pairwise.nil
  | ofArray h => exact ofArrayLoop_sorted _ _ _ _ _ List.Pairwise.nil h
  | insert n x _ ih => exact insert_sorted _ _ _ ih
  | set n x _ ih => exact (set_eq _ _ _ ih).1
  | getMut n _ ih => exact getMut_sorted _ _ _ ih
  | readSpace ns _ ih => exact readSpace_sorted _ _ _ ih

/-- C43: `set` gives the variable its new value, `insert` only gives a value to a variable that has
none, and neither changes another variable. -/
theorem C43_valuation_update {d : X} {v : Val N X} (h : Built d v) (n : N) (x : X) (k : N) :
    (get (set n x v) k = if k = n then some x else get v k) ∧
    (get (insert n x v) k = if k = n ∧ get v n = none then some x else get v k) := by
  refine ⟨(set_eq n x v h.sorted).2 k, ?_⟩
  simp only [get]
  rw [find_insert n x v h.sorted k]
  by_cases hk : k = n
  · subst hk
    by_cases hf : find k v = none
    · simp [hf]
    · obtain ⟨y, hy⟩ := Option.ne_none_iff_exists'.1 hf
      simp [hy]
  · simp [hk]

theorem find_getMut (d : X) (v : Val N X) (h : Sorted v) (n k : N) :
    find k (getMut d v n).2 = if k = n then some ((find n v).getD d) else find k v := by
  unfold getMut
  cases e : find n v with
  | some x =>
    simp only [Option.getD_some]
    by_cases hk : k = n
    · subst hk; simp [e]
    · simp [hk]
  | none =>
    simp only [Option.getD_none]
    rw [find_insert _ _ _ h, e]; simp

theorem getMut_fst (d : X) (v : Val N X) (n : N) : (getMut d v n).1 = (find n v).getD d := by
  unfold getMut; cases e : find n v <;> simp

theorem readSpace_spec (d : X) (ns : List N) : ∀ v : Val N X, Sorted v →
    (readSpace d ns v).1 = ns.map (fun n => (find n v).getD d) ∧
    ∀ k, find k (readSpace d ns v).2 =
      if k ∈ ns then some ((find k v).getD d) else find k v := by
  induction ns with
  | nil => intro v _; simp [readSpace]
  | cons n ns ih =>
    intro v h
    obtain ⟨h1, h2⟩ := ih _ (getMut_sorted d v n h)
    have hf := find_getMut d v h n
    constructor
    · simp only [readSpace, List.map_cons, h1, getMut_fst, List.cons.injEq, true_and]
      apply List.map_congr_left
      intro k _
      rw [hf]; split
      · rename_i e; subst e; simp
      · rfl
    · intro k
      simp only [readSpace, h2, hf, List.mem_cons]
      by_cases hk : k = n
      · subst hk; simp
      · simp [hk]

/-- C43: reading a valuation through a space gives, at the index of each variable, the value of that
variable, provided every variable of the space has a value; the valuation is then unchanged as a
map. -/
theorem C43_valuation_read {d : X} {v : Val N X} (h : Built d v) {s : Space N}
    (hs : Space.Reach s) (hd : ∀ n i, s.index n = some i → get v n ≠ none) :
    (readSpace d s.vars v).1.length = s.size ∧
    (∀ n i, s.index n = some i → (readSpace d s.vars v).1[i]? = get v n) ∧
    ∀ k, get (readSpace d s.vars v).2 k = get v k := by
  obtain ⟨h1, h2⟩ := readSpace_spec d s.vars v h.sorted
  refine ⟨by rw [h1]; simp [Space.size], ?_, ?_⟩
  · intro n i hi
    have hd' := hd n i hi
    rw [Space.index_iff hs.nodup] at hi
    rw [h1, List.getElem?_map, hi]
    simp only [get, Option.map_some] at *
    cases e : find n v with
    | none => exact absurd e hd'
    | some x => simp
  · intro k
    simp only [get, h2]
    split
    · rename_i hk
      obtain ⟨i, hi⟩ := List.mem_iff_getElem?.1 hk
      have hd' := hd k i ((Space.index_iff hs.nodup k i).2 hi)
      simp only [get] at hd'
      cases e : find k v with
      | none => exact absurd e hd'
      | some x => simp
    · rfl

/-- C43: but reading through a space silently gives a default value to a variable without one, and
records it in the valuation, where the constant `operator[]` would raise an error. -/
theorem C43_valuation_read_inserts : ∃ (v : Val Nat Int) (s : Space Nat), Built 0 v ∧
    Space.Reach s ∧ get v 2 = none ∧ (readSpace 0 s.vars v).1 = [5, 0] ∧
    get (readSpace 0 s.vars v).2 2 = some 0 :=
  ⟨ofEntries [(1, 5)], ⟨[1, 2]⟩, .ofEntries _, .ofList (vs := [1, 2]) (by decide), by decide,
    by decide, by decide⟩

theorem ofArrayLoop_spec (s : Space N) (hs : s.vars.Nodup) (xs : List X) : ∀ i v, Sorted v →
    (∀ j n, i ≤ j → s.vars[j]? = some n → find n v = none) →
    (xs.length + i ≤ s.vars.length → ∃ w, ofArrayLoop s i v xs = some w ∧
      ∀ n, find n w = match s.index n with
        | some j => if i ≤ j ∧ j < i + xs.length then xs[j - i]? else find n v
        | none => find n v) ∧
    (s.vars.length < xs.length + i → i ≤ s.vars.length → ofArrayLoop s i v xs = none) := by
  induction xs with
  | nil =>
    intro i v hv hd
    refine ⟨fun _ => ⟨v, rfl, ?_⟩, ?_⟩
    · intro n
      split
      · rename_i j _
        rw [if_neg]
        simp only [List.length_nil]; omega
      · rfl
    · intro h1 h2; simp at h1; omega
  | cons x xs ih =>
    intro i v hv hd
    simp only [List.length_cons]
    by_cases hi : i < s.vars.length
    · have hn : s.vars[i]? = some s.vars[i] := List.getElem?_eq_getElem hi
      generalize s.vars[i] = n at hn
      have hstep : ofArrayLoop s i v (x :: xs) = ofArrayLoop s (i + 1) (insert n x v) xs := by
        simp only [ofArrayLoop, Space.var, hn]
      rw [hstep]
      have hidx : ∀ m j, s.index m = some j ↔ s.vars[j]? = some m := Space.index_iff hs
      have hin : s.index n = some i := (hidx n i).2 hn
      obtain ⟨h1, h2⟩ := ih (i + 1) (insert n x v) (insert_sorted _ _ _ hv) (by
        intro j m hj hm
        have hne : m ≠ n := by
          rintro rfl
          have := (hidx m j).2 hm
          rw [hin] at this; simp only [Option.some.injEq] at this; omega
        rw [find_insert _ _ _ hv, if_neg hne]
        exact hd j m (by omega) hm)
      refine ⟨?_, fun h3 h4 => h2 (by omega) (by omega)⟩
      intro hl
      obtain ⟨w, hw, hf⟩ := h1 (by omega)
      refine ⟨w, hw, ?_⟩
      intro m
      rw [hf m, find_insert _ _ _ hv]
      by_cases hm : m = n
      · subst hm
        rw [hin]
        simp only [if_true]
        rw [if_neg (by omega), if_pos (by omega), hd i m (Nat.le_refl _) hn]
        simp
      · simp only [hm, if_false]
        cases hj : s.index m with
        | none => rfl
        | some j =>
          simp only
          have hji : j ≠ i := by
            rintro rfl
            have := (hidx m j).1 hj
            rw [hn] at this; simp only [Option.some.injEq] at this; exact hm this.symm
          by_cases hr : i ≤ j ∧ j < i + (xs.length + 1)
          · rw [if_pos (by omega), if_pos hr]
            obtain ⟨k, rfl⟩ : ∃ k, j = i + 1 + k := ⟨j - (i + 1), by omega⟩
            have e1 : i + 1 + k - (i + 1) = k := by omega
            have e2 : i + 1 + k - i = k + 1 := by omega
            rw [e1, e2, List.getElem?_cons_succ]
          · rw [if_neg (by omega), if_neg hr]
    · refine ⟨fun h => by omega, fun _ h => ?_⟩
      have hn : s.vars[i]? = none := List.getElem?_eq_none (by omega)
      simp only [ofArrayLoop, Space.var, hn]

/-- C43: a valuation built from an array over a space gives each variable the entry at its index
and defines no other variable; the construction fails exactly if the array is longer than the
space. -/
theorem C43_valuation_of_array {s : Space N} (hs : Space.Reach s) (xs : List X) :
    (ofArray xs s = none ↔ s.size < xs.length) ∧
    ∀ v, ofArray xs s = some v → ∀ n, get v n = (s.index n).bind (fun i => xs[i]?) := by
  obtain ⟨h1, h2⟩ := ofArrayLoop_spec s hs.nodup xs 0 [] List.Pairwise.nil (by simp [find])
  have h2' : s.size < xs.length → ofArray xs s = none := fun h => h2 (by simpa [Space.size] using h) (by omega)
  refine ⟨⟨?_, h2'⟩, ?_⟩
  · intro h
    by_contra hl
    obtain ⟨w, hw, _⟩ := h1 (by simp only [Space.size] at hl; omega)
    rw [ofArray] at h; rw [h] at hw; simp at hw
  · intro v hv n
    have hl : ¬ s.size < xs.length := fun h => by rw [h2' h] at hv; simp at hv
    obtain ⟨w, hw, hf⟩ := h1 (by simp only [Space.size] at hl; omega)
    rw [ofArray] at hv
    rw [hv] at hw; simp only [Option.some.injEq] at hw; subst hw
    simp only [get, hf n]
    cases s.index n with
    | none => rfl
    | some j =>
      simp only [Nat.zero_le, true_and, Nat.zero_add, Nat.sub_zero, Option.bind_some]
      split
      · rfl
      · rename_i hj
        simp only [find]
        exact (List.getElem?_eq_none (by omega)).symm

/-- C43: converting a vector to a valuation over a space of the same size and back gives the
vector. -/
theorem C43_valuation_round_trip {s : Space N} (hs : Space.Reach s) (d : X) (xs : List X)
    (hl : xs.length = s.size) :
    ∃ v, ofArray xs s = some v ∧ (readSpace d s.vars v).1 = xs := by
  obtain ⟨h1, h2⟩ := C43_valuation_of_array hs xs
  cases e : ofArray xs s with
  | none => have := h1.1 e; omega
  | some v =>
    refine ⟨v, rfl, ?_⟩
    have hg := h2 v e
    have hb : Built d v := .ofArray e
    have hidx : ∀ n i, s.index n = some i → i < xs.length := by
      intro n i h
      rw [Space.index_iff hs.nodup] at h
      rw [hl]; exact (List.getElem?_eq_some_iff.1 h).1
    obtain ⟨r1, r2, _⟩ := C43_valuation_read hb hs (by
      intro n i h
      rw [hg, h]
      simp only [Option.bind_some, ne_eq, List.getElem?_eq_none_iff]
      have := hidx n i h; omega)
    apply List.ext_getElem?
    intro i
    by_cases hi : i < s.size
    · obtain ⟨n, hn⟩ := (Space.C43_bijection hs).2 i |>.2 hi
      have hni := ((Space.C43_bijection hs).1 n i).2 hn
      rw [r2 n i hni, hg, hni]; rfl
    · rw [List.getElem?_eq_none (by omega), List.getElem?_eq_none (by omega)]

/-! ### Comparing valuations -/
variable [DecidableEq X]

open Classical in
theorem eqLoop_spec (fuel : Nat) : ∀ (same : Bool) (v w : Val N X), Sorted v → Sorted w →
    v.length + w.length < fuel →
    eqLoop same fuel v w =
      if ∃ n x y, find n v = some x ∧ find n w = some y ∧ x ≠ y then Cmp.no
      else if same = true ∧ v = w then Cmp.yes else Cmp.throws := by
  induction fuel with
  | zero => intro same v w _ _ h; omega
  | succ fuel ih =>
    intro same v w hv hw hf
    match v, w with
    | [], [] => simp [eqLoop, find]
    | [], b :: w => simp [eqLoop, find]
    | a :: v, [] => simp [eqLoop, find]
    | (m, x) :: v, (n, y) :: w =>
      have hv' := List.pairwise_cons.1 hv
      have hw' := List.pairwise_cons.1 hw
      simp only [List.length_cons] at hf
      simp only [eqLoop]
      by_cases hmn : m = n
      · subst hmn
        rw [if_pos rfl]
        by_cases hxy : x = y
        · subst hxy
          rw [if_neg (by simp), ih same v w hv'.2 hw'.2 (by omega)]
          have e1 : (∃ n a b, find n ((m, x) :: v) = some a ∧ find n ((m, x) :: w) = some b ∧ a ≠ b)
              ↔ ∃ n a b, find n v = some a ∧ find n w = some b ∧ a ≠ b := by
            constructor
            · rintro ⟨k, a, b, h1, h2, h3⟩
              simp only [find] at h1 h2
              by_cases hk : m = k
              · simp only [hk, if_true, Option.some.injEq] at h1 h2
                exact absurd (h1.symm.trans h2) h3
              · rw [if_neg hk] at h1 h2; exact ⟨k, a, b, h1, h2, h3⟩
            · rintro ⟨k, a, b, h1, h2, h3⟩
              have hk : m ≠ k := by
                rintro rfl
                rw [find_eq_none_of_lt v m hv'.1] at h1; simp at h1
              exact ⟨k, a, b, by rw [find, if_neg hk, h1], by rw [find, if_neg hk, h2], h3⟩
          simp only [e1, List.cons.injEq, true_and]
        · rw [if_pos hxy, if_pos]
          exact ⟨m, x, y, by simp [find], by simp [find], hxy⟩
      · rw [if_neg hmn]
        by_cases hlt : m < n
        · rw [if_pos hlt, ih false v ((n, y) :: w) hv'.2 hw (by simp only [List.length_cons]; omega)]
          have hnone : find m ((n, y) :: w) = none := find_eq_none_of_lt _ _ (by
            intro b hb
            rcases List.mem_cons.1 hb with rfl | hb
            · exact hlt
            · exact hlt.trans (hw'.1 b hb))
          have e1 : (∃ k a b, find k ((m, x) :: v) = some a ∧ find k ((n, y) :: w) = some b ∧ a ≠ b)
              ↔ ∃ k a b, find k v = some a ∧ find k ((n, y) :: w) = some b ∧ a ≠ b := by
            constructor
            · rintro ⟨k, a, b, h1, h2, h3⟩
              have hk : m ≠ k := by rintro rfl; rw [hnone] at h2; simp at h2
              rw [find, if_neg hk] at h1
              exact ⟨k, a, b, h1, h2, h3⟩
            · rintro ⟨k, a, b, h1, h2, h3⟩
              have hk : m ≠ k := by rintro rfl; rw [hnone] at h2; simp at h2
              exact ⟨k, a, b, by rw [find, if_neg hk, h1], h2, h3⟩
          simp only [e1]
          simp [hmn]
        · rw [if_neg hlt, ih false ((m, x) :: v) w hv hw'.2 (by simp only [List.length_cons]; omega)]
          have hgt : n < m := lt_of_le_of_ne (not_lt.1 hlt) (Ne.symm hmn)
          have hnone : find n ((m, x) :: v) = none := find_eq_none_of_lt _ _ (by
            intro b hb
            rcases List.mem_cons.1 hb with rfl | hb
            · exact hgt
            · exact hgt.trans (hv'.1 b hb))
          have e1 : (∃ k a b, find k ((m, x) :: v) = some a ∧ find k ((n, y) :: w) = some b ∧ a ≠ b)
              ↔ ∃ k a b, find k ((m, x) :: v) = some a ∧ find k w = some b ∧ a ≠ b := by
            constructor
            · rintro ⟨k, a, b, h1, h2, h3⟩
              have hk : n ≠ k := by rintro rfl; rw [hnone] at h1; simp at h1
              rw [find, if_neg hk] at h2
              exact ⟨k, a, b, h1, h2, h3⟩
            · rintro ⟨k, a, b, h1, h2, h3⟩
              have hk : n ≠ k := by rintro rfl; rw [hnone] at h1; simp at h1
              exact ⟨k, a, b, h1, by rw [find, if_neg hk, h2], h3⟩
          simp only [e1]
          simp [hmn]

theorem ext_of_find {v w : Val N X} (hv : Sorted v) (hw : Sorted w)
    (h : ∀ n, find n v = find n w) : v = w := by
  have hmem : ∀ p, p ∈ v ↔ p ∈ w := by
    rintro ⟨n, x⟩
    rw [mem_iff_find v hv, mem_iff_find w hw, h]
  have hvn : v.Nodup := List.Pairwise.imp (R := fun (a b : N × X) => a.1 < b.1) (fun h e => by
    subst e; exact lt_irrefl _ h) hv
  have hwn : w.Nodup := List.Pairwise.imp (R := fun (a b : N × X) => a.1 < b.1) (fun h e => by
    subst e; exact lt_irrefl _ h) hw
  have hperm : v.Perm w := (List.perm_ext_iff_of_nodup hvn hwn).2 hmem
  exact hperm.eq_of_pairwise (fun a b _ _ h1 h2 => absurd h2 (lt_asymm h1)) hv hw

/-- C43: comparing valuations answers `true` exactly if they give the same values to the same
variables, `false` exactly if some variable has different values in the two, and raises an error in
the remaining case: they agree where both are defined but are not defined on the same variables. -/
theorem C43_valuation_eq {d : X} {v w : Val N X} (hv : Built d v) (hw : Built d w) :
    (eqVal v w = .yes ↔ ∀ n, get v n = get w n) ∧
    (eqVal v w = .no ↔ ∃ n x y, get v n = some x ∧ get w n = some y ∧ x ≠ y) := by
  have h := eqLoop_spec (v.length + w.length + 1) true v w hv.sorted hw.sorted (by omega)
  unfold eqVal
  rw [h]
  simp only [get]
  by_cases hd : ∃ n x y, find n v = some x ∧ find n w = some y ∧ x ≠ y
  · rw [if_pos hd]
    refine ⟨⟨fun h => by simp at h, ?_⟩, by simpa using hd⟩
    intro hall
    obtain ⟨n, x, y, h1, h2, h3⟩ := hd
    rw [hall n, h2] at h1; simp only [Option.some.injEq] at h1; exact absurd h1.symm h3
  · rw [if_neg hd]
    refine ⟨?_, ⟨fun h => by split at h <;> simp at h, fun h => absurd h hd⟩⟩
    constructor
    · intro h
      split at h
      · rename_i e; rw [e.2]; intro n; rfl
      · simp at h
    · intro h
      rw [if_pos ⟨trivial, ext_of_find hv.sorted hw.sorted h⟩]

example : ∃ v w : Val Nat Int, Built 0 v ∧ Built 0 w ∧ eqVal v v = .yes ∧ eqVal v w = .throws ∧
    eqVal v (set 1 9 v) = .no :=
  ⟨ofEntries [(1, 5), (2, 6)], ofEntries [(1, 5)], .ofEntries _, .ofEntries _, by decide, by decide,
    by decide⟩
end
end Verif.Space
