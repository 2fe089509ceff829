import Verif.LRUCache.Spec
import Mathlib.Data.List.Basic
import Mathlib.Data.List.Nodup
import Mathlib.Data.List.Induction
/-!
# Helper lemmas for the LRU cache
-/
set_option linter.unusedSectionVars false
namespace Ariadne.LRU
variable {L V : Type} [DecidableEq L]

/-- Attach consecutive ages. -/
def tag : Nat → List (L × V) → List (L × Nat × V)
  | _, [] => []
  | k, x :: r => (x.1, k, x.2) :: tag (k+1) r

theorem tag_append (k : Nat) (a b : List (L × V)) :
    tag k (a ++ b) = tag k a ++ tag (k + a.length) b := by
  induction a generalizing k with
  | nil => simp [tag]
  | cons x a ih => simp [tag, ih, Nat.add_comm, Nat.add_left_comm]

theorem tag_length (k : Nat) (a : List (L × V)) : (tag k a).length = a.length := by
  induction a generalizing k with
  | nil => rfl
  | cons x a ih => simp [tag, ih]

theorem tag_labels (k : Nat) (a : List (L × V)) : (tag k a).map (·.1) = a.map (·.1) := by
  induction a generalizing k with
  | nil => rfl
  | cons x a ih => simp [tag, ih]

theorem mem_tag {k : Nat} {a : List (L × V)} {e : L × Nat × V} (h : e ∈ tag k a) :
    (e.1, e.2.2) ∈ a ∧ k ≤ e.2.1 ∧ e.2.1 < k + a.length := by
  induction a generalizing k with
  | nil => simp [tag] at h
  | cons x a ih =>
    simp only [tag, List.mem_cons] at h
    rcases h with rfl | h
    · simp
    · obtain ⟨h1, h2, h3⟩ := ih h
      refine ⟨List.mem_cons_of_mem _ h1, by omega, ?_⟩
      simp only [List.length_cons]; omega

theorem tag_map_succ (k : Nat) (a : List (L × V)) :
    (tag k a).map (fun o => (o.1, o.2.1 + 1, o.2.2)) = tag (k+1) a := by
  induction a generalizing k with
  | nil => rfl
  | cons x a ih => simp [tag, ih]

theorem recencyRev_nodup (h : List (Op L V)) : (recencyRev h).Nodup := by
  induction h with
  | nil => simp [recencyRev]
  | cons op h ih =>
    simp only [recencyRev, List.nodup_cons]
    exact ⟨by simp, ih.filter _⟩

theorem recency_nodup (ops : List (Op L V)) : (recency ops).Nodup := recencyRev_nodup _

theorem recency_snoc (ops : List (Op L V)) (op : Op L V) :
    recency (ops ++ [op]) = op.label :: (recency ops).filter (· ≠ op.label) := by
  simp [recency, recencyRev]

theorem filter_ne_of_not_mem {l : L} {xs : List L} (h : l ∉ xs) : xs.filter (· ≠ l) = xs := by
  apply List.filter_eq_self.2
  intro a ha
  simp only [ne_eq, decide_not, Bool.not_eq_eq_eq_not, Bool.not_true, decide_eq_false_iff_not]
  rintro rfl; exact h ha

theorem take_filter_of_mem {l : L} {xs : List L} (hn : xs.Nodup) {m : Nat} (h : l ∈ xs.take (m+1)) :
    (xs.filter (· ≠ l)).take m = (xs.take (m+1)).filter (· ≠ l) := by
  induction xs generalizing m with
  | nil => simp at h
  | cons x xs ih =>
    rw [List.nodup_cons] at hn
    simp only [List.take_succ_cons, List.mem_cons] at h
    by_cases hx : x = l
    · subst hx
      have h1 := filter_ne_of_not_mem hn.1
      have h2 : x ∉ xs.take m := fun hh => hn.1 (List.mem_of_mem_take hh)
      have h3 := filter_ne_of_not_mem h2
      simp only [ne_eq, decide_not] at h1 h3 ⊢
      simp [List.take_succ_cons, h1, h3]
    · have h' : l ∈ xs.take m := by
        rcases h with h | h
        · exact absurd h.symm hx
        · exact h
      cases m with
      | zero => simp at h'
      | succ m =>
        have := ih hn.2 h'
        simp only [ne_eq, decide_not] at this ⊢
        simp [List.take_succ_cons, hx, this]

theorem take_filter_of_not_mem {l : L} {xs : List L} {m : Nat} (h : l ∉ xs.take m) :
    (xs.filter (· ≠ l)).take m = xs.take m := by
  induction xs generalizing m with
  | nil => simp
  | cons x xs ih =>
    cases m with
    | zero => simp
    | succ m =>
      simp only [List.take_succ_cons, List.mem_cons, not_or] at h
      have := ih h.2
      have hx : ¬ x = l := fun e => h.1 e.symm
      simp only [ne_eq, decide_not] at this ⊢
      simp [hx, this]

theorem getElem?_snoc {α : Type} {xs : List α} {x y : α} {i : Nat} :
    (xs ++ [x])[i]? = some y ↔ (i < xs.length ∧ xs[i]? = some y) ∨ (i = xs.length ∧ x = y) := by
  rcases Nat.lt_trichotomy i xs.length with h | h | h
  · simp [List.getElem?_append_left h, h]; omega
  · subst h; simp
  · rw [List.getElem?_eq_none (by simp; omega)]
    simp; omega

theorem lt_of_getElem? {α : Type} {xs : List α} {y : α} {i : Nat} (h : xs[i]? = some y) :
    i < xs.length := by
  by_contra hc
  rw [List.getElem?_eq_none (by omega)] at h
  cases h

theorem isLastUse_snoc (ops : List (Op L V)) (op : Op L V) (l : L) (i : Nat) :
    IsLastUse (ops ++ [op]) l i ↔
      (op.label = l ∧ i = ops.length) ∨ (op.label ≠ l ∧ IsLastUse ops l i) := by
  simp only [IsLastUse, getElem?_snoc]
  constructor
  · rintro ⟨⟨o, h, hl⟩, h2⟩
    by_cases hop : op.label = l
    · left
      refine ⟨hop, ?_⟩
      rcases h with ⟨hi, h⟩ | ⟨hi, h⟩
      · exact absurd hop (h2 ops.length op hi (Or.inr ⟨rfl, rfl⟩))
      · exact hi
    · right
      refine ⟨hop, ?_, fun j o' hj ho' => h2 j o' hj (Or.inl ⟨lt_of_getElem? ho', ho'⟩)⟩
      rcases h with ⟨hi, h⟩ | ⟨hi, h⟩
      · exact ⟨o, h, hl⟩
      · subst h; exact absurd hl hop
  · rintro (⟨h, rfl⟩ | ⟨h, ⟨o, ho, hl⟩, h2⟩)
    · refine ⟨⟨op, Or.inr ⟨rfl, rfl⟩, h⟩, ?_⟩
      rintro j o hj (⟨h1, _⟩ | ⟨h1, _⟩) <;> omega
    · refine ⟨⟨o, Or.inl ⟨lt_of_getElem? ho, ho⟩, hl⟩, ?_⟩
      rintro j o' hj (⟨h1, h3⟩ | ⟨h1, rfl⟩)
      · exact h2 j o' hj h3
      · exact h

theorem isLastUse_lt {ops : List (Op L V)} {l : L} {i : Nat} (h : IsLastUse ops l i) :
    i < ops.length := by
  obtain ⟨⟨o, ho, _⟩, _⟩ := h
  exact lt_of_getElem? ho

theorem isLastPut_put (ops : List (Op L V)) (l : L) (v : V) : IsLastPut (ops ++ [.put l v]) l v := by
  refine ⟨ops.length, by simp, ?_⟩
  intro j w hj h
  have := lt_of_getElem? h
  simp at this; omega

theorem isLastPut_snoc {ops : List (Op L V)} {op : Op L V} {l : L} {v : V}
    (hop : ∀ w, op ≠ .put l w) (h : IsLastPut ops l v) : IsLastPut (ops ++ [op]) l v := by
  obtain ⟨i, hi, h2⟩ := h
  refine ⟨i, getElem?_snoc.2 (Or.inl ⟨lt_of_getElem? hi, hi⟩), ?_⟩
  intro j w hj hc
  rcases getElem?_snoc.1 hc with ⟨_, h⟩ | ⟨_, h⟩
  · exact h2 j w hj h
  · exact hop w h

/-- Recency lists exactly the used labels. -/
theorem mem_recency (ops : List (Op L V)) (l : L) :
    l ∈ recency ops ↔ ∃ i, IsLastUse ops l i := by
  induction ops using List.reverseRecOn with
  | nil => simp [recency, recencyRev, IsLastUse]
  | append_singleton ops op ih =>
    rw [recency_snoc]
    simp only [List.mem_cons, List.mem_filter, ih, isLastUse_snoc]
    by_cases h : op.label = l
    · simp [h]
    · have h' : ¬ l = op.label := fun e => h e.symm
      simp [h, h']

/-- Recency is sorted by time of last use, latest first. -/
theorem recency_sorted (ops : List (Op L V)) :
    (recency ops).Pairwise (fun l l' => ∀ i j, IsLastUse ops l i → IsLastUse ops l' j → j < i) := by
  induction ops using List.reverseRecOn with
  | nil => simp [recency, recencyRev]
  | append_singleton ops op ih =>
    rw [recency_snoc, List.pairwise_cons]
    constructor
    · intro l' hl' i j hi hj
      simp only [List.mem_filter, ne_eq, decide_not, Bool.not_eq_eq_eq_not, Bool.not_true,
        decide_eq_false_iff_not] at hl'
      rw [isLastUse_snoc] at hi hj
      rcases hi with ⟨_, rfl⟩ | ⟨h, _⟩
      · rcases hj with ⟨h, _⟩ | ⟨_, h⟩
        · exact absurd h.symm hl'.2
        · exact isLastUse_lt h
      · exact absurd rfl h
    · refine (ih.filter _).imp_of_mem ?_
      intro a b ha hb hab i j hi hj
      simp only [List.mem_filter, ne_eq, decide_not, Bool.not_eq_eq_eq_not, Bool.not_true,
        decide_eq_false_iff_not] at ha hb
      rw [isLastUse_snoc] at hi hj
      rcases hi with ⟨h, _⟩ | ⟨_, hi⟩
      · exact absurd h.symm ha.2
      rcases hj with ⟨h, _⟩ | ⟨_, hj⟩
      · exact absurd h.symm hb.2
      exact hab i j hi hj

/-- Representation invariant linking a cache with the history that produced it. -/
def Rel (m : Nat) (ops : List (Op L V)) (c : Cache L V) : Prop :=
  c.maxSize = m ∧ ∃ r : List (L × V), c.elems.Perm (tag 0 r) ∧
    r.map (·.1) = (recency ops).take m ∧ ∀ x ∈ r, IsLastPut ops x.1 x.2

theorem find_label {c : Cache L V} {r : List (L × V)} (hp : c.elems.Perm (tag 0 r))
    (hn : (r.map (·.1)).Nodup) {e : L × Nat × V} (he : e ∈ tag 0 r) :
    c.elems.find? (fun o => decide (o.1 = e.1)) = some e := by
  have hmem : e ∈ c.elems := hp.mem_iff.2 he
  have hn' : (c.elems.map (·.1)).Nodup := by
    rw [(hp.map _).nodup_iff, tag_labels]; exact hn
  revert hmem hn'
  generalize c.elems = xs
  intro hmem hn'
  induction xs with
  | nil => simp at hmem
  | cons x xs ih =>
    rw [List.map_cons, List.nodup_cons] at hn'
    by_cases hx : x.1 = e.1
    · rcases List.mem_cons.1 hmem with rfl | hm
      · simp
      · exact absurd (List.mem_map.2 ⟨e, hm, hx.symm⟩) hn'.1
    · rcases List.mem_cons.1 hmem with rfl | hm
      · exact absurd rfl hx
      · simp [hx, ih hm hn'.2]

theorem find_label_none {c : Cache L V} {r : List (L × V)} (hp : c.elems.Perm (tag 0 r))
    {l : L} : c.elems.find? (fun o => decide (o.1 = l)) = none ↔ l ∉ r.map (·.1) := by
  rw [← tag_labels 0 r, ← (hp.map _).mem_iff]
  simp only [List.find?_eq_none, decide_eq_true_eq, List.mem_map, not_exists, not_and]

theorem hasLabel_iff {c : Cache L V} {r : List (L × V)} (hp : c.elems.Perm (tag 0 r)) (l : L) :
    c.hasLabel l = true ↔ l ∈ r.map (·.1) := by
  rw [Cache.hasLabel, ← not_iff_not, ← find_label_none hp]
  rw [Bool.not_eq_true, Option.isSome_eq_false_iff, Option.isNone_iff_eq_none]

theorem split_mem {r : List (L × V)} {l : L} (h : l ∈ r.map (·.1)) :
    ∃ A v B, r = A ++ (l, v) :: B := by
  obtain ⟨⟨l', v⟩, hx, rfl⟩ := List.mem_map.1 h
  obtain ⟨A, B, rfl⟩ := List.append_of_mem hx
  exact ⟨A, v, B, rfl⟩

/-- Result of a successful `get` in terms of the recency list. -/
theorem get_spec {c : Cache L V} {A B : List (L × V)} {l : L} {v : V}
    (hp : c.elems.Perm (tag 0 (A ++ (l, v) :: B))) (hn : ((A ++ (l, v) :: B).map (·.1)).Nodup) :
    ∃ c', c.get l = .ok (c', v) ∧ c'.maxSize = c.maxSize ∧
      c'.elems.Perm (tag 0 ((l, v) :: (A ++ B))) := by
  have he : (l, A.length, v) ∈ tag 0 (A ++ (l, v) :: B) := by
    rw [tag_append]; simp [tag]
  have hf := find_label hp hn he
  have e : c.get l = .ok (⟨c.maxSize, c.elems.map (fun o =>
            if o.1 = l then (o.1, 0, o.2.2)
            else if o.2.1 < A.length then (o.1, o.2.1 + 1, o.2.2) else o)⟩, v) := by
    simp only [Cache.get, hf]
  refine ⟨_, e, rfl, ?_⟩
  refine (hp.map _).trans ?_
  rw [tag_append]
  have hA : (tag 0 A).map (fun o : L × Nat × V => if o.1 = l then (o.1, 0, o.2.2)
      else if o.2.1 < A.length then (o.1, o.2.1 + 1, o.2.2) else o) = tag 1 A := by
    rw [← tag_map_succ 0 A]
    apply List.map_congr_left
    intro o ho
    obtain ⟨h1, _, h3⟩ := mem_tag ho
    have : o.1 ≠ l := by
      rintro h
      rw [List.map_append, List.nodup_append] at hn
      exact hn.2.2 o.1 (List.mem_map.2 ⟨_, h1, rfl⟩) l (by simp) h
    rw [if_neg this, if_pos (by omega)]
  have hB : (tag (0 + A.length + 1) B).map (fun o : L × Nat × V => if o.1 = l then (o.1, 0, o.2.2)
      else if o.2.1 < A.length then (o.1, o.2.1 + 1, o.2.2) else o) = tag (1 + A.length) B := by
    have e : 0 + A.length + 1 = 1 + A.length := by omega
    rw [e]
    conv => rhs; rw [← List.map_id (tag (1 + A.length) B)]
    apply List.map_congr_left
    intro o ho
    obtain ⟨h1, h2, h3⟩ := mem_tag ho
    have : o.1 ≠ l := by
      rintro h
      rw [List.map_append, List.nodup_append] at hn
      have := hn.2.1
      rw [List.map_cons, List.nodup_cons] at this
      exact this.1 (List.mem_map.2 ⟨_, h1, h⟩)
    rw [if_neg this, if_neg (by omega)]
    rfl
  simp only [tag, List.map_append, List.map_cons, hA, hB, tag_append]
  simp only [if_true]
  exact List.perm_middle

theorem rel_init {m : Nat} : Rel m ([] : List (Op L V)) ⟨m, []⟩ :=
  ⟨rfl, [], by simp [tag], by simp [recency, recencyRev], by simp⟩

theorem rel_get {m : Nat} {ops : List (Op L V)} {c c' : Cache L V} {l : L} {v : V} (hm : 0 < m)
    (hr : Rel m ops c) (h : c.get l = .ok (c', v)) :
    Rel m (ops ++ [.get l]) c' ∧ IsLastPut ops l v ∧ l ∈ (recency ops).take m := by
  obtain ⟨hmax, r, hp, hlab, hput⟩ := hr
  have hnod : (r.map (·.1)).Nodup := by
    rw [hlab]; exact (recency_nodup ops).sublist (List.take_sublist _ _)
  have hmem : l ∈ r.map (·.1) := by
    by_contra hc
    rw [← find_label_none hp] at hc
    simp [Cache.get, hc] at h
  obtain ⟨A, w, B, rfl⟩ := split_mem hmem
  obtain ⟨c'', hget, hmax', hp'⟩ := get_spec hp hnod
  rw [hget] at h
  cases h
  refine ⟨⟨hmax'.trans hmax, _, hp', ?_, ?_⟩, hput (l, v) (by simp), hlab ▸ hmem⟩
  · rw [recency_snoc]
    obtain ⟨m, rfl⟩ : ∃ k, m = k + 1 := ⟨m - 1, by omega⟩
    rw [List.take_succ_cons]
    rw [hlab] at hmem
    rw [show (Op.get l : Op L V).label = l from rfl, take_filter_of_mem (recency_nodup ops) hmem, ← hlab]
    simp only [List.map_cons, List.map_append, List.filter_append]
    rw [List.map_append, List.map_cons, List.nodup_append] at hnod
    have h1 : l ∉ A.map (·.1) := fun hc => hnod.2.2 l hc l (by simp) rfl
    have h2 : l ∉ B.map (·.1) := (List.nodup_cons.1 hnod.2.1).1
    rw [filter_ne_of_not_mem h1]
    simp only [List.filter_cons]
    simp only [ne_eq, not_true_eq_false, decide_false, Bool.false_eq_true, if_false]
    rw [← filter_ne_of_not_mem h2]
    simp
  · intro x hx
    apply isLastPut_snoc
    · intro w hw; cases hw
    · apply hput x
      simp only [List.mem_cons, List.mem_append] at hx ⊢
      tauto

theorem put_spec {m : Nat} {ops : List (Op L V)} {c : Cache L V} {l : L} {v : V} (hm : 0 < m)
    (hr : Rel m ops c) (hnot : c.hasLabel l = false) :
    ∃ c', c.put l v = .ok c' ∧ Rel m (ops ++ [.put l v]) c' := by
  obtain ⟨hmax, r, hp, hlab, hput⟩ := hr
  have hnod : (r.map (·.1)).Nodup := by
    rw [hlab]; exact (recency_nodup ops).sublist (List.take_sublist _ _)
  have hlen : c.elems.length = r.length := by rw [hp.length_eq, tag_length]
  have hnl : l ∉ r.map (·.1) := by
    intro hc
    rw [← hasLabel_iff hp] at hc
    rw [hc] at hnot; cases hnot
  have hrl : r.length ≤ m := by
    have := congrArg List.length hlab
    simp at this; omega
  obtain ⟨m, rfl⟩ : ∃ k, m = k + 1 := ⟨m - 1, by omega⟩
  have hnl' : l ∉ (recency ops).take (m+1) := hlab ▸ hnl
  have hnl'' : l ∉ (recency ops).take m := fun h => hnl' (List.mem_of_mem_take (by
    rw [List.take_take]; simpa using h : l ∈ List.take m ((recency ops).take (m+1))))
  have hrec : (recency (ops ++ [Op.put l v])).take (m+1) = l :: (recency ops).take m := by
    rw [recency_snoc, List.take_succ_cons]
    rw [show (Op.put l v : Op L V).label = l from rfl, take_filter_of_not_mem hnl'']
  have hput' : ∀ x ∈ r, IsLastPut (ops ++ [Op.put l v]) x.1 x.2 := by
    intro x hx
    apply isLastPut_snoc _ (hput x hx)
    intro w hw
    cases hw
    exact hnl (List.mem_map.2 ⟨x, hx, rfl⟩)
  by_cases hfull : c.elems.length < c.maxSize
  · have e : c.put l v = .ok ⟨c.maxSize, (l, 0, v) :: c.elems.map (fun o => (o.1, o.2.1 + 1, o.2.2))⟩ := by
      simp [Cache.put, hnot, hfull]
    refine ⟨_, e, hmax, (l, v) :: r, ?_, ?_, ?_⟩
    · simp only [tag]
      refine List.Perm.cons _ ((hp.map _).trans ?_)
      rw [tag_map_succ]
    · rw [hrec, List.map_cons, hlab]
      have : (recency ops).length ≤ m := by
        have := congrArg List.length hlab
        simp at this; omega
      rw [List.take_of_length_le this, List.take_of_length_le (by omega)]
    · intro x hx
      rcases List.mem_cons.1 hx with rfl | hx
      · exact isLastPut_put ops l v
      · exact hput' x hx
  · have hrl' : r.length = m + 1 := by omega
    obtain ⟨A, x, rfl⟩ : ∃ A x, r = A ++ [x] := by
      refine ⟨r.dropLast, r.getLast (by intro h; simp [h] at hrl'), ?_⟩
      rw [List.dropLast_append_getLast]
    have hA : A.length = m := by simpa using hrl'
    have htag : tag 0 (A ++ [x]) = tag 0 A ++ [(x.1, m, x.2)] := by
      rw [tag_append]; simp [tag, hA]
    have hxel : (x.1, m, x.2) ∈ c.elems := hp.mem_iff.2 (by rw [htag]; simp)
    have huniq : ∀ e ∈ c.elems, e.2.1 = m → e = (x.1, m, x.2) := by
      intro e he hem
      have he' := hp.mem_iff.1 he
      rw [htag, List.mem_append] at he'
      rcases he' with he' | he'
      · have := (mem_tag he').2.2; omega
      · simpa using he'
    have hfind : c.elems.find? (fun o => decide (o.2.1 = c.maxSize - 1)) = some (x.1, m, x.2) := by
      have hm1 : c.maxSize - 1 = m := by omega
      rw [hm1]
      cases hf : c.elems.find? (fun o => decide (o.2.1 = m)) with
      | none =>
        rw [List.find?_eq_none] at hf
        exact absurd (by simp) (hf _ hxel)
      | some e =>
        have h1 := List.find?_some hf
        have h2 := List.mem_of_find?_eq_some hf
        rw [huniq e h2 (by simpa using h1)]
    have e : c.put l v = .ok ⟨c.maxSize, (l, 0, v) ::
        (c.elems.map (fun o => (o.1, o.2.1 + 1, o.2.2))).filter (fun o => o.1 ≠ x.1)⟩ := by
      simp only [Cache.put, hnot, hfull, if_false, hfind, Bool.false_eq_true]
    refine ⟨_, e, hmax, (l, v) :: A, ?_, ?_, ?_⟩
    · simp only [tag]
      refine List.Perm.cons _ (((hp.map _).filter _).trans ?_)
      rw [tag_map_succ, tag_append, List.filter_append]
      have hxA : x.1 ∉ A.map (·.1) := by
        rw [List.map_append, List.nodup_append] at hnod
        exact fun hc => hnod.2.2 x.1 hc x.1 (by simp) rfl
      have h1 : (tag 1 A).filter (fun o => decide (o.1 ≠ x.1)) = tag 1 A := by
        apply List.filter_eq_self.2
        intro o ho
        have := (mem_tag ho).1
        simp only [ne_eq, decide_not, Bool.not_eq_eq_eq_not, Bool.not_true, decide_eq_false_iff_not]
        intro he
        exact hxA (List.mem_map.2 ⟨_, this, he⟩)
      simp only [Nat.zero_add] at h1 ⊢
      rw [h1]
      simp [tag]
    · rw [hrec, List.map_cons]
      have : A.map (·.1) = ((recency ops).take (m+1)).take m := by
        rw [← hlab]; simp [← hA]
      rw [this, List.take_take]
      simp
    · intro y hy
      rcases List.mem_cons.1 hy with rfl | hy
      · exact isLastPut_put ops l v
      · exact hput' y (List.mem_append_left _ hy)

theorem run_snoc (m : Nat) (ops : List (Op L V)) (op : Op L V) :
    run m (ops ++ [op]) = match run m ops with
      | .ok c => c.step op
      | .failed => .failed
      | .undefined => .undefined := by
  simp only [run, List.foldl_append, List.foldl_cons, List.foldl_nil]
  generalize List.foldl _ (new m) ops = o
  cases o <;> rfl

theorem run_rel {m : Nat} (ops : List (Op L V)) :
    run m ops ≠ .undefined ∧ ∀ c, run m ops = .ok c → 0 < m ∧ Rel m ops c := by
  induction ops using List.reverseRecOn with
  | nil =>
    simp only [run, List.foldl_nil, new]
    split
    next h => exact ⟨by simp, fun c hc => by cases hc; exact ⟨h, rel_init⟩⟩
    next h => exact ⟨by simp, fun c hc => by cases hc⟩
  | append_singleton ops op ih =>
    rw [run_snoc]
    cases hrun : run m ops with
    | failed => simp
    | undefined => exact absurd hrun ih.1
    | ok c =>
      obtain ⟨hm, hr⟩ := ih.2 c hrun
      cases op with
      | get l =>
        simp only [Cache.step]
        cases hg : c.get l with
        | failed => simp
        | undefined =>
          exfalso
          simp only [Cache.get] at hg
          split at hg <;> cases hg
        | ok p =>
          obtain ⟨c', v⟩ := p
          refine ⟨by simp, fun c'' h => ?_⟩
          cases h
          exact ⟨hm, (rel_get hm hr hg).1⟩
      | put l v =>
        simp only [Cache.step]
        cases hl : c.hasLabel l with
        | true => simp [Cache.put, hl]
        | false =>
          obtain ⟨c', hc', hr'⟩ := put_spec (v := v) hm hr hl
          rw [hc']
          refine ⟨by simp, fun c'' h => ?_⟩
          cases h
          exact ⟨hm, hr'⟩

end Ariadne.LRU
