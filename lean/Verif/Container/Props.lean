import Verif.Container.Model
import Mathlib.Data.List.Nodup
import Mathlib.Data.List.Perm.Subperm
import Mathlib.Data.List.Range
import Mathlib.Tactic.ByContra
import Mathlib.Order.Nat

/-!
# C61: sets, maps and index complements
-/

namespace Verif.Container

section Sets

variable {α : Type*} [LinearOrder α]

theorem Sorted.tail {y : α} {l : List α} (h : Sorted (y :: l)) : Sorted l := (List.pairwise_cons.1 h).2

theorem Sorted.head_lt {y : α} {l : List α} (h : Sorted (y :: l)) {x : α} (hx : x ∈ l) : y < x :=
  (List.pairwise_cons.1 h).1 x hx

theorem Sorted.nil : Sorted ([] : List α) := List.Pairwise.nil

/-- Two sets with the same elements are the same sequence. -/
theorem Sorted.ext {s t : List α} (hs : Sorted s) (ht : Sorted t) (h : ∀ x, x ∈ s ↔ x ∈ t) : s = t := by
  induction s generalizing t with
  | nil =>
    cases t with
    | nil => rfl
    | cons y t => exact absurd ((h y).2 (by simp)) (by simp)
  | cons a s ih =>
    cases t with
    | nil => exact absurd ((h a).1 (by simp)) (by simp)
    | cons b t =>
      have hab : a = b := by
        rcases List.mem_cons.1 ((h a).1 (by simp)) with e | e
        · exact e
        · rcases List.mem_cons.1 ((h b).2 (by simp)) with e' | e'
          · exact e'.symm
          · exact absurd (hs.head_lt e') (not_lt_of_gt (ht.head_lt e))
      subst hab
      rw [ih hs.tail ht.tail]
      intro x
      constructor
      · intro hx
        rcases List.mem_cons.1 ((h x).1 (List.mem_cons_of_mem _ hx)) with e | e
        · exact absurd (hs.head_lt hx) (by simp [e])
        · exact e
      · intro hx
        rcases List.mem_cons.1 ((h x).2 (List.mem_cons_of_mem _ hx)) with e | e
        · exact absurd (ht.head_lt hx) (by simp [e])
        · exact e

@[simp] theorem mem_insert {x y : α} {s : List α} : y ∈ insert x s ↔ y = x ∨ y ∈ s := by
  induction s with
  | nil => simp [insert]
  | cons z s ih =>
    rw [insert]
    split_ifs with h1 h2
    · simp
    · simp only [List.mem_cons, ih]; tauto
    · have : x = z := le_antisymm (not_lt.1 h2) (not_lt.1 h1)
      simp [this]

theorem Sorted.insert {x : α} {s : List α} (h : Sorted s) : Sorted (insert x s) := by
  induction s with
  | nil => exact List.pairwise_singleton _ _
  | cons y s ih =>
    rw [Container.insert]
    split_ifs with h1 h2
    · refine List.pairwise_cons.2 ⟨fun z hz => ?_, h⟩
      rcases List.mem_cons.1 hz with rfl | hz
      · exact h1
      · exact h1.trans (h.head_lt hz)
    · refine List.pairwise_cons.2 ⟨fun z hz => ?_, ih h.tail⟩
      rcases mem_insert.1 hz with rfl | hz
      · exact h2
      · exact h.head_lt hz
    · exact h

theorem contains_iff {x : α} {s : List α} (h : Sorted s) : contains x s = true ↔ x ∈ s := by
  induction s with
  | nil => simp [contains]
  | cons y s ih =>
    rw [contains]
    split_ifs with h1 h2
    · simp only [Bool.false_eq_true, List.mem_cons, false_iff, not_or]
      exact ⟨ne_of_lt h1, fun hx => lt_asymm h1 (h.head_lt hx)⟩
    · rw [ih h.tail, List.mem_cons]
      simp [ne_of_gt h2]
    · simp [le_antisymm (not_lt.1 h2) (not_lt.1 h1)]

theorem contains_false {x : α} {s : List α} (h : Sorted s) : contains x s = false ↔ x ∉ s := by
  rw [← contains_iff h, Bool.not_eq_true]

theorem mem_erase {x y : α} {s : List α} (h : Sorted s) : y ∈ erase x s ↔ y ∈ s ∧ y ≠ x := by
  induction s with
  | nil => simp [erase]
  | cons z s ih =>
    rw [erase]
    split_ifs with h1 h2
    · refine ⟨fun hy => ⟨hy, ?_⟩, fun hy => hy.1⟩
      rintro rfl
      rcases List.mem_cons.1 hy with rfl | hy
      · exact lt_irrefl _ h1
      · exact lt_asymm h1 (h.head_lt hy)
    · rw [List.mem_cons, ih h.tail, List.mem_cons]
      constructor
      · rintro (rfl | ⟨a, b⟩)
        · exact ⟨Or.inl rfl, ne_of_lt h2⟩
        · exact ⟨Or.inr a, b⟩
      · rintro ⟨rfl | a, b⟩
        · exact Or.inl rfl
        · exact Or.inr ⟨a, b⟩
    · have e : x = z := le_antisymm (not_lt.1 h2) (not_lt.1 h1)
      subst e
      rw [List.mem_cons]
      constructor
      · intro hy; exact ⟨Or.inr hy, ne_of_gt (h.head_lt hy)⟩
      · rintro ⟨rfl | a, b⟩
        · exact absurd rfl b
        · exact a

theorem Sorted.sublist {s t : List α} (h : Sorted t) (hs : s.Sublist t) : Sorted s := List.Pairwise.sublist hs h

theorem erase_sublist (x : α) (s : List α) : (erase x s).Sublist s := by
  induction s with
  | nil => exact List.Sublist.refl _
  | cons y s ih =>
    rw [erase]
    split_ifs
    · exact List.Sublist.refl _
    · exact ih.cons₂ y
    · exact List.sublist_cons_self y s

theorem Sorted.erase {x : α} {s : List α} (h : Sorted s) : Sorted (erase x s) := h.sublist (erase_sublist x s)

theorem adjoin_sorted {s : List α} (h : Sorted s) (l : List α) : Sorted (adjoin s l) := by
  induction l generalizing s with
  | nil => exact h
  | cons x l ih => exact ih h.insert

theorem mem_adjoin {y : α} (s l : List α) : y ∈ adjoin s l ↔ y ∈ s ∨ y ∈ l := by
  induction l generalizing s with
  | nil => simp [adjoin]
  | cons x l ih =>
    rw [show adjoin s (x :: l) = adjoin (Container.insert x s) l from rfl, ih]
    simp only [mem_insert, List.mem_cons]; tauto

theorem remove_eq (s t : List α) : remove s t = s.filter fun x => !contains x t := by
  induction s with
  | nil => rfl
  | cons x s ih => simp only [remove, List.filter_cons]; cases contains x t <;> simp [ih]

theorem memberRestrict_eq (s t : List α) : memberRestrict s t = s.filter fun x => !contains x t := by
  induction s with
  | nil => rfl
  | cons x s ih => simp only [memberRestrict, List.filter_cons]; cases contains x t <;> simp [ih]

theorem restrict_eq (s t : List α) : restrict s t = s.filter fun x => contains x t := by
  induction s with
  | nil => rfl
  | cons x s ih => simp only [restrict, List.filter_cons]; cases contains x t <;> simp [ih]

theorem removeList_spec {s : List α} (h : Sorted s) (l : List α) :
    Sorted (removeList s l) ∧ ∀ y, y ∈ removeList s l ↔ y ∈ s ∧ y ∉ l := by
  induction l generalizing s with
  | nil => exact ⟨h, by simp [removeList]⟩
  | cons x l ih =>
    rw [show removeList s (x :: l) = removeList (Container.erase x s) l from rfl]
    refine ⟨(ih h.erase).1, fun y => ?_⟩
    rw [(ih h.erase).2, mem_erase h, List.mem_cons]; tauto

theorem intersectionList_spec {s : List α} (h : Sorted s) (l r : List α) (hr : Sorted r) :
    Sorted (l.foldl (fun r x => if contains x s then insert x r else r) r) ∧
    ∀ y, y ∈ l.foldl (fun r x => if contains x s then insert x r else r) r ↔ y ∈ r ∨ (y ∈ s ∧ y ∈ l) := by
  induction l generalizing r with
  | nil => exact ⟨hr, by simp⟩
  | cons x l ih =>
    simp only [List.foldl_cons, List.mem_cons]
    cases e : contains x s with
    | false =>
      have hx := (contains_false h).1 e
      simp only [Bool.false_eq_true, if_false]
      refine ⟨(ih r hr).1, fun y => ?_⟩
      rw [(ih r hr).2]
      constructor
      · tauto
      · rintro (a | ⟨a, rfl | b⟩)
        · exact Or.inl a
        · exact absurd a hx
        · exact Or.inr ⟨a, b⟩
    | true =>
      have hx := (contains_iff h).1 e
      simp only [if_true]
      refine ⟨(ih _ hr.insert).1, fun y => ?_⟩
      rw [(ih _ hr.insert).2, mem_insert]
      constructor
      · rintro ((rfl | a) | a)
        · exact Or.inr ⟨hx, Or.inl rfl⟩
        · exact Or.inl a
        · exact Or.inr ⟨a.1, Or.inr a.2⟩
      · tauto

/-- C61: sets are given by their elements: two sets made by any operations are equal as objects exactly if they have
the same elements. -/
theorem C61_set_ext {s t : List α} (hs : Sorted s) (ht : Sorted t) : s = t ↔ ∀ x, x ∈ s ↔ x ∈ t :=
  ⟨fun e x => by rw [e], hs.ext ht⟩

/-- C61: constructing a set from a list gives the elements of the list. -/
theorem C61_of_list (l : List α) : Sorted (ofList l) ∧ ∀ x, x ∈ ofList l ↔ x ∈ l :=
  ⟨adjoin_sorted Sorted.nil l, fun x => (mem_adjoin [] l).trans (by simp)⟩

/-- C61: `adjoin`, `join`, `remove`, `restrict`, `intersection` and `difference` give the union, difference and
intersection of the sets (`restrict` here is the free function). -/
theorem C61_set_algebra {s t : List α} (hs : Sorted s) (ht : Sorted t) (l : List α) (x : α) :
    (Sorted (adjoin s t) ∧ ∀ y, y ∈ adjoin s t ↔ y ∈ s ∨ y ∈ t) ∧
    (Sorted (remove1 s x) ∧ ∀ y, y ∈ remove1 s x ↔ y ∈ s ∧ y ≠ x) ∧
    (Sorted (remove s t) ∧ ∀ y, y ∈ remove s t ↔ y ∈ s ∧ y ∉ t) ∧
    (Sorted (removeList s l) ∧ ∀ y, y ∈ removeList s l ↔ y ∈ s ∧ y ∉ l) ∧
    (Sorted (restrict s t) ∧ ∀ y, y ∈ restrict s t ↔ y ∈ s ∧ y ∈ t) ∧
    (Sorted (intersection s t) ∧ ∀ y, y ∈ intersection s t ↔ y ∈ s ∧ y ∈ t) ∧
    (Sorted (intersectionList s l) ∧ ∀ y, y ∈ intersectionList s l ↔ y ∈ s ∧ y ∈ l) ∧
    (Sorted (difference s t) ∧ ∀ y, y ∈ difference s t ↔ y ∈ s ∧ y ∉ t) := by
  have hrem : Sorted (remove s t) ∧ ∀ y, y ∈ remove s t ↔ y ∈ s ∧ y ∉ t := by
    rw [remove_eq]
    refine ⟨hs.sublist List.filter_sublist, fun y => ?_⟩
    simp [List.mem_filter, contains_false ht]
  have hres : Sorted (restrict s t) ∧ ∀ y, y ∈ restrict s t ↔ y ∈ s ∧ y ∈ t := by
    rw [restrict_eq]
    refine ⟨hs.sublist List.filter_sublist, fun y => ?_⟩
    simp [List.mem_filter, contains_iff ht]
  refine ⟨⟨adjoin_sorted hs t, fun y => mem_adjoin s t⟩, ?_, hrem, removeList_spec hs l, hres, hres, ?_, hrem⟩
  · rw [remove1]
    cases e : contains x s with
    | true => exact ⟨hs.erase, fun y => mem_erase hs⟩
    | false =>
      have hx := (contains_false hs).1 e
      refine ⟨hs, fun y => ⟨fun h => ⟨h, fun e => hx (e ▸ h)⟩, fun h => h.1⟩⟩
  · have := intersectionList_spec hs l [] Sorted.nil
    exact ⟨this.1, fun y => (this.2 y).trans (by simp)⟩

/-- C61: membership, `subset` (the free function) and `disjoint` decide membership, inclusion and disjointness. -/
theorem C61_set_tests {s t : List α} (hs : Sorted s) (ht : Sorted t) (l : List α) (x : α) :
    (contains x s = true ↔ x ∈ s) ∧
    (subset s t = true ↔ ∀ y ∈ s, y ∈ t) ∧
    (disjoint s t = true ↔ ∀ y ∈ s, y ∉ t) ∧
    (memberDisjoint s l = true ↔ ∀ y ∈ s, y ∉ l) := by
  refine ⟨contains_iff hs, ?_, ?_, ?_⟩
  · simp only [subset, List.all_eq_true]
    exact forall₂_congr fun y _ => contains_iff ht
  · simp only [disjoint, List.all_eq_true, Bool.not_eq_true']
    exact forall₂_congr fun y _ => contains_false ht
  · simp only [memberDisjoint, List.all_eq_true, Bool.not_eq_true']
    constructor
    · intro h y hy hl; exact (contains_false hs).1 (h y hl) hy
    · intro h y hl; exact (contains_false hs).2 fun hy => h y hy hl

/-- C61: the *member* `subset` is the converse inclusion: `s.subset(t)` tests whether `t` is a subset of `s`. -/
theorem C61_member_subset_inverted {s t : List α} (hs : Sorted s) :
    memberSubset s t = true ↔ ∀ y ∈ t, y ∈ s := by
  simp only [memberSubset, List.all_eq_true]
  exact forall₂_congr fun y _ => contains_iff hs

/-- C61: the *member* `restrict` removes the elements it should keep: it is the difference. -/
theorem C61_member_restrict_inverted (s t : List α) : memberRestrict s t = difference s t := by
  rw [difference, remove_eq, memberRestrict_eq]

/-- C61: hence the member `restrict` agrees with intersection only if the set is empty. -/
theorem C61_member_restrict_counterexample {s t : List α} (hs : Sorted s) (ht : Sorted t)
    (h : ∀ y, y ∈ memberRestrict s t ↔ y ∈ s ∧ y ∈ t) : s = [] := by
  cases s with
  | nil => rfl
  | cons x s =>
    exfalso
    have := h x
    rw [memberRestrict_eq, List.mem_filter] at this
    simp only [List.mem_cons, true_or, true_and, Bool.not_eq_true', contains_false ht] at this
    tauto

example : memberSubset [1, 2] [1] = true ∧ subset [1, 2] [1] = false ∧ memberRestrict [1, 2, 3] [2, 5] = [1, 3] ∧
    restrict [1, 2, 3] [2, 5] = [2] := by decide

theorem uniqueLoop_iff (l found : List α) (h : Sorted found) :
    uniqueLoop l found = true ↔ l.Nodup ∧ ∀ x ∈ l, x ∉ found := by
  induction l generalizing found with
  | nil => simp [uniqueLoop]
  | cons x l ih =>
    rw [uniqueLoop]
    cases e : contains x found with
    | true =>
      simp only [if_true, Bool.false_eq_true, List.mem_cons, forall_eq_or_imp, false_iff, not_and]
      exact fun _ hx => absurd ((contains_iff h).1 e) hx
    | false =>
      have hx := (contains_false h).1 e
      simp only [Bool.false_eq_true, if_false]
      rw [ih _ h.insert, List.nodup_cons]
      simp only [mem_insert, not_or, List.mem_cons, forall_eq_or_imp]
      constructor
      · rintro ⟨a, b⟩
        exact ⟨⟨fun hl => (b x hl).1 rfl, a⟩, hx, fun y hy => (b y hy).2⟩
      · rintro ⟨⟨a, b⟩, _, c⟩
        exact ⟨b, fun y hy => ⟨fun e => a (e ▸ hy), c y hy⟩⟩

/-- C61: `unique_elements` holds exactly if no element of the list is repeated. -/
theorem C61_unique (l : List α) : uniqueElements l = true ↔ l.Nodup := by
  rw [uniqueElements, uniqueLoop_iff l [] Sorted.nil]; simp

theorem duplicateLoop_spec (l result found : List α) (hr : Sorted result) (hf : Sorted found) :
    Sorted (duplicateLoop l result found) ∧
    ∀ y, y ∈ duplicateLoop l result found ↔ y ∈ result ∨ (y ∈ found ∧ y ∈ l) ∨ 2 ≤ l.count y := by
  induction l generalizing result found with
  | nil => exact ⟨hr, by simp [duplicateLoop]⟩
  | cons x l ih =>
    rw [duplicateLoop]
    cases e : contains x found with
    | true =>
      have hx := (contains_iff hf).1 e
      simp only [if_true]
      refine ⟨(ih _ _ hr.insert hf).1, fun y => ?_⟩
      rw [(ih _ _ hr.insert hf).2, mem_insert, List.mem_cons, List.count_cons]
      by_cases hy : y = x
      · subst hy; simp [hx]
      · simp [hy, Ne.symm hy]
    | false =>
      have hx := (contains_false hf).1 e
      simp only [Bool.false_eq_true, if_false]
      refine ⟨(ih _ _ hr hf.insert).1, fun y => ?_⟩
      rw [(ih _ _ hr hf.insert).2, mem_insert, List.mem_cons, List.count_cons]
      by_cases hy : y = x
      · subst hy
        have : 0 < l.count y ↔ y ∈ l := List.count_pos_iff
        simp only [true_or, true_and, hx, false_and, false_or, beq_self_eq_true, if_true]
        constructor
        · rintro (a | a | a)
          · exact Or.inl a
          · have := this.2 a; right; omega
          · right; omega
        · rintro (a | a)
          · exact Or.inl a
          · right; left; exact this.1 (by omega)
      · simp [hy, Ne.symm hy]

/-- C61: `duplicate_elements` is the set of the elements which occur more than once in the list. -/
theorem C61_duplicates (l : List α) :
    Sorted (duplicateElements l) ∧ ∀ y, y ∈ duplicateElements l ↔ 2 ≤ l.count y := by
  have := duplicateLoop_spec l [] [] Sorted.nil Sorted.nil
  exact ⟨this.1, fun y => (this.2 y).trans (by simp)⟩

example : duplicateElements [3, 1, 2, 1, 3, 1] = [1, 3] ∧ uniqueElements [3, 1, 2] = true := by decide

end Sets

section Maps

variable {κ ν : Type*} [LinearOrder κ]

theorem SortedKeys.tail {p : κ × ν} {m : List (κ × ν)} (h : SortedKeys (p :: m)) : SortedKeys m :=
  (List.pairwise_cons.1 h).2

theorem SortedKeys.head_lt {p : κ × ν} {m : List (κ × ν)} (h : SortedKeys (p :: m)) {q : κ × ν} (hq : q ∈ m) :
    p.1 < q.1 := (List.pairwise_cons.1 h).1 q hq

theorem SortedKeys.nil : SortedKeys ([] : List (κ × ν)) := List.Pairwise.nil

theorem find_none_of_lt {k : κ} {m : List (κ × ν)} (h : ∀ p ∈ m, k < p.1) : find k m = none := by
  cases m with
  | nil => rfl
  | cons p m => obtain ⟨k', v'⟩ := p; rw [find, if_pos (h (k', v') (by simp))]

/-- The entries of a map are the values found. -/
theorem find_iff {k : κ} {v : ν} {m : List (κ × ν)} (h : SortedKeys m) : find k m = some v ↔ (k, v) ∈ m := by
  induction m with
  | nil => simp [find]
  | cons p m ih =>
    obtain ⟨k', v'⟩ := p
    rw [find]
    split_ifs with h1 h2
    · simp only [reduceCtorEq, List.mem_cons, Prod.mk.injEq, false_iff, not_or, not_and]
      exact ⟨fun e => absurd h1 (by simp [e]), fun hm => lt_asymm h1 (h.head_lt hm)⟩
    · rw [ih h.tail, List.mem_cons, Prod.mk.injEq]
      simp [ne_of_gt h2]
    · have e : k = k' := le_antisymm (not_lt.1 h2) (not_lt.1 h1)
      subst e
      simp only [Option.some.injEq, List.mem_cons, Prod.mk.injEq, true_and]
      constructor
      · intro e; exact Or.inl e.symm
      · rintro (e | hm)
        · exact e.symm
        · exact absurd (h.head_lt hm) (lt_irrefl _)

/-- Two maps with the same lookups are the same sequence. -/
theorem SortedKeys.ext {m n : List (κ × ν)} (hm : SortedKeys m) (hn : SortedKeys n)
    (h : ∀ k, find k m = find k n) : m = n := by
  have hmem : ∀ p, p ∈ m ↔ p ∈ n := fun ⟨k, v⟩ => by rw [← find_iff hm, ← find_iff hn, h k]
  clear h
  induction m generalizing n with
  | nil =>
    cases n with
    | nil => rfl
    | cons y t => exact absurd ((hmem y).2 (by simp)) (by simp)
  | cons a s ih =>
    cases n with
    | nil => exact absurd ((hmem a).1 (by simp)) (by simp)
    | cons b t =>
      have hab : a = b := by
        rcases List.mem_cons.1 ((hmem a).1 (by simp)) with e | e
        · exact e
        · rcases List.mem_cons.1 ((hmem b).2 (by simp)) with e' | e'
          · exact e'.symm
          · exact absurd (hm.head_lt e') (not_lt_of_gt (hn.head_lt e))
      subst hab
      rw [ih hm.tail hn.tail]
      intro x
      constructor
      · intro hx
        rcases List.mem_cons.1 ((hmem x).1 (List.mem_cons_of_mem _ hx)) with e | e
        · exact absurd (hm.head_lt hx) (by simp [e])
        · exact e
      · intro hx
        rcases List.mem_cons.1 ((hmem x).2 (List.mem_cons_of_mem _ hx)) with e | e
        · exact absurd (hn.head_lt hx) (by simp [e])
        · exact e

theorem mem_minsert_key {k : κ} {v : ν} {m : List (κ × ν)} {p : κ × ν} (h : p ∈ minsert k v m) :
    p = (k, v) ∨ p ∈ m := by
  induction m with
  | nil => left; simpa [minsert] using h
  | cons q m ih =>
    obtain ⟨k', v'⟩ := q
    rw [minsert] at h
    split_ifs at h with h1 h2
    · rcases List.mem_cons.1 h with e | e
      · exact Or.inl e
      · exact Or.inr e
    · rcases List.mem_cons.1 h with e | e
      · exact Or.inr (by simp [e])
      · rcases ih e with e | e
        · exact Or.inl e
        · exact Or.inr (List.mem_cons_of_mem _ e)
    · exact Or.inr h

theorem SortedKeys.minsert {k : κ} {v : ν} {m : List (κ × ν)} (h : SortedKeys m) : SortedKeys (minsert k v m) := by
  induction m with
  | nil => exact List.pairwise_singleton _ _
  | cons q m ih =>
    obtain ⟨k', v'⟩ := q
    rw [Container.minsert]
    split_ifs with h1 h2
    · refine List.pairwise_cons.2 ⟨fun z hz => ?_, h⟩
      rcases List.mem_cons.1 hz with rfl | hz
      · exact h1
      · exact lt_trans (b := k') h1 (h.head_lt hz)
    · refine List.pairwise_cons.2 ⟨fun z hz => ?_, ih h.tail⟩
      rcases mem_minsert_key hz with rfl | hz
      · exact h2
      · exact h.head_lt hz
    · exact h

theorem find_minsert {k j : κ} {v : ν} {m : List (κ × ν)} (h : SortedKeys m) :
    find j (minsert k v m) = if j = k then some ((find k m).getD v) else find j m := by
  induction m with
  | nil =>
    simp only [minsert, find]
    rcases lt_trichotomy j k with h' | h' | h'
    · simp [h', ne_of_lt h']
    · simp [h']
    · simp [h', ne_of_gt h', not_lt_of_gt h']
  | cons q m ih =>
    obtain ⟨k', v'⟩ := q
    rw [minsert]
    split_ifs with h1 h2 h3 h4 h5
    · subst h2
      simp [find, h1]
    · rw [find]
      rcases lt_or_gt_of_ne h2 with h' | h'
      · rw [if_pos h', find, if_pos (h'.trans h1)]
      · rw [if_neg (not_lt_of_gt h'), if_pos h']
    · subst h4
      rw [find, if_neg h1, if_pos h3, ih h.tail, if_pos rfl, find, if_neg h1, if_pos h3]
    · rw [find, find, ih h.tail, if_neg h4]
    · subst h5
      have e : j = k' := le_antisymm (not_lt.1 h3) (not_lt.1 h1)
      subst e; simp [find]
    · rfl

theorem mem_mset_key {k : κ} {v : ν} {m : List (κ × ν)} {p : κ × ν} (h : p ∈ mset k v m) :
    p = (k, v) ∨ p ∈ m := by
  induction m with
  | nil => left; simpa [mset] using h
  | cons q m ih =>
    obtain ⟨k', v'⟩ := q
    rw [mset] at h
    split_ifs at h with h1 h2
    · rcases List.mem_cons.1 h with e | e
      · exact Or.inl e
      · exact Or.inr e
    · rcases List.mem_cons.1 h with e | e
      · exact Or.inr (by simp [e])
      · rcases ih e with e | e
        · exact Or.inl e
        · exact Or.inr (List.mem_cons_of_mem _ e)
    · rcases List.mem_cons.1 h with e | e
      · exact Or.inl e
      · exact Or.inr (List.mem_cons_of_mem _ e)

theorem SortedKeys.mset {k : κ} {v : ν} {m : List (κ × ν)} (h : SortedKeys m) : SortedKeys (mset k v m) := by
  induction m with
  | nil => exact List.pairwise_singleton _ _
  | cons q m ih =>
    obtain ⟨k', v'⟩ := q
    rw [Container.mset]
    split_ifs with h1 h2
    · refine List.pairwise_cons.2 ⟨fun z hz => ?_, h⟩
      rcases List.mem_cons.1 hz with rfl | hz
      · exact h1
      · exact lt_trans (b := k') h1 (h.head_lt hz)
    · refine List.pairwise_cons.2 ⟨fun z hz => ?_, ih h.tail⟩
      rcases mem_mset_key hz with rfl | hz
      · exact h2
      · exact h.head_lt hz
    · have e : k = k' := le_antisymm (not_lt.1 h2) (not_lt.1 h1)
      subst e
      exact List.pairwise_cons.2 ⟨fun z hz => h.head_lt hz, h.tail⟩

theorem find_mset {k j : κ} {v : ν} {m : List (κ × ν)} (h : SortedKeys m) :
    find j (mset k v m) = if j = k then some v else find j m := by
  induction m with
  | nil =>
    simp only [mset, find]
    rcases lt_trichotomy j k with h' | h' | h'
    · simp [h', ne_of_lt h']
    · simp [h']
    · simp [h', ne_of_gt h', not_lt_of_gt h']
  | cons q m ih =>
    obtain ⟨k', v'⟩ := q
    rw [mset]
    split_ifs with h1 h2 h3 h4 h5
    · subst h2
      simp [find]
    · rw [find]
      rcases lt_or_gt_of_ne h2 with h' | h'
      · rw [if_pos h', find, if_pos (h'.trans h1)]
      · rw [if_neg (not_lt_of_gt h'), if_pos h']
    · subst h4
      rw [find, if_neg h1, if_pos h3, ih h.tail, if_pos rfl]
    · rw [find, find, ih h.tail, if_neg h4]
    · subst h5
      simp [find]
    · have e : k = k' := le_antisymm (not_lt.1 h3) (not_lt.1 h1)
      subst e
      simp only [find]
      rcases lt_or_gt_of_ne h5 with h' | h'
      · simp [h']
      · simp [h', not_lt_of_gt h']

theorem merase_sublist (k : κ) (m : List (κ × ν)) : (merase k m).Sublist m := by
  induction m with
  | nil => exact List.Sublist.refl _
  | cons q m ih =>
    obtain ⟨k', v'⟩ := q
    rw [merase]
    split_ifs
    · exact List.Sublist.refl _
    · exact ih.cons₂ _
    · exact List.sublist_cons_self _ m

theorem SortedKeys.merase {k : κ} {m : List (κ × ν)} (h : SortedKeys m) : SortedKeys (merase k m) :=
  List.Pairwise.sublist (merase_sublist k m) h

theorem find_merase {k j : κ} {m : List (κ × ν)} (h : SortedKeys m) :
    find j (merase k m) = if j = k then none else find j m := by
  induction m with
  | nil => simp [merase, find]
  | cons q m ih =>
    obtain ⟨k', v'⟩ := q
    rw [merase]
    split_ifs with h1 h2 h3 h4 h5
    · subst h2
      rw [find, if_pos h1]
    · rfl
    · subst h4
      rw [find, if_neg h1, if_pos h3, ih h.tail, if_pos rfl]
    · rw [find, find, ih h.tail, if_neg h4]
    · subst h5
      have e : j = k' := le_antisymm (not_lt.1 h3) (not_lt.1 h1)
      subst e
      exact find_none_of_lt fun p hp => h.head_lt hp
    · have e : k = k' := le_antisymm (not_lt.1 h3) (not_lt.1 h1)
      subst e
      rw [find]
      rcases lt_or_gt_of_ne h5 with h' | h'
      · rw [if_pos h']; exact find_none_of_lt fun p hp => h'.trans (h.head_lt hp)
      · rw [if_neg (not_lt_of_gt h'), if_pos h']

theorem find_cons_ne {k j : κ} {v : ν} {m : List (κ × ν)} (h : SortedKeys ((k, v) :: m)) (hj : j ≠ k) :
    find j ((k, v) :: m) = find j m := by
  rw [find]
  rcases lt_or_gt_of_ne hj with h' | h'
  · rw [if_pos h']; exact (find_none_of_lt fun p hp => h'.trans (h.head_lt hp)).symm
  · rw [if_neg (not_lt_of_gt h'), if_pos h']

theorem find_cons_self (k : κ) (v : ν) (m : List (κ × ν)) : find k ((k, v) :: m) = some v := by simp [find]

theorem find_tail_self {k : κ} {v : ν} {m : List (κ × ν)} (h : SortedKeys ((k, v) :: m)) : find k m = none :=
  find_none_of_lt fun _ hp => h.head_lt hp

theorem madjoin_spec {m n : List (κ × ν)} (hm : SortedKeys m) (hn : SortedKeys n) :
    SortedKeys (madjoin m n) ∧ ∀ k, find k (madjoin m n) = (find k m).or (find k n) := by
  induction n generalizing m with
  | nil => exact ⟨hm, fun k => by simp [madjoin, find]⟩
  | cons p n ih =>
    obtain ⟨k', v'⟩ := p
    rw [show madjoin m ((k', v') :: n) = madjoin (Container.minsert k' v' m) n from rfl]
    refine ⟨(ih hm.minsert hn.tail).1, fun k => ?_⟩
    rw [(ih hm.minsert hn.tail).2, find_minsert hm]
    by_cases e : k = k'
    · subst e
      rw [if_pos rfl, find_cons_self]
      cases find k m <;> rfl
    · rw [if_neg e, find_cons_ne hn e]

theorem removeKeys_spec {m : List (κ × ν)} (hm : SortedKeys m) (s : List κ) :
    SortedKeys (removeKeys m s) ∧ ∀ k, find k (removeKeys m s) = if k ∈ s then none else find k m := by
  induction s generalizing m with
  | nil => exact ⟨hm, fun k => by simp [removeKeys]⟩
  | cons x s ih =>
    rw [show removeKeys m (x :: s) = removeKeys (Container.merase x m) s from rfl]
    refine ⟨(ih hm.merase).1, fun k => ?_⟩
    rw [(ih hm.merase).2, find_merase hm]
    by_cases e : k = x
    · simp [e]
    · simp [e]

theorem hasKey_iff {k : κ} {m : List (κ × ν)} (h : SortedKeys m) : hasKey k m = true ↔ ∃ v, (k, v) ∈ m := by
  rw [hasKey, Option.isSome_iff_exists]
  exact exists_congr fun v => find_iff h

theorem keys_spec (m : List (κ × ν)) : Sorted (keys m) ∧ ∀ k, k ∈ keys m ↔ ∃ v, (k, v) ∈ m := by
  have key : ∀ (m : List (κ × ν)) (r : List κ), Sorted r →
      Sorted (m.foldl (fun r p => insert p.1 r) r) ∧
      ∀ k, k ∈ m.foldl (fun r p => insert p.1 r) r ↔ k ∈ r ∨ ∃ v, (k, v) ∈ m := by
    intro m
    induction m with
    | nil => intro r hr; exact ⟨hr, by simp⟩
    | cons p m ih =>
      intro r hr
      obtain ⟨k', v'⟩ := p
      simp only [List.foldl_cons]
      refine ⟨(ih _ hr.insert).1, fun k => ?_⟩
      rw [(ih _ hr.insert).2, mem_insert]
      simp only [List.mem_cons, Prod.mk.injEq]
      constructor
      · rintro ((e | e) | ⟨v, e⟩)
        · exact Or.inr ⟨v', Or.inl ⟨e, rfl⟩⟩
        · exact Or.inl e
        · exact Or.inr ⟨v, Or.inr e⟩
      · rintro (e | ⟨v, ⟨e, _⟩ | e⟩)
        · exact Or.inl (Or.inr e)
        · exact Or.inl (Or.inl e)
        · exact Or.inr ⟨v, e⟩
  have := key m [] Sorted.nil
  exact ⟨this.1, fun k => (this.2 k).trans (by simp)⟩

theorem mem_keys_iff {k : κ} {m : List (κ × ν)} (h : SortedKeys m) : k ∈ keys m ↔ hasKey k m = true := by
  rw [(keys_spec m).2, hasKey_iff h]

theorem values_eq (m : List (κ × ν)) : values m = m.map Prod.snd := by
  have key : ∀ (m : List (κ × ν)) (r : List ν), m.foldl (fun r p => r ++ [p.2]) r = r ++ m.map Prod.snd := by
    intro m
    induction m with
    | nil => simp
    | cons p m ih => intro r; simp [ih]
  exact (key m []).trans (by simp)

theorem restrictKeys_spec {m : List (κ × ν)} (hm : SortedKeys m) {s : List κ} (hs : Sorted s) :
    SortedKeys (restrictKeys m s) ∧ ∀ k, find k (restrictKeys m s) = if k ∈ s then find k m else none := by
  have key : ∀ (m r : List (κ × ν)), SortedKeys m → SortedKeys r →
      SortedKeys (m.foldl (fun r p => if contains p.1 s then Container.minsert p.1 p.2 r else r) r) ∧
      ∀ k, find k (m.foldl (fun r p => if contains p.1 s then Container.minsert p.1 p.2 r else r) r) =
        (find k r).or (if k ∈ s then find k m else none) := by
    intro m
    induction m with
    | nil => intro r _ hr; exact ⟨hr, fun k => by simp [find]⟩
    | cons p m ih =>
      intro r hm hr
      obtain ⟨k', v'⟩ := p
      simp only [List.foldl_cons]
      cases e : contains k' s with
      | false =>
        have hk := (contains_false hs).1 e
        simp only [Bool.false_eq_true, if_false]
        refine ⟨(ih r hm.tail hr).1, fun k => ?_⟩
        rw [(ih r hm.tail hr).2]
        by_cases e' : k = k'
        · subst e'; simp [hk]
        · rw [find_cons_ne hm e']
      | true =>
        have hk := (contains_iff hs).1 e
        simp only [if_true]
        refine ⟨(ih _ hm.tail hr.minsert).1, fun k => ?_⟩
        rw [(ih _ hm.tail hr.minsert).2, find_minsert hr]
        by_cases e' : k = k'
        · subst e'
          rw [if_pos rfl, if_pos hk, if_pos hk, find_cons_self]
          cases find k r <;> rfl
        · rw [if_neg e', find_cons_ne hm e']
  have := key m [] hm SortedKeys.nil
  refine ⟨this.1, fun k => (this.2 k).trans ?_⟩
  simp [find]

/-- C61: inserting into a map keeps an entry already present, while assigning through `operator[]` replaces it; no
other entry changes. -/
theorem C61_map_insert {m : List (κ × ν)} (h : SortedKeys m) (k j : κ) (v : ν) :
    SortedKeys (minsert k v m) ∧ SortedKeys (mset k v m) ∧
    find j (minsert k v m) = (if j = k then some ((find k m).getD v) else find j m) ∧
    find j (mset k v m) = (if j = k then some v else find j m) :=
  ⟨h.minsert, h.mset, find_minsert h, find_mset h⟩

/-- C61: `adjoin` and `join` of maps have an entry for the keys of both, and for common keys the value of the first;
`remove_keys` and `restrict_keys` keep exactly the entries whose keys are not, respectively are, in the set. -/
theorem C61_map_algebra {m n : List (κ × ν)} (hm : SortedKeys m) (hn : SortedKeys n) {s : List κ} (hs : Sorted s) :
    (SortedKeys (madjoin m n) ∧ ∀ k, find k (madjoin m n) = (find k m).or (find k n)) ∧
    (SortedKeys (removeKeys m s) ∧ ∀ k, find k (removeKeys m s) = if k ∈ s then none else find k m) ∧
    (SortedKeys (restrictKeys m s) ∧ ∀ k, find k (restrictKeys m s) = if k ∈ s then find k m else none) :=
  ⟨madjoin_spec hm hn, removeKeys_spec hm s, restrictKeys_spec hm hs⟩

/-- C61: `keys` is the set of keys and `values` the list of values, in the order of the keys. -/
theorem C61_map_keys {m : List (κ × ν)} (h : SortedKeys m) :
    Sorted (keys m) ∧ (∀ k, k ∈ keys m ↔ hasKey k m = true) ∧
    (∀ k v, find k m = some v ↔ (k, v) ∈ m) ∧ keys m = m.map Prod.fst ∧ values m = m.map Prod.snd := by
  refine ⟨(keys_spec m).1, fun k => mem_keys_iff h, fun k v => find_iff h, ?_, values_eq m⟩
  refine (keys_spec m).1.ext ?_ fun k => ?_
  · exact List.pairwise_map.2 h
  · rw [(keys_spec m).2, List.mem_map]
    constructor
    · rintro ⟨v, h⟩; exact ⟨(k, v), h, rfl⟩
    · rintro ⟨⟨k', v⟩, h, rfl⟩; exact ⟨v, h⟩

/-- C61: maps are given by their lookups. -/
theorem C61_map_ext {m n : List (κ × ν)} (hm : SortedKeys m) (hn : SortedKeys n) :
    m = n ↔ ∀ k, find k m = find k n := ⟨fun e k => by rw [e], hm.ext hn⟩

example : madjoin [(1, "a"), (3, "b")] [(2, "c"), (3, "d")] = [(1, "a"), (2, "c"), (3, "b")] := by decide

end Maps

/-! ### Complements of index lists -/

/-- The indices from `j` on which the loop writes. -/
def skipped (vars : List ℕ) (j todo : ℕ) : List ℕ := (List.range' j todo).filter fun i => i ∉ vars

theorem complementLoop_spec : ∀ (todo j room : ℕ) (vars acc : List ℕ),
    vars.Pairwise (· < ·) → (∀ v ∈ vars, j ≤ v ∧ v < j + todo) → room + vars.length = todo →
    complementLoop todo j room vars acc = .ok (acc ++ skipped vars j todo) := by
  intro todo
  induction todo with
  | zero =>
    intro j room vars acc hs hb hr
    have hr0 : room = 0 := by omega
    subst hr0
    simp [complementLoop, skipped]
  | succ todo ih =>
    intro j room vars acc hs hb hr
    rw [complementLoop.eq_def]
    simp only
    cases vars with
    | nil =>
      cases room with
      | zero => simp at hr
      | succ room =>
        simp only
        rw [ih _ _ _ _ hs (by simp) (by simpa using hr)]
        simp [skipped, List.range'_succ]
    | cons v vs =>
      simp only [ne_eq, ite_not]
      have hv := List.pairwise_cons.1 hs
      by_cases e : j = v
      · subst e
        rw [if_pos rfl]
        rw [ih _ _ _ _ hv.2 ?_ (by simp only [List.length_cons] at hr; omega)]
        · congr 2
          simp only [skipped, List.range'_succ, List.filter_cons, List.mem_cons, true_or, not_true_eq_false,
            decide_false, Bool.false_eq_true, if_false]
          apply List.filter_congr
          intro i hi
          have : i ≠ j := by have := (List.mem_range'_1.1 hi).1; omega
          simp [this]
        · intro w hw
          have := hv.1 w hw
          have := (hb w (List.mem_cons_of_mem _ hw)).2
          omega
      · rw [if_neg e]
        have hjv : j < v := by have := (hb v (by simp)).1; omega
        cases room with
        | zero =>
          exfalso
          -- the variables are `todo+1` distinct numbers in an interval of `todo` numbers
          have hnd : (v :: vs).Nodup := hs.imp fun h => ne_of_lt h
          have hsub : (v :: vs) ⊆ List.range' (j + 1) todo := by
            intro w hw
            rw [List.mem_range'_1]
            refine ⟨?_, by have := (hb w hw).2; omega⟩
            rcases List.mem_cons.1 hw with rfl | h
            · omega
            · have := hv.1 w h; omega
          have := (List.subperm_of_subset hnd hsub).length_le
          simp at this hr
          omega
        | succ room =>
          simp only
          rw [ih _ _ _ _ hs ?_ (by simp only [List.length_cons] at hr ⊢; omega)]
          · have hj : j ∉ v :: vs := by
              intro hm
              rcases List.mem_cons.1 hm with h | h
              · exact e h
              · have := hv.1 j h; omega
            simp only [skipped, List.range'_succ, List.filter_cons, hj, not_false_eq_true, decide_true, if_true,
              List.append_assoc, List.singleton_append]
          · intro w hw
            have := hb w hw
            rcases List.mem_cons.1 hw with rfl | h
            · omega
            · have := hv.1 w h; omega

/-- If the loop writes only inside the result, the variables are strictly increasing and in range. -/
theorem complementLoop_ok : ∀ (todo j room : ℕ) (vars acc c : List ℕ), room + vars.length = todo →
    complementLoop todo j room vars acc = .ok c → vars.Pairwise (· < ·) ∧ ∀ v ∈ vars, j ≤ v ∧ v < j + todo := by
  intro todo
  induction todo with
  | zero =>
    intro j room vars acc c hr _
    have : vars = [] := List.length_eq_zero_iff.1 (by omega)
    subst this
    simp
  | succ todo ih =>
    intro j room vars acc c hr h
    rw [complementLoop.eq_def] at h
    simp only at h
    cases vars with
    | nil => simp
    | cons v vs =>
      simp only [ne_eq, ite_not] at h
      by_cases e : j = v
      · subst e
        rw [if_pos rfl] at h
        obtain ⟨h1, h2⟩ := ih _ _ _ _ _ (by simp only [List.length_cons] at hr; omega) h
        refine ⟨List.pairwise_cons.2 ⟨fun w hw => ?_, h1⟩, fun w hw => ?_⟩
        · have := (h2 w hw).1; omega
        · rcases List.mem_cons.1 hw with rfl | hw
          · omega
          · have := h2 w hw; omega
      · rw [if_neg e] at h
        cases room with
        | zero => exact absurd h (by simp)
        | succ room =>
          simp only at h
          obtain ⟨h1, h2⟩ := ih _ _ _ _ _ (by simp only [List.length_cons] at hr ⊢; omega) h
          exact ⟨h1, fun w hw => by have := h2 w hw; omega⟩

/-- C61: `complement(n,vars)` for increasing indices below `n` is the increasing list of the other indices below `n`. -/
theorem C61_complement {n : ℕ} {vars : List ℕ} (h : vars.Pairwise (· < ·)) (hb : ∀ v ∈ vars, v < n) :
    complement n vars = .ok ((List.range n).filter fun i => i ∉ vars) := by
  have hlen : vars.length ≤ n := by
    have hnd : vars.Nodup := h.imp fun h => ne_of_lt h
    have := (List.subperm_of_subset hnd (fun v hv => List.mem_range.2 (hb v hv))).length_le
    simpa using this
  rw [complement, if_pos hlen, complementLoop_spec n 0 _ vars [] h (fun v hv => ⟨Nat.zero_le _, by simpa using hb v hv⟩)
    (by omega)]
  simp [skipped, List.range_eq_range']

/-- C61: for any other list of indices (unsorted, repeated or out of range) `complement` writes outside its result. -/
theorem C61_complement_undefined {n : ℕ} {vars : List ℕ} (h : ¬ (vars.Pairwise (· < ·) ∧ ∀ v ∈ vars, v < n)) :
    complement n vars = .undefined := by
  rw [complement]
  split_ifs with hl
  · cases e : complementLoop n 0 (n - vars.length) vars [] with
    | undefined => rfl
    | ok c =>
      obtain ⟨h1, h2⟩ := complementLoop_ok _ _ _ _ _ _ (by omega) e
      exact absurd ⟨h1, fun v hv => by have := (h2 v hv).2; omega⟩ h
  · rfl

example : complement 5 [1, 3] = .ok [0, 2, 4] ∧ complement 3 [2, 0] = .undefined ∧ complement 2 [0, 0] = .undefined :=
  by decide

end Verif.Container
