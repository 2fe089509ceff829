import Verif.LRUCache.Lemmas
/-!
# Property C13: the LRU cache
-/
namespace Ariadne.LRU
variable {L V : Type} [DecidableEq L]

/-- C13: no history of calls leads to undefined behaviour. -/
theorem C13_no_undefined (m : Nat) (ops : List (Op L V)) : run m ops ≠ .undefined :=
  (run_rel ops).1

/-- C13: the number of entries never exceeds the capacity. -/
theorem C13_capacity (m : Nat) (ops : List (Op L V)) (c : Cache L V) (h : run m ops = .ok c) :
    c.currentSize ≤ m ∧ c.maxSize = m := by
  obtain ⟨_, hmax, r, hp, hlab, _⟩ := (run_rel ops).2 c h
  refine ⟨?_, hmax⟩
  have := congrArg List.length hlab
  simp only [Cache.currentSize, hp.length_eq, tag_length]
  simp at this; omega

/-- C13: the cache holds exactly the `m` most recently used labels of the history. -/
theorem C13_contents (m : Nat) (ops : List (Op L V)) (c : Cache L V) (h : run m ops = .ok c) (l : L) :
    c.hasLabel l = true ↔ l ∈ (recency ops).take m := by
  obtain ⟨_, hmax, r, hp, hlab, _⟩ := (run_rel ops).2 c h
  rw [hasLabel_iff hp, hlab]

/-- C13: `recency` used above does list the used labels, without repetition, in order of last use. -/
theorem C13_recency_spec (ops : List (Op L V)) :
    (∀ l, l ∈ recency ops ↔ ∃ i, IsLastUse ops l i) ∧ (recency ops).Nodup ∧
    (recency ops).Pairwise (fun l l' => ∀ i j, IsLastUse ops l i → IsLastUse ops l' j → j < i) :=
  ⟨mem_recency ops, recency_nodup ops, recency_sorted ops⟩

/-- C13: `get` succeeds exactly on labels reported by `has_label`, and then returns the value most
recently put for that label. -/
theorem C13_get (m : Nat) (ops : List (Op L V)) (c : Cache L V) (h : run m ops = .ok c) (l : L) :
    (c.hasLabel l = true → ∃ c' v, c.get l = .ok (c', v) ∧ IsLastPut ops l v) ∧
    (c.hasLabel l = false → c.get l = .failed) := by
  obtain ⟨hm, hr⟩ := (run_rel ops).2 c h
  constructor
  · intro hl
    simp only [Cache.hasLabel, Option.isSome_iff_exists] at hl
    obtain ⟨e, he⟩ := hl
    have hget : ∃ c' v, c.get l = .ok (c', v) := by simp [Cache.get, he]
    obtain ⟨c', v, hget⟩ := hget
    exact ⟨c', v, hget, (rel_get hm hr hget).2.1⟩
  · intro hl
    simp only [Cache.hasLabel, Option.isSome_eq_false_iff, Option.isNone_iff_eq_none] at hl
    simp [Cache.get, hl]

/-- C13: `put` is accepted exactly for absent labels. -/
theorem C13_put_accepts (m : Nat) (ops : List (Op L V)) (c : Cache L V) (h : run m ops = .ok c)
    (l : L) (v : V) : (∃ c', c.put l v = .ok c') ↔ c.hasLabel l = false := by
  obtain ⟨hm, hr⟩ := (run_rel ops).2 c h
  constructor
  · rintro ⟨c', hc'⟩
    cases hl : c.hasLabel l with
    | false => rfl
    | true => simp [Cache.put, hl] at hc'
  · intro hl
    obtain ⟨c', hc', _⟩ := put_spec (v := v) hm hr hl
    exact ⟨c', hc'⟩

/-- C13: while there is room `put` removes nothing. -/
theorem C13_put_room (m : Nat) (ops : List (Op L V)) (c c' : Cache L V) (h : run m ops = .ok c)
    (l : L) (v : V) (hroom : c.currentSize < m) (hput : c.put l v = .ok c') (l' : L) :
    c'.hasLabel l' = true ↔ l' = l ∨ c.hasLabel l' = true := by
  obtain ⟨hm, hr⟩ := (run_rel ops).2 c h
  have hl := (C13_put_accepts m ops c h l v).1 ⟨c', hput⟩
  obtain ⟨hmax, _⟩ := hr
  simp only [Cache.put, hl, hmax, Cache.currentSize] at hput hroom
  simp only [hroom, if_true, Bool.false_eq_true, if_false] at hput
  cases hput
  simp only [Cache.hasLabel, List.find?_isSome, List.mem_cons, List.mem_map]
  constructor
  · rintro ⟨x, hx | ⟨e, he, hx⟩, h2⟩
    · left; subst hx; exact (of_decide_eq_true h2).symm
    · right; subst hx; exact ⟨e, he, by simpa using h2⟩
  · rintro (rfl | ⟨e, he, h2⟩)
    · exact ⟨_, Or.inl rfl, by simp⟩
    · exact ⟨_, Or.inr ⟨e, he, rfl⟩, by simpa using h2⟩

/-- C13: a `put` into a full cache removes exactly one entry, the one whose last use is strictly
older than that of every other entry; the new label is present. -/
theorem C13_evicts_lru (m : Nat) (ops : List (Op L V)) (c c' : Cache L V) (h : run m ops = .ok c)
    (l : L) (v : V) (hfull : c.currentSize = m) (hput : c.put l v = .ok c') :
    ∃ old, c.hasLabel old = true ∧
      (∀ l', c'.hasLabel l' = true ↔ l' = l ∨ (l' ≠ old ∧ c.hasLabel l' = true)) ∧
      ∀ l', c.hasLabel l' = true → l' ≠ old →
        ∃ i j, IsLastUse ops old i ∧ IsLastUse ops l' j ∧ i < j := by
  obtain ⟨hm, hr⟩ := (run_rel ops).2 c h
  have hl := (C13_put_accepts m ops c h l v).1 ⟨c', hput⟩
  obtain ⟨c'', hc'', hr'⟩ := put_spec (v := v) hm hr hl
  rw [hput] at hc''
  cases hc''
  obtain ⟨hmax, r, hp, hlab, _⟩ := hr
  obtain ⟨_, r', hp', hlab', _⟩ := hr'
  have hlen : ((recency ops).take m).length = m := by
    rw [← hlab, List.length_map]
    rw [← hfull, Cache.currentSize, hp.length_eq, tag_length]
  obtain ⟨k, rfl⟩ : ∃ k, m = k + 1 := ⟨m - 1, by omega⟩
  have hklt : k < (recency ops).length := by simp at hlen; omega
  have hnl : l ∉ (recency ops).take (k+1) := by
    rw [← hlab, ← hasLabel_iff hp, hl]; simp
  have htake : (recency ops).take (k+1) = (recency ops).take k ++ [(recency ops)[k]] :=
    List.take_succ_eq_append_getElem hklt
  have hnl' : l ∉ (recency ops).take k := by
    intro hc; apply hnl; rw [htake]; exact List.mem_append_left _ hc
  have hnod : ((recency ops).take (k+1)).Nodup :=
    (recency_nodup ops).sublist (List.take_sublist _ _)
  rw [htake, List.nodup_append] at hnod
  have hold : (recency ops)[k] ∉ (recency ops).take k :=
    fun hc => hnod.2.2 _ hc _ (by simp) rfl
  refine ⟨(recency ops)[k], ?_, ?_, ?_⟩
  · rw [hasLabel_iff hp, hlab, htake]; exact List.mem_append_right _ (List.mem_singleton.2 rfl)
  · intro l'
    rw [hasLabel_iff hp', hasLabel_iff hp, hlab', hlab, recency_snoc, List.take_succ_cons,
      show (Op.put l v : Op L V).label = l from rfl, take_filter_of_not_mem hnl', htake]
    simp only [List.mem_cons, List.mem_append, List.not_mem_nil, or_false]
    constructor
    · rintro (rfl | h1)
      · exact Or.inl rfl
      · exact Or.inr ⟨fun he => hold (he ▸ h1), Or.inl h1⟩
    · rintro (rfl | ⟨h1, h2 | h2⟩)
      · exact Or.inl rfl
      · exact Or.inr h2
      · exact absurd h2 h1
  · intro l' hl' hne
    rw [hasLabel_iff hp, hlab, htake] at hl'
    have hl'' : l' ∈ (recency ops).take k := by
      rcases List.mem_append.1 hl' with h | h
      · exact h
      · exact absurd (by simpa using h) hne
    have hs := (recency_sorted ops).sublist (List.take_sublist (k+1) _)
    rw [htake, List.pairwise_append] at hs
    obtain ⟨i, hi⟩ := (mem_recency ops _).1 (List.getElem_mem hklt)
    obtain ⟨j, hj⟩ := (mem_recency ops _).1 (List.mem_of_mem_take hl'')
    exact ⟨i, j, hi, hj, hs.2.2 l' hl'' _ (by simp) j i hj hi⟩

/-- Non-vacuity: capacity 2, put a, put b, get a, put c evicts b; the value of a is still there. -/
example : ∃ c, run 2 [Op.put 1 10, .put 2 20, .get 1, .put 3 30] = .ok c ∧
    c.hasLabel 1 = true ∧ c.hasLabel 2 = false ∧ c.hasLabel 3 = true ∧ c.currentSize = 2 ∧
    ((match c.get 1 with | .ok (_, v) => v | _ => 0) = 10) :=
  ⟨⟨2, [(3, 0, 30), (1, 1, 10)]⟩, by decide⟩

end Ariadne.LRU
