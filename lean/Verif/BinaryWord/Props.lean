import Verif.BinaryWord.Model
import Mathlib.Data.List.Basic
import Mathlib.Data.List.Infix
/-!
# Property C14: binary words
-/
namespace Ariadne.BinaryWord

/-- C14: `<` is irreflexive. -/
theorem C14_lt_irrefl (a : Word) : lt a a = false := by
  induction a with
  | nil => rfl
  | cons x a ih => simp [lt, ih]

/-- C14: `<` is transitive. -/
theorem C14_lt_trans (a b c : Word) (h₁ : lt a b = true) (h₂ : lt b c = true) : lt a c = true := by
  induction a generalizing b c with
  | nil => cases b <;> cases c <;> simp_all [lt]
  | cons x a ih =>
    cases b with
    | nil => simp [lt] at h₁
    | cons y b =>
      cases c with
      | nil => simp [lt] at h₂
      | cons z c =>
        have := ih b c
        cases x <;> cases y <;> cases z <;> simp_all [lt]

/-- C14: `<` is total: exactly one of `a<b`, `a=b`, `b<a` holds. -/
theorem C14_lt_trichotomy (a b : Word) :
    (lt a b = true ∧ a ≠ b ∧ lt b a = false) ∨ (lt a b = false ∧ a = b ∧ lt b a = false) ∨
    (lt a b = false ∧ a ≠ b ∧ lt b a = true) := by
  induction a generalizing b with
  | nil => cases b <;> simp [lt]
  | cons x a ih =>
    cases b with
    | nil => simp [lt]
    | cons y b =>
      have := ih b
      cases x <;> cases y <;> simp_all [lt]

/-- C14: `a < b` iff `a` is a proper prefix of `b`, or they first differ at a bit where `a` has 0
and `b` has 1. -/
theorem C14_lt_spec (a b : Word) : lt a b = true ↔
    (∃ x t, b = a ++ x :: t) ∨ (∃ p s t, a = p ++ false :: s ∧ b = p ++ true :: t) := by
  induction a generalizing b with
  | nil => cases b <;> simp [lt]
  | cons x a ih =>
    cases b with
    | nil => simp [lt]
    | cons y b =>
      simp only [lt]
      by_cases hxy : x = y
      · subst hxy
        simp only [bne_self_eq_false, Bool.false_eq_true, if_false, ih]
        constructor
        · rintro (⟨z, t, h⟩ | ⟨p, s, t, h1, h2⟩)
          · exact Or.inl ⟨z, t, by simp [h]⟩
          · exact Or.inr ⟨x :: p, s, t, by simp [h1], by simp [h2]⟩
        · rintro (⟨z, t, h⟩ | ⟨p, s, t, h1, h2⟩)
          · exact Or.inl ⟨z, t, by simpa using h⟩
          · cases p with
            | nil => simp at h1 h2; rw [h1.1] at h2; simp at h2
            | cons q p => exact Or.inr ⟨p, s, t, by simp at h1; exact h1.2, by simp at h2; exact h2.2⟩
      · have : (x != y) = true := by simpa using hxy
        simp only [this, if_true]
        constructor
        · intro h
          refine Or.inr ⟨[], a, b, ?_⟩
          cases x <;> cases y <;> simp_all
        · rintro (⟨z, t, h⟩ | ⟨p, s, t, h1, h2⟩)
          · simp at h; exact absurd h.1.symm hxy
          · cases p with
            | nil => simp at h1 h2; simp [h1.1, h2.1]
            | cons q p => simp at h1 h2; exact absurd (h1.1.trans h2.1.symm) hxy

theorem getD_eq (a : Word) (i : Nat) (h : i < a.length) : a.getD i false = a[i] := by
  simp [List.getD, h]

theorem range_all_getD (a b : Word) (i : Nat) :
    (List.range a.length).all (fun j => a.getD j false == b.getD (i + j) false) = true ∧
      i + a.length ≤ b.length ↔ ∃ u v, b = u ++ a ++ v ∧ u.length = i := by
  constructor
  · rintro ⟨h, hlen⟩
    refine ⟨b.take i, b.drop (i + a.length), ?_, by simp; omega⟩
    apply List.ext_getElem
    · simp; omega
    · intro k h1 h2
      simp only [List.getElem_append, List.length_append, List.length_take]
      split
      · split
        · simp
        · rename_i hk1 hk2
          have hk : k - min i b.length < a.length := by omega
          have hk3 : i ≤ k := by omega
          have := List.all_eq_true.1 h (k - min i b.length) (by simpa using hk)
          simp only [beq_iff_eq] at this
          have e : min i b.length = i := by omega
          rw [e] at this hk
          simp only [e]
          rw [show i + (k - i) = k by omega] at this
          rw [getD_eq _ _ hk, getD_eq _ _ h1] at this
          exact this.symm
      · rename_i hk
        rw [List.getElem_drop]
        congr 1; omega
  · rintro ⟨u, v, rfl, rfl⟩
    refine ⟨?_, by simp⟩
    rw [List.all_eq_true]
    intro j hj
    simp only [List.mem_range] at hj
    have h2 : u.length + j < (u ++ a ++ v).length := by simp; omega
    rw [getD_eq _ _ hj, getD_eq _ _ h2]
    simp [List.getElem_append, hj]

/-- C14: `is_prefix` decides the prefix relation. -/
theorem C14_isPrefix (a b : Word) : isPrefix a b = true ↔ ∃ v, b = a ++ v := by
  have h := range_all_getD a b 0
  simp only [Nat.zero_add] at h
  simp only [isPrefix]
  split
  next hlen =>
    constructor
    · simp
    · rintro ⟨v, rfl⟩; simp at hlen; omega
  next hlen =>
    constructor
    · intro h1
      obtain ⟨u, v, h2, h3⟩ := h.1 ⟨h1, by omega⟩
      rw [List.length_eq_zero_iff] at h3
      subst h3; exact ⟨v, by simpa using h2⟩
    · rintro ⟨v, rfl⟩
      exact (h.2 ⟨[], v, by simp, rfl⟩).1

/-- C14: `is_subword` decides the factor relation. -/
theorem C14_isSubword (a b : Word) : isSubword a b = true ↔ ∃ u v, b = u ++ a ++ v := by
  simp only [isSubword]
  split
  next hlen =>
    constructor
    · simp
    · rintro ⟨u, v, rfl⟩; simp at hlen; omega
  next hlen =>
    rw [List.any_eq_true]
    constructor
    · rintro ⟨i, hi, h⟩
      simp only [List.mem_range] at hi
      obtain ⟨u, v, h, _⟩ := (range_all_getD a b i).1 ⟨h, by omega⟩
      exact ⟨u, v, h⟩
    · rintro ⟨u, v, h⟩
      refine ⟨u.length, ?_, ((range_all_getD a b u.length).2 ⟨u, v, h, rfl⟩).1⟩
      subst h; simp; omega

/-- C14: a prefix never comes after its extensions, and a proper prefix strictly precedes them. -/
theorem C14_prefix_precedes (a b : Word) (h : isPrefix a b = true) :
    lt b a = false ∧ (a ≠ b → lt a b = true) := by
  obtain ⟨v, rfl⟩ := (C14_isPrefix a b).1 h
  rcases C14_lt_trichotomy a (a ++ v) with h | h | h
  · exact ⟨h.2.2, fun _ => h.1⟩
  · exact ⟨h.2.2, fun hn => absurd h.2.1 hn⟩
  · cases v with
    | nil => simp at h
    | cons x v => rw [(C14_lt_spec a (a ++ x :: v)).2 (Or.inl ⟨x, v, rfl⟩)] at h; simp at h

/-- C14: `append` concatenates, and erasing the length of a prefix undoes prepending it. -/
theorem C14_append_erase (a b : Word) :
    append a b = a ++ b ∧ erasePrefix (append a b) a.length = b ∧ isPrefix a (append a b) = true := by
  have h1 : append a b = a ++ b := by
    simp only [append]
    induction b generalizing a with
    | nil => simp
    | cons x b ih => simp [ih]
  refine ⟨h1, ?_, (C14_isPrefix _ _).2 ⟨b, h1⟩⟩
  rw [h1]
  induction a with
  | nil => simp [erasePrefix]
  | cons x a ih =>
    simp only [List.length_cons, List.cons_append, erasePrefix]
    apply ih
    simp only [append]
    clear ih h1
    induction b generalizing a with
    | nil => simp
    | cons x b ih => simp [ih]

/-- C14: erasing `n` bits leaves the word without its first `n` bits. -/
theorem C14_erasePrefix (w : Word) (n : Nat) : erasePrefix w n = w.drop n := by
  induction n generalizing w with
  | zero => simp [erasePrefix]
  | succ n ih => cases w <;> simp [erasePrefix, ih]

theorem readBits_print (w : Word) (rest : List Char)
    (hrest : ∀ c ∈ rest.head?, c ≠ '0' ∧ c ≠ '1') :
    readBits (w.map (fun b => if b then '1' else '0') ++ rest) = (w, rest) := by
  induction w with
  | nil =>
    cases rest with
    | nil => rfl
    | cons c cs =>
      have := hrest c (by simp)
      simp [readBits, this.1, this.2]
  | cons b w ih =>
    cases b <;> simp_all [readBits]

/-- C14: text written for a word, followed by anything not starting with a binary digit, reads back
as the word; for a non-empty word exactly the written text is consumed. -/
theorem C14_print_read (w : Word) (rest : List Char) (hrest : ∀ c ∈ rest.head?, c ≠ '0' ∧ c ≠ '1') :
    ∃ rest', read (print w ++ rest) = .ok w rest' ∧ (w ≠ [] → rest' = rest) := by
  cases w with
  | nil => exact ⟨'e' :: rest, by simp [print, read, skipWs, readBits], by simp⟩
  | cons b w =>
    have h := readBits_print (b :: w) rest hrest
    refine ⟨rest, ?_, fun _ => rfl⟩
    simp only [print, List.isEmpty_cons, Bool.false_eq_true, if_false]
    simp only [List.map_cons, List.cons_append] at h ⊢
    have hs : skipWs ((if b = true then '1' else '0') :: (w.map (fun b => if b then '1' else '0') ++ rest))
        = (if b = true then '1' else '0') :: (w.map (fun b => if b then '1' else '0') ++ rest) := by
      cases b <;> simp [skipWs]
    have hb : (if b = true then '1' else '0') ≠ '[' := by cases b <;> decide
    simp only [read, hs, hb, if_false, h]

/-- C14: reading an empty word written as `e` leaves the `e` in the stream, so consecutive words
cannot be read back when one is empty: the second word of `e01` cannot be reached. -/
theorem C14_empty_not_consumed : ∃ rest, read (print [] ++ print [false, true]) = .ok [] rest ∧
    read rest = .ok [] rest := ⟨['e', '0', '1'], by decide, by decide⟩

/-- C14: distinct words have distinct texts. -/
theorem C14_print_injective (v w : Word) (h : print v = print w) : v = w := by
  obtain ⟨r1, h1, _⟩ := C14_print_read v [] (by simp)
  obtain ⟨r2, h2, _⟩ := C14_print_read w [] (by simp)
  rw [h, h2] at h1
  cases h1; rfl

/-- Non-vacuity: concrete words. -/
example : lt [false, true] [false, true, false] = true ∧ lt [true] [false, true] = false ∧
    isPrefix [true, false] [true, false, true] = true ∧ isPrefix [true, true] [true, false] = false ∧
    isSubword [false, true] [true, false, true] = true ∧
    read "  011 x".toList = .ok [false, true, true] " x".toList := by decide

end Ariadne.BinaryWord
