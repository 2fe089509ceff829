import Verif.Expansion.MultiIndex
import Mathlib.Data.Set.Finite.List
import Mathlib.Data.Set.Finite.Basic
import Mathlib.Data.Fintype.EquivFin

/-!
# Properties C22 and C52: monomial orders and the enumeration of monomials
-/

namespace Verif.Expansion

/-- Independent specification: `lt` is a strict total order on the indices in `n` variables. -/
structure StrictTotal (n : Nat) (lt : List Nat → List Nat → Bool) : Prop where
  irrefl : ∀ a, a.length = n → lt a a = false
  trans : ∀ a b c, a.length = n → b.length = n → c.length = n →
    lt a b = true → lt b c = true → lt a c = true
  total : ∀ a b, a.length = n → b.length = n → lt a b = true ∨ a = b ∨ lt b a = true

/-- The exponents add up to a number that fits in a `DegreeType`. -/
def Fits (a : List Nat) : Prop := a.sum < 65536

theorem degree_of_fits {a : List Nat} (h : Fits a) : degree a = a.sum := by
  rw [degree_eq, wrap, Nat.mod_eq_of_lt h]

theorem mem_le_sum {a : List Nat} {x : Nat} (h : x ∈ a) : x ≤ a.sum := by
  induction a with
  | nil => simp at h
  | cons y ys ih =>
    rw [List.sum_cons]
    rcases List.mem_cons.1 h with rfl | h
    · omega
    · have := ih h; omega

theorem sum_replicate_zero (n : Nat) : (List.replicate n 0).sum = 0 := by
  induction n with
  | zero => rfl
  | succ n ih => simpa [List.replicate_succ] using ih

/-- **C22** (orders): each comparison is a strict total order on the indices in `n` variables; this
holds even for indices whose degree overflows a `DegreeType`. -/
theorem C22_strict_total (n : Nat) :
    StrictTotal n gradedLess ∧ StrictTotal n lexLess ∧ StrictTotal n revLexLess := by
  refine ⟨⟨?_, ?_, ?_⟩, ⟨?_, ?_, ?_⟩, ⟨?_, ?_, ?_⟩⟩
  · intro a _; simp [gradedLess, firstGreater_irrefl]
  · intro a b c _ _ _ hab hbc
    simp only [gradedLess] at *
    by_cases h1 : degree a = degree b
    · by_cases h2 : degree b = degree c
      · simp only [h1, h2, ne_eq, not_true_eq_false, if_false] at *
        exact firstGreater_trans hab hbc
      · simp only [h1, ne_eq, h2, not_false_eq_true, if_true] at *
        exact hbc
    · by_cases h2 : degree b = degree c
      · simp only [← h2, ne_eq, h1, not_false_eq_true, if_true] at *
        exact hab
      · simp only [ne_eq, h1, h2, not_false_eq_true, if_true, decide_eq_true_eq] at hab hbc
        have h3 : degree a ≠ degree c := by omega
        simp only [ne_eq, h3, not_false_eq_true, if_true, decide_eq_true_eq]
        omega
  · intro a b ha hb
    simp only [gradedLess]
    by_cases h1 : degree a = degree b
    · simpa [h1] using firstGreater_total (ha.trans hb.symm)
    · have h2 : degree b ≠ degree a := fun e => h1 e.symm
      simp only [ne_eq, h1, h2, not_false_eq_true, if_true, decide_eq_true_eq]
      omega
  · intro a _; rw [lexLess_eq, firstGreater_irrefl]
  · intro a b c _ _ _ hab hbc
    rw [lexLess_eq] at *
    exact firstGreater_trans hbc hab
  · intro a b ha hb
    rw [lexLess_eq, lexLess_eq]
    rcases firstGreater_total (ha.trans hb.symm) with h | h | h
    · exact .inr (.inr h)
    · exact .inr (.inl h)
    · exact .inl h
  · intro a _; simp [revLexLess, firstGreater_irrefl]
  · intro a b c _ _ _ hab hbc; exact firstGreater_trans hab hbc
  · intro a b ha hb
    have := firstGreater_total (a := a.reverse) (b := b.reverse) (by simp [ha, hb])
    simpa [revLexLess] using this

example : gradedLess [2, 1] [0, 4] = true ∧ gradedLess [2, 1] [1, 2] = true ∧
    lexLess [1, 2] [2, 1] = true ∧ revLexLess [1, 2] [2, 1] = true := by decide

/-- **C22** (compatibility): adding an exponent to both sides preserves each comparison, provided
the degrees of the sums fit in a `DegreeType`. -/
theorem C22_add_partial (a b c : List Nat) (hab : a.length = b.length) (hac : a.length = c.length)
    (ha : a.sum + c.sum < 65536) (hb : b.sum + c.sum < 65536) :
    gradedLess (addIndex a c) (addIndex b c) = gradedLess a b ∧
      lexLess (addIndex a c) (addIndex b c) = lexLess a b ∧
      revLexLess (addIndex a c) (addIndex b c) = revLexLess a b := by
  have hbc : b.length = c.length := hab.symm.trans hac
  rw [addIndex_eq hac ha, addIndex_eq hbc hb]
  have da : degree (List.zipWith (· + ·) a c) = a.sum + c.sum := by
    rw [degree_of_fits (by unfold Fits; rw [sum_zipWith hac]; exact ha), sum_zipWith hac]
  have db : degree (List.zipWith (· + ·) b c) = b.sum + c.sum := by
    rw [degree_of_fits (by unfold Fits; rw [sum_zipWith hbc]; exact hb), sum_zipWith hbc]
  have da' : degree a = a.sum := degree_of_fits (by unfold Fits; omega)
  have db' : degree b = b.sum := degree_of_fits (by unfold Fits; omega)
  refine ⟨?_, ?_, ?_⟩
  · simp only [gradedLess, da, db, da', db', firstGreater_zipWith hab hac]
    by_cases h : a.sum = b.sum
    · simp [h]
    · have h' : a.sum + c.sum ≠ b.sum + c.sum := by omega
      simp [h]
  · rw [lexLess_eq, lexLess_eq, firstGreater_zipWith hab.symm hbc]
  · unfold revLexLess
    rw [List.reverse_zipWith hac, List.reverse_zipWith hbc]
    exact firstGreater_zipWith (by simpa using hab) (by simpa using hac)

example : gradedLess (addIndex [2, 1] [1, 1]) (addIndex [1, 2] [1, 1]) = true := by decide

/-- **C22** (what fails): without the bound on degrees, adding an exponent can reverse the graded
comparison, because degrees are computed modulo `2^16`. -/
theorem C22_add_counterexample :
    ∃ a b c : List Nat, a.length = b.length ∧ a.length = c.length ∧
      (∀ x ∈ a ++ b ++ c, x < 65536) ∧ gradedLess a b = true ∧
      gradedLess (addIndex b c) (addIndex a c) = true :=
  ⟨[1, 0], [1, 1], [65534, 0], rfl, rfl, by decide, by decide, by decide⟩

/-- **C22** (grading): an index of smaller degree comes first. -/
theorem C22_graded (a b : List Nat) (ha : Fits a) (hb : Fits b) (h : a.sum < b.sum) :
    gradedLess a b = true := by
  have : a.sum ≠ b.sum := by omega
  simp [gradedLess, degree_of_fits ha, degree_of_fits hb, this, h]

/-- **C22** (least element): the zero index comes before every other index of the same size in the
graded order. -/
theorem C22_least (b : List Nat) (hb : Fits b) (h0 : b ≠ List.replicate b.length 0) :
    gradedLess (List.replicate b.length 0) b = true := by
  apply C22_graded _ _ (by unfold Fits; rw [sum_replicate_zero]; omega) hb
  rw [sum_replicate_zero]
  by_contra h
  have hs : b.sum = 0 := by omega
  apply h0
  rw [List.eq_replicate_iff]
  refine ⟨rfl, fun x hx => ?_⟩
  have := mem_le_sum hx
  omega

/-- **C22** (subtraction): subtracting undoes adding, and subtraction fails exactly when a component
would become negative. -/
theorem C22_sub (a b : List Nat) (hab : a.length = b.length) (hs : a.sum + b.sum < 65536) :
    subIndex (addIndex a b) b = some a := by
  rw [addIndex_eq hab hs]
  clear hs
  induction a generalizing b with
  | nil => cases b <;> simp [subIndex] at hab ⊢
  | cons x xs ih =>
    cases b with
    | nil => simp at hab
    | cons y ys =>
      simp [subIndex, ih ys (by simpa using hab)]

theorem C22_sub_fails (a b : List Nat) (hab : a.length = b.length) :
    subIndex a b = none ↔ ∃ i, a.getD i 0 < b.getD i 0 := by
  induction a generalizing b with
  | nil =>
    cases b with
    | nil => simp [subIndex]
    | cons y ys => simp at hab
  | cons x xs ih =>
    cases b with
    | nil => simp at hab
    | cons y ys =>
      have e := ih ys (by simpa using hab)
      simp only [subIndex]
      by_cases h : x ≥ y
      · simp only [h, if_true, Option.map_eq_none_iff, e]
        constructor
        · rintro ⟨i, hi⟩; exact ⟨i + 1, by simpa using hi⟩
        · rintro ⟨i, hi⟩
          cases i with
          | zero => simp at hi; omega
          | succ i => exact ⟨i, by simpa using hi⟩
      · simp only [h, if_false, true_iff]
        exact ⟨0, by simpa using h⟩

example : subIndex [3, 1] [1, 1] = some [2, 0] ∧ subIndex [3, 1] [1, 2] = none := by decide

/-! ## Enumeration -/

theorem last_le_sum (a : List Nat) : a.getD (a.length - 1) 0 ≤ a.sum := by
  cases a with
  | nil => simp
  | cons x xs =>
    rw [List.getD_eq_getElem?_getD, List.getElem?_eq_getElem (by simp)]
    exact mem_le_sum (List.getElem_mem _)

/-- **C52** (successor): after `++` the components are the immediate successor in the graded order:
they come after the old ones, and every index that comes after the old ones is the new one or
comes after it.  The size is unchanged and the degree grows by at most one.  Partial: for a
degree that can be incremented without overflow, and only as far as the components are concerned
(see `C52_overrun`). -/
theorem C52_successor_partial (a : List Nat) (hne : a ≠ []) (ha : a.sum + 1 < 65536) :
    (incr a).components.length = a.length ∧ (incr a).components.sum ≤ a.sum + 1 ∧
      gradedLess a (incr a).components = true ∧
      ∀ b : List Nat, b.length = a.length → Fits b → gradedLess a b = true →
        b = (incr a).components ∨ gradedLess (incr a).components b = true := by
  have hl : a.length ≠ 0 := by simpa using hne
  have hfa : Fits a := by unfold Fits; omega
  rw [incr_eq hne (by have := last_le_sum a; omega)]
  cases hn : next a with
  | some s =>
    obtain ⟨h1, h2, h3, h4⟩ := next_some hn
    have hfs : Fits s := by unfold Fits; omega
    simp only [Incr.components]
    refine ⟨h1, by omega, ?_, ?_⟩
    · simp [gradedLess, degree_of_fits hfa, degree_of_fits hfs, h2, h3]
    · intro b hb hfb hab
      simp only [gradedLess, degree_of_fits hfa, degree_of_fits hfb, degree_of_fits hfs, h2] at *
      by_cases hs : a.sum = b.sum
      · simp only [hs, ne_eq, not_true_eq_false, if_false] at hab ⊢
        exact h4 b hb hs.symm hab
      · right
        simpa [hs] using hab
  | none =>
    simp only [Incr.components]
    have hfs : Fits ((a.sum + 1) :: List.replicate (a.length - 1) 0) := by
      unfold Fits; simpa using ha
    refine ⟨by simp; omega, by simp, ?_, ?_⟩
    · apply C22_graded _ _ hfa hfs
      simp
    · intro b hb hfb hab
      have hlt : a.sum < b.sum := by
        simp only [gradedLess, degree_of_fits hfa, degree_of_fits hfb] at hab
        by_cases hs : a.sum = b.sum
        · have := next_none hn b hb hs.symm
          simp [hs, this] at hab
        · simpa [hs] using hab
      by_cases hs : b.sum = a.sum + 1
      · rcases firstGreater_max_first hs (k := a.length - 1) (by omega) with h | h
        · exact .inl h
        · right
          simp [gradedLess, degree_of_fits hfs, degree_of_fits hfb, hs, h]
      · right
        apply C22_graded _ _ hfs hfb
        simp
        omega

example : (incr [2, 0, 1]).components = [1, 2, 0] ∧ (incr [0, 0, 3]).components = [4, 0, 0] ∧
    (incr [1, 1, 0]).components = [1, 0, 1] := by decide

/-- **C52** (what fails): `++` writes the word after the array of components exactly when every
component but the last is zero, that is, whenever the degree increases; in one variable this is
every time. -/
theorem C52_overrun (a : List Nat) (hne : a ≠ []) (ha : a.sum + 1 < 65536) :
    (∃ r, incr a = .overrun r) ↔ ∀ i, i + 1 < a.length → a.getD i 0 = 0 := by
  rw [incr_eq hne (by have := last_le_sum a; omega), ← next_none_iff]
  cases hn : next a with
  | some s => simp
  | none => simp

theorem C52_overrun_witness : incr [0, 0] = .overrun [1, 0] := by decide

/-- The components after incrementing the zero index `k` times. -/
def nth (n : Nat) : Nat → List Nat
  | 0 => List.replicate n 0
  | k + 1 => (incr (nth n k)).components

theorem finite_fits (n d : Nat) : {a : List Nat | a.length = n ∧ a.sum ≤ d}.Finite := by
  have h := List.finite_length_eq (Fin (d + 1)) n
  apply (h.image (List.map Fin.val)).subset
  rintro a ⟨ha, hs⟩
  have hb : ∀ x ∈ a, x < d + 1 := fun x hx => by
    have := mem_le_sum hx
    omega
  refine ⟨a.attach.map (fun x => ⟨x.1, hb x.1 x.2⟩), by simpa using ha, ?_⟩
  rw [List.map_map]
  simp [Function.comp_def]

/-- **C52** (enumeration): the loop `for(MultiIndex a(n); …; ++a)` visits every index in `n`
variables exactly once: every index of degree below `2^16-1` is reached after some number of
steps, and along the way the indices strictly increase in the graded order. -/
theorem C52_enumerates_partial (n : Nat) (hn : 0 < n) (b : List Nat) (hb : b.length = n)
    (hfb : b.sum + 1 < 65536) :
    ∃ k, nth n k = b ∧ ∀ i j, i < j → j ≤ k → gradedLess (nth n i) (nth n j) = true := by
  have tot := (C22_strict_total n).1
  have hfb' : Fits b := by unfold Fits; omega
  have le_of_less : ∀ a : List Nat, Fits a → gradedLess a b = true → a.sum ≤ b.sum := by
    intro a hfa h
    simp only [gradedLess, degree_of_fits hfa, degree_of_fits hfb'] at h
    by_cases hs : a.sum = b.sum
    · omega
    · simp [hs] at h; omega
  -- as long as the sequence has not reached `b` it stays below `b` and increases
  have key : ∀ k, (∀ i < k, nth n i ≠ b) → (nth n k).length = n ∧ (nth n k).sum ≤ b.sum ∧
      (nth n k = b ∨ gradedLess (nth n k) b = true) ∧
      (∀ i j, i < j → j ≤ k → gradedLess (nth n i) (nth n j) = true) ∧
      (∀ i ≤ k, (nth n i).length = n) := by
    intro k
    induction k with
    | zero =>
      intro _
      refine ⟨by simp [nth], by simp only [nth]; rw [sum_replicate_zero]; omega, ?_,
        by intros; omega, by intro i hi; simp [Nat.le_zero.1 hi, nth]⟩
      by_cases h : b = List.replicate n 0
      · exact .inl h.symm
      · right
        have := C22_least b hfb' (by rw [hb]; exact h)
        rwa [hb] at this
    | succ k ih =>
      intro hk
      obtain ⟨h1, h2, h3, h4, h5⟩ := ih (fun i hi => hk i (by omega))
      have h3 : gradedLess (nth n k) b = true := h3.resolve_left (hk k (by omega))
      have hne : nth n k ≠ [] := by
        intro e; rw [e] at h1; simp at h1; omega
      obtain ⟨s1, s2, s3, s4⟩ := C52_successor_partial (nth n k) hne (by omega)
      have s5 := s4 b (hb.trans h1.symm) hfb' h3
      have hfit : Fits (incr (nth n k)).components := by unfold Fits; omega
      have s6 : (nth n (k + 1)).length = n := s1.trans h1
      refine ⟨s6, ?_, ?_, ?_, ?_⟩
      · rcases s5 with e | e
        · exact (congrArg List.sum e).symm.le
        · exact le_of_less _ hfit e
      · rcases s5 with e | e
        · exact .inl e.symm
        · exact .inr e
      · intro i j hij hj
        rcases Nat.lt_or_ge k j with hjk | hjk
        · have : j = k + 1 := by omega
          subst this
          rcases Nat.lt_or_ge i k with hik | hik
          · exact tot.trans _ _ _ (h5 i (by omega)) h1 s6 (h4 i k hik (by omega)) s3
          · have : i = k := by omega
            subst this
            exact s3
        · exact h4 i j hij hjk
      · intro i hi
        rcases Nat.lt_or_ge k i with h | h
        · have : i = k + 1 := by omega
          subst this
          exact s6
        · exact h5 i h
  by_cases hex : ∃ k, nth n k = b
  · classical
    refine ⟨Nat.find hex, Nat.find_spec hex, ?_⟩
    exact (key (Nat.find hex) (fun i hi => Nat.find_min hex hi)).2.2.2.1
  · exfalso
    push Not at hex
    have hinj : Function.Injective (nth n) := by
      intro i j hij
      by_contra hne
      rcases Nat.lt_or_gt_of_ne hne with h | h
      · have := (key j (fun i _ => hex i)).2.2.2.1 i j h le_rfl
        rw [hij, tot.irrefl _ (key j (fun i _ => hex i)).1] at this
        cases this
      · have := (key i (fun i _ => hex i)).2.2.2.1 j i h le_rfl
        rw [hij, tot.irrefl _ (key j (fun i _ => hex i)).1] at this
        cases this
    have hinf := Set.infinite_range_of_injective hinj
    apply hinf
    apply (finite_fits n b.sum).subset
    rintro _ ⟨k, rfl⟩
    exact ⟨(key k (fun i _ => hex i)).1, (key k (fun i _ => hex i)).2.1⟩

example : nth 2 4 = [1, 1] ∧ nth 2 5 = [0, 2] ∧ nth 2 6 = [3, 0] := by decide

end Verif.Expansion
