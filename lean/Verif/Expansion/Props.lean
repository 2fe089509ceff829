import Verif.Expansion.Model
import Verif.Expansion.Orders
import Mathlib.Algebra.BigOperators.Group.List.Basic
import Mathlib.Algebra.BigOperators.Ring.List
import Mathlib.Algebra.Ring.Int.Defs

/-!
# Property C23: expansions behave as finite maps from exponents to coefficients
-/

namespace Verif.Expansion

variable {I X : Type*}

/-! ## Specification -/

/-- The map from indices to coefficients denoted by a list of terms: the sum of the coefficients of
all the terms with that index. -/
def coeff [AddCommMonoid X] [DecidableEq I] (e : Terms I X) (a : I) : X :=
  (e.map (fun t => if t.1 = a then t.2 else 0)).sum

/-- The value of the polynomial when the monomial with index `a` has value `m a`. -/
def value [CommSemiring X] (m : I → X) (e : Terms I X) : X := (e.map (fun t => t.2 * m t.1)).sum

/-- The value of the monomial with exponents `a` at the point `x`. -/
def monomial [CommSemiring X] (x : List X) (a : List Nat) : X :=
  (List.zipWith (fun y n => y ^ n) x a).prod

/-- No two terms have the same index. -/
def Distinct (e : Terms I X) : Prop := (e.map Prod.fst).Nodup

/-- The terms are strictly increasing in the order of their indices. -/
def Sorted (lt : I → I → Bool) (e : Terms I X) : Prop :=
  e.Pairwise (fun s t => lt s.1 t.1 = true)

/-- A strict total order on the whole index type. -/
structure Strict (lt : I → I → Bool) : Prop where
  irrefl : ∀ a, lt a a = false
  trans : ∀ a b c, lt a b = true → lt b c = true → lt a c = true
  total : ∀ a b, lt a b = true ∨ a = b ∨ lt b a = true

/-- Multi-indices in `n` variables. -/
abbrev MIndex (n : Nat) := { a : List Nat // a.length = n }

/-- The three comparisons are strict total orders on the multi-indices in `n` variables, so the
theorems below apply to them. -/
theorem strict_orders (n : Nat) :
    Strict (fun a b : MIndex n => gradedLess a.1 b.1) ∧
    Strict (fun a b : MIndex n => lexLess a.1 b.1) ∧
    Strict (fun a b : MIndex n => revLexLess a.1 b.1) := by
  obtain ⟨h1, h2, h3⟩ := C22_strict_total n
  have lift : ∀ lt, StrictTotal n lt → Strict (fun a b : MIndex n => lt a.1 b.1) := by
    intro lt h
    refine ⟨fun a => h.irrefl _ a.2, fun a b c => h.trans _ _ _ a.2 b.2 c.2, fun a b => ?_⟩
    rcases h.total _ _ a.2 b.2 with h | h | h
    · exact .inl h
    · exact .inr (.inl (Subtype.ext h))
    · exact .inr (.inr h)
  exact ⟨lift _ h1, lift _ h2, lift _ h3⟩

/-! ## Facts about `coeff` and `value` -/

section Coeff
variable [AddCommMonoid X] [DecidableEq I]

@[simp] theorem coeff_nil (a : I) : coeff ([] : Terms I X) a = 0 := rfl

@[simp] theorem coeff_cons (t : I × X) (e : Terms I X) (a : I) :
    coeff (t :: e) a = (if t.1 = a then t.2 else 0) + coeff e a := by simp [coeff]

@[simp] theorem coeff_append (e f : Terms I X) (a : I) :
    coeff (e ++ f) a = coeff e a + coeff f a := by simp [coeff]

theorem coeff_eq_zero {e : Terms I X} {a : I} (h : ∀ t ∈ e, t.1 ≠ a) : coeff e a = 0 := by
  induction e with
  | nil => rfl
  | cons t e ih =>
    rw [coeff_cons, if_neg (h t (by simp)), ih (fun u hu => h u (by simp [hu])), add_zero]

theorem coeff_perm {e f : Terms I X} (h : e.Perm f) (a : I) : coeff e a = coeff f a :=
  (h.map _).sum_eq

end Coeff

section Find
variable [DecidableEq I]

theorem find_spec (e : Terms I X) (a : I) :
    (∃ p t q, e = p ++ t :: q ∧ p.length = find e a ∧ t.1 = a ∧ ∀ u ∈ p, u.1 ≠ a) ∨
      (find e a = e.length ∧ ∀ u ∈ e, u.1 ≠ a) := by
  induction e with
  | nil => right; simp [find]
  | cons t e ih =>
    by_cases h : t.1 = a
    · left
      exact ⟨[], t, e, rfl, by simp [find, h], h, by simp⟩
    · rcases ih with ⟨p, u, q, h1, h2, h3, h4⟩ | ⟨h1, h2⟩
      · left
        refine ⟨t :: p, u, q, by simp [h1], by simp [find, h, h2], h3, ?_⟩
        intro v hv
        rcases List.mem_cons.1 hv with rfl | hv
        · exact h
        · exact h4 v hv
      · right
        refine ⟨by simp [find, h, h1], ?_⟩
        intro v hv
        rcases List.mem_cons.1 hv with rfl | hv
        · exact h
        · exact h2 v hv

omit [DecidableEq I] in
theorem get?_split {p q : Terms I X} {t : I × X} {k : Nat} (h : p.length = k) :
    (p ++ t :: q)[k]? = some t := by
  subst h; simp

omit [DecidableEq I] in
theorem set_split {p q : Terms I X} {t u : I × X} {k : Nat} (h : p.length = k) :
    List.set (p ++ t :: q) k u = p ++ u :: q := by
  subst h
  induction p with
  | nil => rfl
  | cons x p ih => simp

omit [DecidableEq I] in
theorem distinct_split {p q : Terms I X} {t : I × X} (h : Distinct (p ++ t :: q)) :
    ∀ u ∈ q, u.1 ≠ t.1 := by
  unfold Distinct at h
  rw [List.map_append, List.map_cons, List.nodup_append] at h
  have h2 := (List.nodup_cons.1 h.2.1).1
  intro u hu e
  exact h2 (by rw [← e]; exact List.mem_map_of_mem hu)

end Find

/-! ## Updates of an unsorted expansion -/

section Plain
variable [AddCommMonoid X] [DecidableEq I]

/-- **C23** (get): reading a coefficient of an expansion without repeated indices gives the value of
the map. -/
theorem C23_get (e : Terms I X) (h : Distinct e) (a : I) : get e a = coeff e a := by
  unfold get
  rcases find_spec e a with ⟨p, t, q, h1, h2, h3, h4⟩ | ⟨h1, h2⟩
  · have : e[find e a]? = some t := by
      conv => lhs; arg 1; rw [h1]
      exact get?_split h2
    rw [this]
    simp only
    subst h3
    rw [h1] at h ⊢
    rw [coeff_append, coeff_cons, coeff_eq_zero h4, coeff_eq_zero (distinct_split h)]
    simp
  · rw [h1, List.getElem?_eq_none (le_refl _)]
    exact (coeff_eq_zero h2).symm

/-- **C23** (at): updating a coefficient through the reference returned by `at` or `operator[]`
updates the map at that index and nowhere else, and repeated indices never appear. -/
theorem C23_update (e : Terms I X) (h : Distinct e) (a : I) (f : X → X) :
    Distinct (update e a f) ∧
      coeff (update e a f) = Function.update (coeff e) a (f (coeff e a)) := by
  unfold update
  rcases find_spec e a with ⟨p, t, q, h1, h2, h3, h4⟩ | ⟨h1, h2⟩
  · have hg : e[find e a]? = some t := by
      conv => lhs; arg 1; rw [h1]
      exact get?_split h2
    have hs : List.set e (find e a) (t.1, f t.2) = p ++ (t.1, f t.2) :: q := by
      conv => lhs; arg 1; rw [h1]
      exact set_split h2
    rw [hg]
    simp only
    rw [hs]
    subst h3
    rw [h1] at h
    have hq := distinct_split h
    refine ⟨by simpa [Distinct] using h, ?_⟩
    funext b
    rw [h1]
    by_cases hb : b = t.1
    · subst hb
      simp [coeff_eq_zero h4, coeff_eq_zero hq]
    · rw [Function.update_of_ne hb]
      have : ¬ t.1 = b := fun e => hb e.symm
      simp [this]
  · rw [h1, List.getElem?_eq_none (le_refl _)]
    simp only [append]
    refine ⟨?_, ?_⟩
    · unfold Distinct at h ⊢
      rw [List.map_append, List.nodup_append]
      refine ⟨h, by simp, ?_⟩
      intro x hx y hy
      simp only [List.map_cons, List.map_nil, List.mem_singleton] at hy
      obtain ⟨u, hu, rfl⟩ := List.mem_map.1 hx
      rw [hy]
      exact h2 u hu
    · funext b
      by_cases hb : b = a
      · subst hb
        simp [coeff_eq_zero h2]
      · rw [Function.update_of_ne hb]
        have : ¬ a = b := fun e => hb e.symm
        simp [this]

theorem set_eq_update (e : Terms I X) (a : I) (c : X) : set e a c = update e a (fun _ => c) := rfl

/-- **C23** (set): setting a coefficient. -/
theorem C23_set (e : Terms I X) (h : Distinct e) (a : I) (c : X) :
    Distinct (set e a c) ∧ coeff (set e a c) = Function.update (coeff e) a c := by
  rw [set_eq_update]
  exact C23_update e h a (fun _ => c)

/-- **C23** (append): appending adds to the map, whatever the indices. -/
theorem C23_append (e : Terms I X) (a : I) (c : X) :
    coeff (append e a c) = Function.update (coeff e) a (coeff e a + c) := by
  funext b
  by_cases hb : b = a
  · subst hb
    simp [append]
  · rw [Function.update_of_ne hb]
    have : ¬ a = b := fun e => hb e.symm
    simp [append, this]

end Plain

example : get (set (set ([] : Terms Nat Int) 3 5) 1 2) 3 = 5 := by decide

/-! ## Insertion by shifting -/

theorem shift_spec (p l s : Terms I X) (x y : I × X) :
    List.set (shift (p ++ l ++ x :: s) p.length l.length) p.length y = p ++ y :: (l ++ s) := by
  induction l using List.reverseRecOn generalizing x s with
  | nil =>
    simp only [List.length_nil, shift, List.append_nil, List.nil_append]
    exact set_split rfl
  | append_singleton l z ih =>
    rw [List.length_append, List.length_singleton, shift]
    have e1 : (p ++ (l ++ [z]) ++ x :: s) = (p ++ l) ++ z :: x :: s := by simp
    have e2 : ((p ++ l) ++ z :: x :: s)[p.length + l.length]? = some z :=
      get?_split (by simp)
    have e3 : List.set ((p ++ l) ++ z :: x :: s) (p.length + l.length + 1) z
        = p ++ l ++ z :: (z :: s) := by
      have : (p ++ l) ++ z :: x :: s = (p ++ l ++ [z]) ++ x :: s := by simp
      rw [this, set_split (by simp; omega)]
      simp
    rw [e1, e2]
    simp only
    rw [e3, ih]
    simp

/-- The loop of `insert` puts the new term at the given position and moves the later terms up by
one. -/
theorem insertAt_eq (p q : Terms I X) (a : I) (c : X) :
    insertAt (p ++ q) p.length a c = p ++ (a, c) :: q := by
  unfold insertAt append
  have := shift_spec p q [] (a, c) (a, c)
  have hl : (p ++ q ++ [(a, c)]).length - 1 - p.length = q.length := by simp
  simp only
  rw [hl, this]
  simp

/-- **C23** (insert at a position): the new term appears at the given position and all other terms
keep their order. -/
theorem C23_insert_at (e : Terms I X) (pos : Nat) (hpos : pos ≤ e.length) (a : I) (c : X) :
    insertAt e pos a c = e.take pos ++ (a, c) :: e.drop pos := by
  have h := insertAt_eq (e.take pos) (e.drop pos) a c
  rwa [List.take_append_drop, List.length_take, Nat.min_eq_left hpos] at h

/-- **C23** (prepend): the new term comes first and the others follow in their order. -/
theorem C23_prepend (e : Terms I X) (a : I) (c : X) : prepend e a c = (a, c) :: e := by
  have h := C23_insert_at e 0 (by omega) a c
  simpa [insertAt, prepend] using h

example : insertAt [(1, 2), (4, 5)] 1 3 7 = [(1, 2), (3, 7), ((4, 5) : Nat × Int)] := by decide

/-! ## Bisection -/

section Bisect
variable {lt : I → I → Bool}

/-- `n` separates the terms before `a` from the others. -/
structure Splits (lt : I → I → Bool) (e : Terms I X) (a : I) (n : Nat) : Prop where
  le : n ≤ e.length
  before : ∀ i t, e[i]? = some t → i < n → lt t.1 a = true
  after : ∀ i t, e[i]? = some t → n ≤ i → lt t.1 a = false

theorem sorted_get {e : Terms I X} (h : Sorted lt e) {i j : Nat} {t u : I × X}
    (hi : e[i]? = some t) (hj : e[j]? = some u) (hij : i < j) : lt t.1 u.1 = true := by
  obtain ⟨hi', rfl⟩ := List.getElem?_eq_some_iff.1 hi
  obtain ⟨hj', rfl⟩ := List.getElem?_eq_some_iff.1 hj
  exact List.pairwise_iff_getElem.1 h i j hi' hj' hij

theorem lowerBoundF_splits (hlt : Strict lt) (e : Terms I X) (h : Sorted lt e) (a : I) :
    ∀ fuel first len, len ≤ fuel → first + len ≤ e.length →
      (∀ i t, e[i]? = some t → i < first → lt t.1 a = true) →
      (∀ i t, e[i]? = some t → first + len ≤ i → lt t.1 a = false) →
      Splits lt e a (lowerBoundF lt e a fuel first len) := by
  intro fuel
  induction fuel with
  | zero =>
    intro first len hf hl hb ha
    have : len = 0 := by omega
    subst this
    exact ⟨by simpa [lowerBoundF] using hl, hb, ha⟩
  | succ fuel ih =>
    intro first len hf hl hb ha
    cases len with
    | zero => exact ⟨by simpa [lowerBoundF] using hl, hb, ha⟩
    | succ len =>
      rw [lowerBoundF]
      have hm : first + (len + 1) / 2 < e.length := by omega
      obtain ⟨t, ht⟩ : ∃ t, e[first + (len + 1) / 2]? = some t :=
        ⟨_, List.getElem?_eq_getElem hm⟩
      rw [ht]
      simp only
      by_cases hc : lt t.1 a = true
      · rw [if_pos hc]
        apply ih
        · omega
        · omega
        · intro i u hu hi
          rcases Nat.lt_or_ge i (first + (len + 1) / 2) with h' | h'
          · exact hlt.trans _ _ _ (sorted_get h hu ht h') hc
          · have : i = first + (len + 1) / 2 := by omega
            subst this
            rw [ht] at hu
            cases hu
            exact hc
        · intro i u hu hi
          exact ha i u hu (by omega)
      · rw [if_neg hc]
        apply ih
        · omega
        · omega
        · exact hb
        · intro i u hu hi
          rcases Nat.lt_or_ge (first + (len + 1) / 2) i with h' | h'
          · by_contra hcon
            have hua : lt u.1 a = true := by simpa using hcon
            exact hc (hlt.trans _ _ _ (sorted_get h ht hu h') hua)
          · have : i = first + (len + 1) / 2 := by omega
            subst this
            rw [ht] at hu
            cases hu
            simpa using hc

/-- The bisection finds the first term that is not before the given index. -/
theorem lowerBound_splits (hlt : Strict lt) (e : Terms I X) (h : Sorted lt e) (a : I) :
    Splits lt e a (lowerBound lt e a) := by
  apply lowerBoundF_splits hlt e h a _ _ _ (le_refl _) (by omega)
  · intro i t _ hi; omega
  · intro i t ht hi
    obtain ⟨hi', _⟩ := List.getElem?_eq_some_iff.1 ht
    omega

/-- How a sorted list is cut by the bisection. -/
theorem lowerBound_cut [DecidableEq I] (hlt : Strict lt) (e : Terms I X) (h : Sorted lt e) (a : I) :
    ∃ p q, e = p ++ q ∧ p.length = lowerBound lt e a ∧ (∀ t ∈ p, lt t.1 a = true) ∧
      ((∃ t q', q = t :: q' ∧ t.1 = a ∧ ∀ u ∈ q', lt a u.1 = true) ∨
        ∀ u ∈ q, lt a u.1 = true) := by
  have hs := lowerBound_splits hlt e h a
  generalize lowerBound lt e a = n at hs ⊢
  refine ⟨e.take n, e.drop n, (List.take_append_drop n e).symm, by simp [hs.le], ?_, ?_⟩
  · intro t ht
    obtain ⟨i, hi⟩ := List.mem_iff_getElem?.1 ht
    have hin : i < n := by
      have := (List.getElem?_eq_some_iff.1 hi).1
      rw [List.length_take] at this
      omega
    rw [List.getElem?_take_of_lt hin] at hi
    exact hs.before i t hi hin
  · have hsorted : Sorted lt (e.drop n) := List.Pairwise.sublist (List.drop_sublist n e) h
    have hnot : ∀ u ∈ e.drop n, lt u.1 a = false := by
      intro u hu
      obtain ⟨i, hi⟩ := List.mem_iff_getElem?.1 hu
      rw [List.getElem?_drop] at hi
      exact hs.after (n + i) u hi (by omega)
    cases hd : e.drop n with
    | nil => right; simp
    | cons t q' =>
      rw [hd] at hsorted hnot
      have hp := List.pairwise_cons.1 hsorted
      by_cases hta : t.1 = a
      · left
        refine ⟨t, q', rfl, hta, fun u hu => ?_⟩
        rw [← hta]
        exact hp.1 u hu
      · right
        intro u hu
        rcases hlt.total u.1 a with h1 | h1 | h1
        · rw [hnot u hu] at h1; cases h1
        · exfalso
          rcases List.mem_cons.1 hu with rfl | hu'
          · exact hta h1
          · have h2 := hp.1 u hu'
            rw [h1] at h2
            rw [hnot t (by simp)] at h2
            cases h2
        · exact h1

theorem Strict.ne (hlt : Strict lt) {a b : I} (h : lt a b = true) : a ≠ b := by
  rintro rfl
  rw [hlt.irrefl] at h
  cases h

end Bisect

/-! ## Sorted expansions -/

section SortedOps
variable {lt : I → I → Bool} [DecidableEq I]

theorem sorted_insert (hlt : Strict lt) {p q : Terms I X} {a : I} {c : X}
    (h : Sorted lt (p ++ q)) (hp : ∀ t ∈ p, lt t.1 a = true) (hq : ∀ t ∈ q, lt a t.1 = true) :
    Sorted lt (p ++ (a, c) :: q) := by
  unfold Sorted at h ⊢
  rw [List.pairwise_append] at h ⊢
  refine ⟨h.1, List.pairwise_cons.2 ⟨hq, h.2.1⟩, ?_⟩
  intro s hs t ht
  rcases List.mem_cons.1 ht with rfl | ht
  · exact hp s hs
  · exact h.2.2 s hs t ht

theorem sorted_distinct (hlt : Strict lt) {e : Terms I X} (h : Sorted lt e) : Distinct e := by
  unfold Distinct
  rw [List.Nodup, List.pairwise_map]
  exact h.imp (fun h => hlt.ne h)

variable [AddCommMonoid X]

/-- **C23** (get, sorted): bisection reads the value of the map. -/
theorem C23_sorted_get (hlt : Strict lt) (e : Terms I X) (h : Sorted lt e) (a : I) :
    sget lt e a = coeff e a := by
  unfold sget
  obtain ⟨p, q, rfl, hl, hp, hq⟩ := lowerBound_cut hlt e h a
  have hpz : coeff p a = 0 := coeff_eq_zero (fun t ht => hlt.ne (hp t ht))
  rcases hq with ⟨t, q', rfl, hta, hq'⟩ | hq
  · rw [get?_split hl]
    have : coeff q' a = 0 := coeff_eq_zero (fun u hu e => hlt.ne (hq' u hu) e.symm)
    simp [hta, hpz, this]
  · have hqz : coeff q a = 0 := coeff_eq_zero (fun u hu e => hlt.ne (hq u hu) e.symm)
    rw [← hl, coeff_append, hpz, hqz]
    cases q with
    | nil => simp
    | cons t q' =>
      have : t.1 ≠ a := fun e => hlt.ne (hq t (by simp)) e.symm
      rw [get?_split rfl]
      simp [this]

/-- **C23** (at, sorted): updating a coefficient of a sorted expansion updates the map at that index
and nowhere else, and the terms stay strictly sorted. -/
theorem C23_sorted_update (hlt : Strict lt) (e : Terms I X) (h : Sorted lt e) (a : I)
    (f : X → X) :
    Sorted lt (supdate lt e a f) ∧
      coeff (supdate lt e a f) = Function.update (coeff e) a (f (coeff e a)) := by
  obtain ⟨p, q, rfl, hl, hp, hq⟩ := lowerBound_cut hlt e h a
  have hpz : coeff p a = 0 := coeff_eq_zero (fun t ht => hlt.ne (hp t ht))
  rcases hq with ⟨t, q', rfl, hta, hq'⟩ | hq
  · unfold supdate
    rw [get?_split hl]
    have hqz : coeff q' a = 0 := coeff_eq_zero (fun u hu e => hlt.ne (hq' u hu) e.symm)
    simp only [hta, ne_eq, not_true_eq_false, if_false]
    rw [set_split hl]
    refine ⟨?_, ?_⟩
    · unfold Sorted at h ⊢
      rw [List.pairwise_append] at h ⊢
      refine ⟨h.1, List.pairwise_cons.2 ⟨hq', (List.pairwise_cons.1 h.2.1).2⟩, ?_⟩
      intro s hs u hu
      rcases List.mem_cons.1 hu with rfl | hu
      · exact hp s hs
      · exact h.2.2 s hs u (by simp [hu])
    · funext b
      by_cases hb : b = a
      · subst hb
        simp [hpz, hqz, hta]
      · have : ¬ a = b := fun e => hb e.symm
        rw [Function.update_of_ne hb]
        simp [this, hta]
  · have hqz : coeff q a = 0 := coeff_eq_zero (fun u hu e => hlt.ne (hq u hu) e.symm)
    have hins : insertAt (p ++ q) (lowerBound lt (p ++ q) a) a (f 0) = p ++ (a, f 0) :: q := by
      rw [← hl]; exact insertAt_eq p q a (f 0)
    have hres : supdate lt (p ++ q) a f = p ++ (a, f 0) :: q := by
      unfold supdate
      rw [hins]
      cases q with
      | nil => rw [← hl]; simp
      | cons t q' =>
        have hta : t.1 ≠ a := fun e => hlt.ne (hq t (by simp)) e.symm
        rw [get?_split hl]
        simp [hta]
    rw [hres]
    refine ⟨sorted_insert hlt h hp hq, ?_⟩
    funext b
    by_cases hb : b = a
    · subst hb
      simp [hpz, hqz]
    · have : ¬ a = b := fun e => hb e.symm
      rw [Function.update_of_ne hb]
      simp [this]

/-- **C23** (set, sorted). -/
theorem C23_sorted_set (hlt : Strict lt) (e : Terms I X) (h : Sorted lt e) (a : I) (c : X) :
    Sorted lt (sset lt e a c) ∧ coeff (sset lt e a c) = Function.update (coeff e) a c :=
  C23_sorted_update hlt e h a (fun _ => c)

/-- **C23** (insert, sorted): inserting succeeds exactly when no term has the index; then the terms
stay strictly sorted and the map gets the new coefficient. -/
theorem C23_sorted_insert (hlt : Strict lt) (e : Terms I X) (h : Sorted lt e) (a : I) (c : X) :
    (sinsert lt e a c = none ↔ ∃ t ∈ e, t.1 = a) ∧
      ∀ e', sinsert lt e a c = some e' →
        Sorted lt e' ∧ coeff e' = Function.update (coeff e) a c := by
  obtain ⟨p, q, rfl, hl, hp, hq⟩ := lowerBound_cut hlt e h a
  have hpz : coeff p a = 0 := coeff_eq_zero (fun t ht => hlt.ne (hp t ht))
  rcases hq with ⟨t, q', rfl, hta, hq'⟩ | hq
  · unfold sinsert
    rw [get?_split hl]
    simp only [hta, ne_eq, not_true_eq_false, if_false, true_iff, reduceCtorEq, false_imp_iff,
      implies_true, and_true]
    exact ⟨t, by simp, hta⟩
  · have hqz : coeff q a = 0 := coeff_eq_zero (fun u hu e => hlt.ne (hq u hu) e.symm)
    have hins : insertAt (p ++ q) (lowerBound lt (p ++ q) a) a c = p ++ (a, c) :: q := by
      rw [← hl]; exact insertAt_eq p q a c
    have hres : sinsert lt (p ++ q) a c = some (p ++ (a, c) :: q) := by
      unfold sinsert
      rw [hins]
      cases q with
      | nil => rw [← hl]; simp
      | cons t q' =>
        have hta : t.1 ≠ a := fun e => hlt.ne (hq t (by simp)) e.symm
        rw [get?_split hl]
        simp [hta]
    rw [hres]
    refine ⟨?_, ?_⟩
    · simp only [reduceCtorEq, false_iff]
      rintro ⟨t, ht, rfl⟩
      rcases List.mem_append.1 ht with ht | ht
      · exact hlt.ne (hp t ht) rfl
      · exact hlt.ne (hq t ht) rfl
    · rintro e' ⟨⟩
      refine ⟨sorted_insert hlt h hp hq, ?_⟩
      funext b
      by_cases hb : b = a
      · subst hb
        simp [hpz, hqz]
      · have : ¬ a = b := fun e => hb e.symm
        rw [Function.update_of_ne hb]
        simp [this]

/-- **C23** (histories): after any sequence of updates of an empty sorted expansion, the terms are
strictly sorted and every coefficient is the one obtained by the same updates of the zero map. -/
theorem C23_history (hlt : Strict lt) (ops : List (I × (X → X))) :
    let e := ops.foldl (fun e op => supdate lt e op.1 op.2) ([] : Terms I X)
    let m := ops.foldl (fun m op => Function.update m op.1 (op.2 (m op.1))) (fun _ : I => (0 : X))
    Sorted lt e ∧ ∀ a, sget lt e a = m a := by
  have key : ∀ (e : Terms I X) (m : I → X), Sorted lt e → coeff e = m →
      Sorted lt (ops.foldl (fun e op => supdate lt e op.1 op.2) e) ∧
      coeff (ops.foldl (fun e op => supdate lt e op.1 op.2) e)
        = ops.foldl (fun m op => Function.update m op.1 (op.2 (m op.1))) m := by
    induction ops with
    | nil => intro e m h1 h2; exact ⟨h1, h2⟩
    | cons op ops ih =>
      intro e m h1 h2
      simp only [List.foldl_cons]
      obtain ⟨h3, h4⟩ := C23_sorted_update hlt e h1 op.1 op.2
      exact ih _ _ h3 (by rw [h4, h2])
  obtain ⟨h1, h2⟩ := key [] (fun _ => 0) List.Pairwise.nil (by funext a; rfl)
  exact ⟨h1, fun a => by rw [C23_sorted_get hlt _ h1, h2]⟩

end SortedOps

example : sset gradedLess (sset gradedLess [] [0, 2] (5 : Int)) [1, 1] 7
    = [([1, 1], 7), ([0, 2], 5)] := by decide

example : sget gradedLess [([0, 0], 1), ([1, 1], 7), ([0, 2], (5 : Int))] [0, 2] = 5 := by decide

/-! ## Zeros, repeated indices -/

/-- **C23** (remove_zeros): removing the zero terms changes neither the map nor the order of the
remaining terms, and exactly the terms with nonzero coefficients remain. -/
theorem C23_remove_zeros [AddCommMonoid X] [DecidableEq I] [DecidableEq X] (lt : I → I → Bool)
    (e : Terms I X) :
    coeff (removeZeros e) = coeff e ∧ (Sorted lt e → Sorted lt (removeZeros e)) ∧
      (Distinct e → Distinct (removeZeros e)) ∧
      (∀ t, t ∈ removeZeros e ↔ t ∈ e ∧ t.2 ≠ 0) := by
  refine ⟨?_, ?_, ?_, ?_⟩
  · funext a
    induction e with
    | nil => rfl
    | cons t e ih =>
      unfold removeZeros at ih ⊢
      by_cases h : t.2 = 0
      · rw [List.filter_cons_of_neg (by simp [h]), ih]
        simp [h]
      · rw [List.filter_cons_of_pos (by simp [h])]
        simp [ih]
  · intro h
    exact List.Pairwise.sublist List.filter_sublist h
  · intro h
    exact List.Nodup.sublist (List.filter_sublist.map _) h
  · intro t
    simp [removeZeros]

theorem absorb_spec [AddCommMonoid X] [DecidableEq I] (a : I) (c : X) (e : Terms I X) :
    ∃ p, e = p ++ (absorb a c e).2 ∧ (∀ t ∈ p, t.1 = a) ∧
      (absorb a c e).1 = c + (p.map Prod.snd).sum ∧
      (∀ t ∈ (absorb a c e).2.head?, t.1 ≠ a) := by
  induction e generalizing c with
  | nil => exact ⟨[], by simp [absorb]⟩
  | cons t e ih =>
    by_cases h : t.1 = a
    · obtain ⟨p, h1, h2, h3, h4⟩ := ih (c + t.2)
      refine ⟨t :: p, ?_, ?_, ?_, ?_⟩
      · simp only [absorb, h, if_true, List.cons_append]
        rw [← h1]
      · intro u hu
        rcases List.mem_cons.1 hu with rfl | hu
        · exact h
        · exact h2 u hu
      · simp only [absorb, h, if_true, List.map_cons, List.sum_cons]
        rw [h3, add_assoc]
      · simpa [absorb, h] using h4
    · exact ⟨[], by simp [absorb, h]⟩

theorem absorb_length [Add X] [DecidableEq I] (a : I) (c : X) (e : Terms I X) :
    (absorb a c e).2.length ≤ e.length := by
  induction e generalizing c with
  | nil => simp [absorb]
  | cons t e ih =>
    by_cases h : t.1 = a
    · simp only [absorb, h, if_true, List.length_cons]
      have := ih (c + t.2); omega
    · simp [absorb, h]

theorem coeff_same [AddCommMonoid X] [DecidableEq I] {a : I} {p : Terms I X}
    (h : ∀ t ∈ p, t.1 = a) (b : I) : coeff p b = if a = b then (p.map Prod.snd).sum else 0 := by
  induction p with
  | nil => simp
  | cons t p ih =>
    rw [coeff_cons, ih (fun u hu => h u (by simp [hu])), h t (by simp)]
    by_cases hb : a = b <;> simp [hb]

theorem coeff_combineF [AddCommMonoid X] [DecidableEq I] (n : Nat) (e : Terms I X)
    (hn : e.length ≤ n) (b : I) : coeff (combineF n e) b = coeff e b := by
  induction n generalizing e with
  | zero =>
    have : e = [] := by simpa using hn
    simp [combineF, this]
  | succ n ih =>
    cases e with
    | nil => simp [combineF]
    | cons t ts =>
      obtain ⟨p, h1, h2, h3, -⟩ := absorb_spec t.1 t.2 ts
      have hl := absorb_length t.1 t.2 ts
      have hlen : (absorb t.1 t.2 ts).2.length ≤ n := by simp at hn; omega
      simp only [combineF, coeff_cons]
      rw [ih _ hlen, h3]
      conv => rhs; rw [h1]
      rw [coeff_append, coeff_same h2]
      by_cases hb : t.1 = b
      · simp [hb, add_assoc]
      · simp [hb]

theorem mem_combineF_index [Add X] [DecidableEq I] (n : Nat) (e : Terms I X) {t : I × X}
    (h : t ∈ combineF n e) : ∃ u ∈ e, u.1 = t.1 := by
  induction n generalizing e with
  | zero => simp [combineF] at h
  | succ n ih =>
    cases e with
    | nil => simp [combineF] at h
    | cons s ss =>
      simp only [combineF, List.mem_cons] at h
      rcases h with rfl | h
      · exact ⟨s, by simp, rfl⟩
      · obtain ⟨u, hu, hut⟩ := ih _ h
        have : u ∈ ss := by
          clear ih h hut
          generalize s.2 = c at hu
          induction ss generalizing c with
          | nil => simp [absorb] at hu
          | cons x xs ihx =>
            by_cases hx : x.1 = s.1
            · simp only [absorb, hx, if_true] at hu
              exact List.mem_cons_of_mem _ (ihx _ hu)
            · simpa [absorb, hx] using hu
        exact ⟨u, by simp [this], hut⟩

theorem sorted_combineF [AddCommMonoid X] [DecidableEq I] {lt : I → I → Bool} (hlt : Strict lt)
    (n : Nat) (e : Terms I X) (hn : e.length ≤ n)
    (h : e.Pairwise (fun s t => lt t.1 s.1 = false)) : Sorted lt (combineF n e) := by
  induction n generalizing e with
  | zero => exact List.Pairwise.nil
  | succ n ih =>
    cases e with
    | nil => exact List.Pairwise.nil
    | cons t ts =>
      obtain ⟨p, h1, h2, -, h4⟩ := absorb_spec t.1 t.2 ts
      have hl := absorb_length t.1 t.2 ts
      have hlen : (absorb t.1 t.2 ts).2.length ≤ n := by simp at hn; omega
      simp only [combineF]
      have hp := List.pairwise_cons.1 h
      have hrest : (absorb t.1 t.2 ts).2.Pairwise (fun s t => lt t.1 s.1 = false) := by
        apply List.Pairwise.sublist _ hp.2
        conv => rhs; rw [h1]
        exact List.sublist_append_right _ _
      refine List.pairwise_cons.2 ⟨?_, ih _ hlen hrest⟩
      intro u hu
      obtain ⟨v, hv, hvu⟩ := mem_combineF_index n _ hu
      simp only
      rw [← hvu]
      -- `v` is at or after the first remaining term, whose index differs from that of `t`
      cases hr : (absorb t.1 t.2 ts).2 with
      | nil => rw [hr] at hv; simp at hv
      | cons w ws =>
        rw [hr] at hv hrest h4
        have hwt : w.1 ≠ t.1 := h4 w (by simp)
        have hmem : ∀ x ∈ w :: ws, x ∈ ts := by
          intro x hx
          rw [h1, hr]
          exact List.mem_append_right _ hx
        have htw : lt t.1 w.1 = true := by
          rcases hlt.total t.1 w.1 with h | h | h
          · exact h
          · exact absurd h.symm hwt
          · rw [hp.1 w (hmem w (by simp))] at h; cases h
        rcases List.mem_cons.1 hv with rfl | hv
        · exact htw
        · have hvw := (List.pairwise_cons.1 hrest).1 v hv
          rcases hlt.total w.1 v.1 with h | h | h
          · exact hlt.trans _ _ _ htw h
          · rw [← h]; exact htw
          · rw [hvw] at h; cases h

/-- **C23** (combine_terms): combining terms never changes the map, whatever the order of the
terms; and if the terms are in (weakly) increasing order then the result is strictly increasing,
so that every index occurs once. -/
theorem C23_combine_terms [AddCommMonoid X] [DecidableEq I] {lt : I → I → Bool} (hlt : Strict lt)
    (e : Terms I X) :
    coeff (combineTerms e) = coeff e ∧
      (e.Pairwise (fun s t => lt t.1 s.1 = false) → Sorted lt (combineTerms e)) :=
  ⟨funext (coeff_combineF _ e (le_refl _)), sorted_combineF hlt _ e (le_refl _)⟩

/-- **C23** (sort and combine): the sequence used throughout the code — sort the terms by any
permutation into nondecreasing order, then combine and remove zeros — gives a strictly sorted
expansion without zero terms denoting the same map. -/
theorem C23_normalise [AddCommMonoid X] [DecidableEq I] [DecidableEq X] {lt : I → I → Bool}
    (hlt : Strict lt) (e e' : Terms I X) (hperm : e'.Perm e)
    (hsort : e'.Pairwise (fun s t => lt t.1 s.1 = false)) :
    let r := removeZeros (combineTerms e')
    Sorted lt r ∧ coeff r = coeff e ∧ ∀ t ∈ r, t.2 ≠ 0 := by
  obtain ⟨h1, h2⟩ := C23_combine_terms hlt e'
  obtain ⟨h3, h4, -, h5⟩ := C23_remove_zeros lt (combineTerms e')
  refine ⟨h4 (h2 hsort), ?_, fun t ht => ((h5 t).1 ht).2⟩
  rw [h3, h1]
  exact funext (coeff_perm hperm)

example : removeZeros (combineTerms [(1, 2), (1, -2), (3, 4), (3, (1 : Int))])
    = [((3 : Nat), (5 : Int))] := by decide

/-- **C23** (construction): building an expansion from a list of terms gives the map adding up all
of them, and stores no zero. -/
theorem C23_from_list [AddCommMonoid X] [DecidableEq I] [DecidableEq X] (l : List (I × X)) :
    coeff (fromList l) = coeff l ∧ (∀ t ∈ fromList l, t.2 ≠ 0) := by
  have key : ∀ (l : List (I × X)) (e : Terms I X),
      l.foldl (fun e t => if !decide (t.2 = 0) then append e t.1 t.2 else e) e
        = e ++ removeZeros l := by
    intro l
    induction l with
    | nil => intro e; simp [removeZeros]
    | cons t l ih =>
      intro e
      rw [List.foldl_cons, ih]
      by_cases h : t.2 = 0
      · simp [h, removeZeros]
      · simp [h, removeZeros, append]
  have e0 : fromList l = removeZeros l := by
    have := key l []
    simpa [fromList] using this
  obtain ⟨h1, -, -, h4⟩ := C23_remove_zeros (fun _ _ => true) l
  rw [e0]
  exact ⟨h1, fun t ht => ((h4 t).1 ht).2⟩

/-! ## Equality -/

section Eq
variable [AddCommMonoid X] [DecidableEq I] [DecidableEq X] {lt : I → I → Bool}

theorem sorted_coeff_tail (hlt : Strict lt) {t : I × X} {ts : Terms I X}
    (h : Sorted lt (t :: ts)) {a : I} (ha : lt a t.1 = true ∨ a = t.1) : coeff ts a = 0 := by
  apply coeff_eq_zero
  intro u hu e
  have hp := (List.pairwise_cons.1 h).1 u hu
  rw [e] at hp
  rcases ha with ha | ha
  · exact hlt.ne (hlt.trans _ _ _ ha hp) rfl
  · exact hlt.ne hp ha.symm

theorem sorted_coeff_head (hlt : Strict lt) {t : I × X} {ts : Terms I X}
    (h : Sorted lt (t :: ts)) : coeff (t :: ts) t.1 = t.2 := by
  rw [coeff_cons, sorted_coeff_tail hlt h (.inr rfl)]
  simp

theorem sorted_coeff_before (hlt : Strict lt) {t : I × X} {ts : Terms I X}
    (h : Sorted lt (t :: ts)) {a : I} (ha : lt a t.1 = true) : coeff (t :: ts) a = 0 := by
  rw [coeff_cons, sorted_coeff_tail hlt h (.inl ha)]
  have : t.1 ≠ a := fun e => hlt.ne ha e.symm
  simp [this]

theorem coeff_cons_eq_iff (hlt : Strict lt) {t : I × X} {ts : Terms I X} {g : I → X}
    (h : Sorted lt (t :: ts)) :
    coeff (t :: ts) = g ↔ g t.1 = t.2 ∧ coeff ts = Function.update g t.1 0 := by
  constructor
  · rintro rfl
    refine ⟨sorted_coeff_head hlt h, ?_⟩
    funext a
    by_cases ha : a = t.1
    · subst ha
      simp [sorted_coeff_tail hlt h (.inr rfl)]
    · have : ¬ t.1 = a := fun e => ha e.symm
      rw [Function.update_of_ne ha]
      simp [this]
  · rintro ⟨h1, h2⟩
    funext a
    rw [coeff_cons, h2]
    by_cases ha : a = t.1
    · subst ha
      simp [h1]
    · have : ¬ t.1 = a := fun e => ha e.symm
      rw [Function.update_of_ne ha]
      simp [this]

theorem update_coeff_self (hlt : Strict lt) {t : I × X} {ts : Terms I X}
    (h : Sorted lt (t :: ts)) : Function.update (coeff (t :: ts)) t.1 0 = coeff ts := by
  funext a
  by_cases ha : a = t.1
  · subst ha
    simp [sorted_coeff_tail hlt h (.inr rfl)]
  · have : ¬ t.1 = a := fun e => ha e.symm
    rw [Function.update_of_ne ha]
    simp [this]

theorem seqF_spec (hlt : Strict lt) (n : Nat) (r : Bool) (e f : Terms I X)
    (hn : e.length + f.length ≤ n) (he : Sorted lt e) (hf : Sorted lt f) :
    ∃ b, seqF lt n r e f = some b ∧ (b = true ↔ r = true ∧ coeff e = coeff f) := by
  induction n generalizing r e f with
  | zero =>
    have h1 : e = [] := List.eq_nil_of_length_eq_zero (by omega)
    have h2 : f = [] := List.eq_nil_of_length_eq_zero (by omega)
    subst h1; subst h2
    exact ⟨r, rfl, by simp⟩
  | succ n ih =>
    cases e with
    | nil =>
      cases f with
      | nil => exact ⟨r, rfl, by simp⟩
      | cons u us =>
        simp only [seqF]
        have hus : Sorted lt us := (List.pairwise_cons.1 hf).2
        obtain ⟨b, hb1, hb2⟩ := ih (r && decide (0 = u.2)) [] us (by simp at hn ⊢; omega) he hus
        refine ⟨b, hb1, ?_⟩
        rw [hb2, eq_comm (b := coeff (u :: us)), coeff_cons_eq_iff hlt hf]
        have e0 : Function.update (coeff ([] : Terms I X)) u.1 0 = coeff ([] : Terms I X) := by
          funext a; by_cases ha : a = u.1 <;> simp [Function.update_apply]
        rw [e0, eq_comm (a := coeff us)]
        simp [and_assoc]
    | cons t ts =>
      have hts : Sorted lt ts := (List.pairwise_cons.1 he).2
      cases f with
      | nil =>
        simp only [seqF]
        obtain ⟨b, hb1, hb2⟩ := ih (r && decide (t.2 = 0)) ts [] (by simp at hn ⊢; omega) hts hf
        refine ⟨b, hb1, ?_⟩
        rw [hb2, coeff_cons_eq_iff hlt he]
        have e0 : Function.update (coeff ([] : Terms I X)) t.1 0 = coeff ([] : Terms I X) := by
          funext a; by_cases ha : a = t.1 <;> simp [Function.update_apply]
        rw [e0]
        simp only [Bool.and_eq_true, decide_eq_true_eq, and_assoc, coeff_nil]
        rw [@eq_comm X 0 t.2]
      | cons u us =>
        have hus : Sorted lt us := (List.pairwise_cons.1 hf).2
        simp only [seqF]
        by_cases h1 : t.1 = u.1
        · rw [if_pos h1]
          obtain ⟨b, hb1, hb2⟩ := ih (r && decide (t.2 = u.2)) ts us
            (by simp at hn ⊢; omega) hts hus
          refine ⟨b, hb1, ?_⟩
          rw [hb2, coeff_cons_eq_iff hlt he, h1, sorted_coeff_head hlt hf,
            update_coeff_self hlt hf]
          simp only [Bool.and_eq_true, decide_eq_true_eq, and_assoc]
          rw [@eq_comm X u.2 t.2]
        · rw [if_neg h1]
          by_cases h2 : lt t.1 u.1 = true
          · rw [if_pos h2]
            obtain ⟨b, hb1, hb2⟩ := ih (r && decide (t.2 = 0)) ts (u :: us)
              (by simp at hn ⊢; omega) hts hf
            refine ⟨b, hb1, ?_⟩
            have e0 : Function.update (coeff (u :: us)) t.1 0 = coeff (u :: us) := by
              funext a
              by_cases ha : a = t.1
              · subst ha; simp only [Function.update_self]
                exact (sorted_coeff_before hlt hf h2).symm
              · rw [Function.update_of_ne ha]
            rw [hb2, coeff_cons_eq_iff hlt he, sorted_coeff_before hlt hf h2, e0]
            simp only [Bool.and_eq_true, decide_eq_true_eq, and_assoc]
            rw [@eq_comm X 0 t.2]
          · rw [if_neg h2]
            have h3 : lt u.1 t.1 = true := by
              rcases hlt.total t.1 u.1 with h | h | h
              · exact absurd h h2
              · exact absurd h h1
              · exact h
            rw [if_pos h3]
            obtain ⟨b, hb1, hb2⟩ := ih (r && decide (0 = u.2)) (t :: ts) us
              (by simp at hn ⊢; omega) he hus
            refine ⟨b, hb1, ?_⟩
            have e0 : Function.update (coeff (t :: ts)) u.1 0 = coeff (t :: ts) := by
              funext a
              by_cases ha : a = u.1
              · subst ha; simp only [Function.update_self]
                exact (sorted_coeff_before hlt he h3).symm
              · rw [Function.update_of_ne ha]
            rw [hb2, eq_comm (b := coeff (u :: us)), coeff_cons_eq_iff hlt hf,
              sorted_coeff_before hlt he h3, e0, eq_comm (a := coeff us)]
            simp [and_assoc]

/-- **C23** (equality): comparing two sorted expansions always terminates and answers whether they
denote the same map, so explicit zero terms make no difference. -/
theorem C23_equality (hlt : Strict lt) (e f : Terms I X) (he : Sorted lt e) (hf : Sorted lt f) :
    ∃ b, seq lt e f = some b ∧ (b = true ↔ coeff e = coeff f) := by
  obtain ⟨b, h1, h2⟩ := seqF_spec hlt (e.length + f.length) true e f (le_refl _) he hf
  exact ⟨b, h1, by simpa using h2⟩

/-- **C23** (same_as): structural comparison is equality of the lists of terms, and so implies
equality of the maps. -/
theorem C23_same_as (e f : Terms I X) : sameAs e f = true ↔ e = f := by
  induction e generalizing f with
  | nil => cases f <;> simp [sameAs]
  | cons t ts ih =>
    cases f with
    | nil => simp [sameAs]
    | cons u us =>
      by_cases h1 : t.1 = u.1
      · by_cases h2 : t.2 = u.2
        · have : t = u := Prod.ext h1 h2
          simp [sameAs, this, ih]
        · have : t ≠ u := fun e => h2 (by rw [e])
          simp [sameAs, h2, this]
      · have : t ≠ u := fun e => h1 (by rw [e])
        simp [sameAs, h1, this]

end Eq

example : seq gradedLess [([1, 0], 2), ([0, 1], (0 : Int))] [([1, 0], 2)] = some true ∧
    seq gradedLess [([1, 0], 2), ([0, 1], (1 : Int))] [([1, 0], 2)] = some false := by decide

/-- **C23** (check): the consistency check succeeds exactly on strictly sorted expansions. -/
theorem C23_check {lt : I → I → Bool} (hlt : Strict lt) (e : Terms I X) :
    check lt e = true ↔ Sorted lt e := by
  induction e with
  | nil => simp [check, Sorted]
  | cons t ts ih =>
    cases ts with
    | nil => simp [check, Sorted]
    | cons u us =>
      simp only [check]
      by_cases h : lt t.1 u.1 = true
      · simp only [h, Bool.not_true, Bool.false_eq_true, if_false]
        rw [ih]
        constructor
        · intro hs
          refine List.pairwise_cons.2 ⟨?_, hs⟩
          intro v hv
          rcases List.mem_cons.1 hv with rfl | hv
          · exact h
          · exact hlt.trans _ _ _ h ((List.pairwise_cons.1 hs).1 v hv)
        · intro hs
          exact (List.pairwise_cons.1 hs).2
      · simp only [Bool.not_eq_true] at h
        simp only [h, Bool.not_false, if_true, Bool.false_eq_true, false_iff]
        intro hs
        have := (List.pairwise_cons.1 hs).1 u (by simp)
        rw [h] at this
        cases this

/-! ## Values -/

section Value
variable [CommSemiring X] [DecidableEq I]

theorem value_perm (m : I → X) {e f : Terms I X} (h : e.Perm f) : value m e = value m f :=
  (h.map _).sum_eq

theorem value_filter_ne (m : I → X) (e : Terms I X) (a : I) :
    value m e = coeff e a * m a + value m (e.filter (fun t => decide (t.1 ≠ a))) := by
  induction e with
  | nil => simp [value]
  | cons t e ih =>
    have hv : value m (t :: e) = t.2 * m t.1 + value m e := by simp [value]
    rw [hv, ih, coeff_cons]
    by_cases h : t.1 = a
    · rw [List.filter_cons_of_neg (by simp [h])]
      simp only [h, if_true]
      ring
    · rw [List.filter_cons_of_pos (by simp [h])]
      have hv2 : ∀ l : Terms I X, value m (t :: l) = t.2 * m t.1 + value m l := by simp [value]
      rw [hv2]
      simp only [h, if_false]
      ring

theorem coeff_filter_ne (e : Terms I X) (a b : I) :
    coeff (e.filter (fun t => decide (t.1 ≠ a))) b = if b = a then 0 else coeff e b := by
  induction e with
  | nil => simp
  | cons t e ih =>
    by_cases h : t.1 = a
    · rw [List.filter_cons_of_neg (by simp [h]), ih, coeff_cons]
      by_cases hb : b = a
      · simp [hb]
      · have : ¬ a = b := fun e => hb e.symm
        simp [hb, h, this]
    · rw [List.filter_cons_of_pos (by simp [h]), coeff_cons, coeff_cons, ih]
      by_cases hb : b = a
      · simp [hb, h]
      · simp [hb]

/-- The value depends on the map only. -/
theorem value_of_coeff (m : I → X) (e f : Terms I X) (h : coeff e = coeff f) :
    value m e = value m f := by
  -- remove the indices occurring in either list one at a time
  have key : ∀ (n : Nat) (e f : Terms I X), e.length + f.length ≤ n → coeff e = coeff f →
      value m e = value m f := by
    intro n
    induction n with
    | zero =>
      intro e f hn _
      have h1 : e = [] := List.eq_nil_of_length_eq_zero (by omega)
      have h2 : f = [] := List.eq_nil_of_length_eq_zero (by omega)
      rw [h1, h2]
    | succ n ih =>
      have main : ∀ (a : I) (e f : Terms I X), e.length + f.length ≤ n + 1 → coeff e = coeff f →
          (∃ t ∈ e ++ f, t.1 = a) → value m e = value m f := by
        intro a e f hn h hmem
        rw [value_filter_ne m e a, value_filter_ne m f a, h]
        congr 1
        apply ih
        · rw [← List.length_append, ← List.filter_append]
          obtain ⟨t, ht, hta⟩ := hmem
          have hlt : ((e ++ f).filter (fun t => decide (t.1 ≠ a))).length < (e ++ f).length := by
            apply List.length_filter_lt_length_iff_exists.2
            exact ⟨t, ht, by simp [hta]⟩
          rw [List.length_append] at hlt
          omega
        · funext b
          rw [coeff_filter_ne, coeff_filter_ne, h]
      intro e f hn h
      cases e with
      | cons t ts => exact main t.1 _ _ hn h ⟨t, by simp, rfl⟩
      | nil =>
        cases f with
        | cons u us => exact main u.1 _ _ hn h ⟨u, by simp, rfl⟩
        | nil => rfl
  exact key _ e f (le_refl _) h

/-- **C23** (values): the operations that tidy up an expansion never change its value at any point:
removing zeros, combining terms, and sorting by any permutation. -/
theorem C23_value [DecidableEq X] (m : I → X) (e e' : Terms I X) (hperm : e'.Perm e) :
    value m (removeZeros e) = value m e ∧ value m (combineTerms e) = value m e ∧
      value m e' = value m e :=
  ⟨value_of_coeff m _ _ (C23_remove_zeros (fun _ _ => true) e).1,
    value_of_coeff m _ _ (funext (coeff_combineF _ e (le_refl _))), value_perm m hperm⟩

/-- **C23** (equality and values): expansions reported equal have the same value at every point. -/
theorem C23_equal_values [DecidableEq X] {lt : I → I → Bool} (hlt : Strict lt) (e f : Terms I X)
    (he : Sorted lt e) (hf : Sorted lt f) (h : seq lt e f = some true) (m : I → X) :
    value m e = value m f := by
  obtain ⟨b, h1, h2⟩ := C23_equality hlt e f he hf
  rw [h] at h1
  cases h1
  exact value_of_coeff m _ _ (h2.1 rfl)

end Value

example : value (monomial [2, (3 : Int)]) [([1, 1], 5), ([0, 2], 1), ([1, 1], -4)] = 15 ∧
    value (monomial [2, (3 : Int)]) (combineTerms [([1, 1], 5), ([1, 1], -4), ([0, 2], 1)]) = 15 := by
  decide

section Embed
variable [CommSemiring X]

theorem monomial_append (x y : List X) (a b : List Nat) (h : x.length = a.length) :
    monomial (x ++ y) (a ++ b) = monomial x a * monomial y b := by
  unfold monomial
  rw [List.zipWith_append h, List.prod_append]

theorem monomial_zero (x : List X) (n : Nat) : monomial x (List.replicate n 0) = 1 := by
  unfold monomial
  induction x generalizing n with
  | nil => simp
  | cons y x ih =>
    cases n with
    | zero => simp
    | succ n => simp [List.replicate_succ, ih]

/-- **C23** (embed): an expansion embedded in a space with further variables before and after has
the value of the original at the corresponding coordinates. -/
theorem C23_embed (n : Nat) (e : Terms (List Nat) X) (he : ∀ t ∈ e, t.1.length = n)
    (x y z : List X) (hy : y.length = n) :
    value (monomial (x ++ y ++ z)) (embed x.length z.length e) = value (monomial y) e := by
  have key : ∀ (e : Terms (List Nat) X) (r : Terms (List Nat) X),
      e.foldl (fun r t => append r
        (List.replicate x.length 0 ++ t.1 ++ List.replicate z.length 0) t.2) r
      = r ++ e.map (fun t =>
        (List.replicate x.length 0 ++ t.1 ++ List.replicate z.length 0, t.2)) := by
    intro e
    induction e with
    | nil => intro r; simp
    | cons t e ih => intro r; rw [List.foldl_cons, ih]; simp [append]
  unfold embed
  rw [key e [], List.nil_append]
  unfold value
  rw [List.map_map]
  congr 1
  apply List.map_congr_left
  intro t ht
  simp only [Function.comp_apply]
  rw [monomial_append _ _ _ _ (by simp [he t ht, hy]),
    monomial_append _ _ _ _ (by simp), monomial_zero, monomial_zero]
  ring

end Embed

example : embed 1 2 [([1, 3], (5 : Int))] = [([0, 1, 3, 0, 0], 5)] := by decide

end Verif.Expansion
