import Mathlib.Data.List.Basic
import Mathlib.Order.Basic
import Mathlib.Tactic.Linarith
import Mathlib.Tactic.Ring
import Mathlib.Tactic.SplitIfs
import Mathlib.Algebra.BigOperators.Group.List.Basic

/-!
# Multi-indices and monomial orders

Model of `source/algebra/multi_index.hpp`, `source/algebra/multi_index.inl.hpp` and
`source/algebra/multi_index.cpp`.  A multi-index is the list of its exponents.  The exponents are
of type `DegreeType = std::uint16_t` (`source/utility/typedefs.hpp` line 119), so every sum is taken
modulo `2^16`.
-/

namespace Verif.Expansion

/-- Storing a number in a `DegreeType`, `source/utility/typedefs.hpp` line 119
(`typedef std::uint16_t DegreeType`). -/
def wrap (n : Nat) : Nat := n % 65536

/-- `MultiIndexData::degree()`, `multi_index.inl.hpp` line 35: the sum is accumulated in a
`DegreeType`. -/
def degree (a : List Nat) : Nat := a.foldl (fun d x => wrap (d + x)) 0

/-- `operator==(MultiIndexData,MultiIndexData)`, `multi_index.inl.hpp` lines 50-51. -/
def eqIndex : List Nat → List Nat → Bool
  | [], [] => true
  | x :: xs, y :: ys => if x ≠ y then false else eqIndex xs ys
  | _, _ => false

/-- The loop over components in `graded_less`, `multi_index.inl.hpp` line 57; the first difference
decides and the *larger* component comes first. -/
def firstGreater : List Nat → List Nat → Bool
  | x :: xs, y :: ys => if x ≠ y then decide (x > y) else firstGreater xs ys
  | _, _ => false

/-- `graded_less`, `multi_index.inl.hpp` lines 55-57, on indices of equal size (the assertion on
line 56 is the hypothesis of the theorems). -/
def gradedLess (a b : List Nat) : Bool :=
  if degree a ≠ degree b then decide (degree a < degree b) else firstGreater a b

/-- `lexicographic_less`, `multi_index.inl.hpp` lines 58-59. -/
def lexLess : List Nat → List Nat → Bool
  | x :: xs, y :: ys => if x ≠ y then decide (x < y) else lexLess xs ys
  | _, _ => false

/-- `reverse_lexicographic_less`, `multi_index.inl.hpp` lines 60-61: the loop runs down from the last
component and the larger component comes first.  The downward loop is written as the upward loop
on the reversed list. -/
def revLexLess (a b : List Nat) : Bool := firstGreater a.reverse b.reverse

/-- `MultiIndex::operator+=`, `multi_index.inl.hpp` line 85; sums are stored in a `DegreeType`. -/
def addIndex (a b : List Nat) : List Nat := List.zipWith (fun x y => wrap (x + y)) a b

/-- `MultiIndex::operator-=`, `multi_index.inl.hpp` line 86; `none` is the failed assertion. -/
def subIndex : List Nat → List Nat → Option (List Nat)
  | [], [] => some []
  | x :: xs, y :: ys => if x ≥ y then (subIndex xs ys).map (fun r => (x - y) :: r) else none
  | _, _ => none

/-- The possible effects of `MultiIndex::operator++`: the new components, together with whether the
object was written only inside the array holding the components. -/
inductive Incr where
  | ok (a : List Nat)
  /-- The components are `a`, but the word *after* the array was incremented as well; the array
  has `max(n,1)` words (`multi_index.inl.hpp` line 68), so this is undefined behaviour. -/
  | overrun (a : List Nat)
  /-- `assert(_n>0)` failed. -/
  | failed
  deriving DecidableEq, Repr

/-- The downward loop of `MultiIndex::operator++`, `multi_index.cpp` line 37; `p` is the array after
the last component was cleared and the argument is `k`. -/
def incrLoop (p : List Nat) (li : Nat) : Nat → Option (List Nat)
  | 0 => none
  | k + 1 =>
    if p.getD k 0 ≠ 0 then some ((p.set k (p.getD k 0 - 1)).set (k + 1) (wrap (li + 1)))
    else incrLoop p li k

/-- `MultiIndex::operator++`, `multi_index.cpp` lines 31-41. -/
def incr (p : List Nat) : Incr :=
  let n := p.length
  if n = 0 then .failed
  else if n = 1 then .overrun (p.set 0 (wrap (p.getD 0 0 + 1)))
  else if p.getD (n - 2) 0 ≠ 0 then
    .ok ((p.set (n - 2) (p.getD (n - 2) 0 - 1)).set (n - 1) (wrap (p.getD (n - 1) 0 + 1)))
  else
    let li := p.getD (n - 1) 0
    let q := p.set (n - 1) 0
    match incrLoop q li (n - 1) with
    | some r => .ok r
    | none => .overrun (q.set 0 (wrap (li + 1)))

/-- The components of an index after `++`, whether or not the write was in bounds. -/
def Incr.components : Incr → List Nat
  | .ok a => a
  | .overrun a => a
  | .failed => []

/-! ## Basic facts -/

theorem eqIndex_iff (a b : List Nat) : eqIndex a b = true ↔ a = b := by
  induction a generalizing b with
  | nil => cases b <;> simp [eqIndex]
  | cons x xs ih =>
    cases b with
    | nil => simp [eqIndex]
    | cons y ys =>
      by_cases h : x = y
      · simp [eqIndex, h, ih]
      · simp [eqIndex, h]

theorem degree_foldl (a : List Nat) (d : Nat) :
    a.foldl (fun d x => wrap (d + x)) d = if a = [] then d else wrap (d + a.sum) := by
  induction a generalizing d with
  | nil => simp
  | cons x xs ih =>
    simp only [List.foldl_cons, ih, List.sum_cons, reduceCtorEq, if_false]
    split_ifs with h
    · simp [h]
    · rw [wrap, wrap, wrap, Nat.mod_add_mod, Nat.add_assoc]

theorem degree_eq (a : List Nat) : degree a = wrap a.sum := by
  unfold degree
  rw [degree_foldl]
  split_ifs with h <;> simp [h, wrap]

theorem firstGreater_irrefl (a : List Nat) : firstGreater a a = false := by
  induction a with
  | nil => rfl
  | cons x xs ih => simp [firstGreater, ih]

theorem firstGreater_trans {a b c : List Nat} (hab : firstGreater a b = true)
    (hbc : firstGreater b c = true) : firstGreater a c = true := by
  induction a generalizing b c with
  | nil => simp [firstGreater] at hab
  | cons x xs ih =>
    cases b with
    | nil => simp [firstGreater] at hab
    | cons y ys =>
      cases c with
      | nil => simp [firstGreater] at hbc
      | cons z zs =>
        simp only [firstGreater] at hab hbc ⊢
        by_cases hxy : x = y
        · by_cases hyz : y = z
          · simp only [hxy, hyz, ne_eq, not_true_eq_false, if_false] at hab hbc ⊢
            exact ih hab hbc
          · subst hxy
            simpa [hyz] using hbc
        · by_cases hyz : y = z
          · subst hyz
            simpa [hxy] using hab
          · simp only [ne_eq, hxy, not_false_eq_true, if_true, hyz, decide_eq_true_eq] at hab hbc
            have : x ≠ z := by omega
            simp only [ne_eq, this, not_false_eq_true, if_true, decide_eq_true_eq]
            omega

theorem firstGreater_total {a b : List Nat} (h : a.length = b.length) :
    firstGreater a b = true ∨ a = b ∨ firstGreater b a = true := by
  induction a generalizing b with
  | nil =>
    cases b with
    | nil => simp
    | cons y ys => simp at h
  | cons x xs ih =>
    cases b with
    | nil => simp at h
    | cons y ys =>
      by_cases hxy : x = y
      · subst hxy
        have := ih (b := ys) (by simpa using h)
        simpa [firstGreater] using this
      · have hyx : y ≠ x := fun e => hxy e.symm
        simp only [firstGreater, ne_eq, hxy, hyx, not_false_eq_true, if_true, decide_eq_true_eq]
        omega

theorem lexLess_eq (a b : List Nat) : lexLess a b = firstGreater b a := by
  induction a generalizing b with
  | nil => cases b <;> rfl
  | cons x xs ih =>
    cases b with
    | nil => rfl
    | cons y ys =>
      by_cases h : x = y
      · simp [lexLess, firstGreater, h, ih]
      · have h' : y ≠ x := fun e => h e.symm
        simp [lexLess, firstGreater, h, h']

theorem firstGreater_zipWith {a b c : List Nat} (hab : a.length = b.length)
    (hac : a.length = c.length) :
    firstGreater (List.zipWith (· + ·) a c) (List.zipWith (· + ·) b c) = firstGreater a b := by
  induction a generalizing b c with
  | nil => simp [firstGreater]
  | cons x xs ih =>
    cases b with
    | nil => simp at hab
    | cons y ys =>
      cases c with
      | nil => simp at hac
      | cons z zs =>
        simp only [List.zipWith_cons_cons, firstGreater]
        have := ih (b := ys) (c := zs) (by simpa using hab) (by simpa using hac)
        by_cases h : x = y
        · simp [h, this]
        · have h' : x + z ≠ y + z := by omega
          simp [h]

theorem sum_zipWith {a c : List Nat} (hac : a.length = c.length) :
    (List.zipWith (· + ·) a c).sum = a.sum + c.sum := by
  induction a generalizing c with
  | nil => cases c <;> simp at hac ⊢
  | cons x xs ih =>
    cases c with
    | nil => simp at hac
    | cons z zs =>
      simp only [List.zipWith_cons_cons, List.sum_cons, ih (c := zs) (by simpa using hac)]
      omega

theorem addIndex_eq {a b : List Nat} (hab : a.length = b.length) (hs : a.sum + b.sum < 65536) :
    addIndex a b = List.zipWith (· + ·) a b := by
  induction a generalizing b with
  | nil => simp [addIndex]
  | cons x xs ih =>
    cases b with
    | nil => simp at hab
    | cons y ys =>
      simp only [List.sum_cons] at hs
      have := ih (b := ys) (by simpa using hab) (by omega)
      simp only [addIndex, List.zipWith_cons_cons] at this ⊢
      rw [this, wrap, Nat.mod_eq_of_lt (by omega)]

/-! ## The successor in the graded order -/

/-- The successor of an index among the indices with the same sum: an independent recursive
definition used as a stepping stone. -/
def next : List Nat → Option (List Nat)
  | [] => none
  | [_] => none
  | x :: y :: ys =>
    match next (y :: ys) with
    | some r => some (x :: r)
    | none =>
      if x = 0 then none
      else some ((x - 1) :: ((y :: ys).sum + 1) :: List.replicate ys.length 0)

theorem firstGreater_replicate_zero (b : List Nat) (n : Nat) (hs : b.sum = 0) :
    firstGreater b (List.replicate n 0) = false ∧ firstGreater (List.replicate n 0) b = false := by
  induction b generalizing n with
  | nil => cases n <;> simp [firstGreater, List.replicate_succ]
  | cons x xs ih =>
    cases n with
    | zero => simp [firstGreater]
    | succ n =>
      simp only [List.sum_cons] at hs
      have hx : x = 0 := by omega
      have := ih n (by omega)
      simpa [firstGreater, List.replicate_succ, hx] using this

theorem firstGreater_max_first {b : List Nat} {m k : Nat} (hs : b.sum = m)
    (hlen : b.length = k + 1) :
    b = m :: List.replicate k 0 ∨ firstGreater (m :: List.replicate k 0) b = true := by
  have h := firstGreater_total (a := m :: List.replicate k 0) (b := b) (by simp [hlen])
  rcases h with h | h | h
  · exact .inr h
  · exact .inl h.symm
  · exfalso
    cases b with
    | nil => simp at hlen
    | cons y ys =>
      simp only [List.sum_cons] at hs
      simp only [firstGreater] at h
      by_cases hy : y = m
      · have hz : ys.sum = 0 := by omega
        simp [hy, (firstGreater_replicate_zero ys k hz).1] at h
      · simp [hy] at h
        omega

theorem next_none {a : List Nat} (h : next a = none) :
    ∀ b : List Nat, b.length = a.length → b.sum = a.sum → firstGreater a b = false := by
  induction a with
  | nil => intro b _ _; simp [firstGreater]
  | cons x xs ih =>
    intro b hb hs
    cases b with
    | nil => simp at hb
    | cons y ys =>
      cases xs with
      | nil =>
        have : ys = [] := by simpa using hb
        subst this
        simp at hs
        simp [firstGreater, hs]
      | cons x' xs' =>
        simp only [next] at h
        cases hn : next (x' :: xs') with
        | some r => simp [hn] at h
        | none =>
          simp only [hn] at h
          by_cases hx : x = 0
          · by_cases hxy : x = y
            · simp only [List.sum_cons, hxy] at hs
              have := ih hn ys (by simpa using hb) (by simp only [List.sum_cons]; omega)
              simp [firstGreater, hxy, this]
            · have : ¬ x > y := by omega
              simp [firstGreater, hxy, this]
          · simp [hx] at h

theorem next_some {a s : List Nat} (h : next a = some s) :
    s.length = a.length ∧ s.sum = a.sum ∧ firstGreater a s = true ∧
      ∀ b : List Nat, b.length = a.length → b.sum = a.sum → firstGreater a b = true →
        b = s ∨ firstGreater s b = true := by
  induction a generalizing s with
  | nil => simp [next] at h
  | cons x xs ih =>
    cases xs with
    | nil => simp [next] at h
    | cons x' xs' =>
      simp only [next] at h
      cases hn : next (x' :: xs') with
      | some r =>
        simp only [hn, Option.some.injEq] at h
        subst h
        obtain ⟨h1, h2, h3, h4⟩ := ih hn
        refine ⟨by simpa using h1, by simp only [List.sum_cons] at h2 ⊢; omega,
          by simpa [firstGreater] using h3, ?_⟩
        intro b hb hs hab
        cases b with
        | nil => simp at hb
        | cons y ys =>
          by_cases hxy : x = y
          · subst hxy
            have := h4 ys (by simpa using hb) (by simp only [List.sum_cons] at hs ⊢; omega)
              (by simpa [firstGreater] using hab)
            simpa [firstGreater] using this
          · right
            simpa [firstGreater, hxy] using hab
      | none =>
        simp only [hn] at h
        by_cases hx : x = 0
        · simp [hx] at h
        · simp only [hx, if_false, Option.some.injEq] at h
          subst h
          refine ⟨by simp, by simp; omega, ?_, ?_⟩
          · have : x ≠ x - 1 := by omega
            simp [firstGreater, this]
            omega
          · intro b hb hs hab
            cases b with
            | nil => simp at hb
            | cons y ys =>
              simp only [firstGreater] at hab
              by_cases hxy : x = y
              · exfalso
                simp only [List.sum_cons, hxy] at hs
                have := next_none hn ys (by simpa using hb)
                  (by simp only [List.sum_cons]; omega)
                simp [hxy, this] at hab
              · simp only [ne_eq, hxy, not_false_eq_true, if_true, decide_eq_true_eq] at hab
                by_cases hy : y = x - 1
                · subst hy
                  have hs' : ys.sum = (x' :: xs').sum + 1 := by
                    simp only [List.sum_cons] at hs ⊢; omega
                  have := firstGreater_max_first hs' (k := xs'.length) (by simpa using hb)
                  simpa [firstGreater] using this
                · right
                  have h1 : x - 1 ≠ y := fun e => hy e.symm
                  simp [firstGreater, h1]
                  omega

/-- The downward loop on a list with one more leading component. -/
theorem incrLoop_cons (x : Nat) (xs : List Nat) (li k : Nat) :
    incrLoop (x :: xs) li (k + 1) =
      match incrLoop xs li k with
      | some r => some (x :: r)
      | none => if x ≠ 0 then some ((x - 1) :: xs.set 0 (wrap (li + 1))) else none := by
  induction k with
  | zero => simp [incrLoop]
  | succ k ih =>
    rw [incrLoop]
    simp only [List.getD_cons_succ]
    by_cases h : xs.getD k 0 = 0
    · rw [if_neg (by simpa using h), ih]
      rw [show incrLoop xs li (k + 1) = incrLoop xs li k by
        rw [incrLoop, if_neg (by simpa using h)]]
    · rw [if_pos h]
      rw [show incrLoop xs li (k + 1)
        = some ((xs.set k (xs.getD k 0 - 1)).set (k + 1) (wrap (li + 1))) by
          rw [incrLoop, if_pos h]]
      simp

theorem next_none_iff (a : List Nat) : next a = none ↔ ∀ i, i + 1 < a.length → a.getD i 0 = 0 := by
  induction a with
  | nil => simp [next]
  | cons x xs ih =>
    cases xs with
    | nil => simp [next]
    | cons y ys =>
      simp only [next]
      constructor
      · intro h i hi
        cases hn : next (y :: ys) with
        | some r => simp [hn] at h
        | none =>
          simp only [hn] at h
          have hx : x = 0 := by
            by_contra hx; simp [hx] at h
          cases i with
          | zero => simpa using hx
          | succ i =>
            rw [List.getD_cons_succ]
            exact ih.1 hn i (by simpa using hi)
      · intro h
        have hn : next (y :: ys) = none := by
          rw [ih]
          intro i hi
          have := h (i + 1) (by simpa using hi)
          simpa using this
        have hx : x = 0 := by simpa using h 0 (by simp)
        simp [hn, hx]

/-- When every component but the last vanishes, the sum is the last component. -/
theorem sum_of_next_none {a : List Nat} (h : next a = none) :
    a.sum = a.getD (a.length - 1) 0 := by
  induction a with
  | nil => rfl
  | cons x xs ih =>
    cases xs with
    | nil => simp
    | cons y ys =>
      have h' := (next_none_iff _).1 h
      have hx : x = 0 := by simpa using h' 0 (by simp)
      have hn : next (y :: ys) = none := by
        rw [next_none_iff]
        intro i hi
        simpa using h' (i + 1) (by simpa using hi)
      have := ih hn
      simp only [List.length_cons, Nat.add_sub_cancel, List.getD_cons_succ, List.sum_cons] at this ⊢
      omega

theorem set_last_of_next_none {a : List Nat} (h : next a = none) :
    a.set (a.length - 1) 0 = List.replicate a.length 0 := by
  induction a with
  | nil => rfl
  | cons x xs ih =>
    cases xs with
    | nil => simp
    | cons y ys =>
      have h' := (next_none_iff _).1 h
      have hx : x = 0 := by simpa using h' 0 (by simp)
      have hn : next (y :: ys) = none := by
        rw [next_none_iff]
        intro i hi
        simpa using h' (i + 1) (by simpa using hi)
      have := ih hn
      simp only [List.length_cons, Nat.add_sub_cancel] at this ⊢
      rw [List.set_cons_succ, this, hx]
      rfl

theorem incrLoop_eq_next {a : List Nat} (hne : a ≠ [])
    (hs : a.getD (a.length - 1) 0 + 1 < 65536) :
    incrLoop (a.set (a.length - 1) 0) (a.getD (a.length - 1) 0) (a.length - 1) = next a := by
  induction a with
  | nil => exact absurd rfl hne
  | cons x xs ih =>
    cases xs with
    | nil => simp [incrLoop, next]
    | cons y ys =>
      have e := ih (by simp) (by simpa using hs)
      simp only [List.length_cons, Nat.add_sub_cancel] at e ⊢ hs
      rw [List.set_cons_succ, incrLoop_cons]
      simp only [List.getD_cons_succ] at hs ⊢
      rw [e]
      simp only [next]
      cases hn : next (y :: ys) with
      | some r => rfl
      | none =>
        have e1 := set_last_of_next_none hn
        have e2 := sum_of_next_none hn
        simp only [List.length_cons, Nat.add_sub_cancel] at e1 e2
        simp only [e1, e2, wrap, Nat.mod_eq_of_lt hs]
        by_cases hx : x = 0
        · simp [hx]
        · simp [hx, List.replicate_succ]

/-- The fast path of `++` (`multi_index.cpp` line 34) agrees with the general loop. -/
theorem incr_fast {a : List Nat} (hn : 2 ≤ a.length) (h : a.getD (a.length - 2) 0 ≠ 0) :
    (a.set (a.length - 2) (a.getD (a.length - 2) 0 - 1)).set (a.length - 1)
        (wrap (a.getD (a.length - 1) 0 + 1)) =
      ((a.set (a.length - 1) 0).set (a.length - 2) (a.getD (a.length - 2) 0 - 1)).set
        (a.length - 1) (wrap (a.getD (a.length - 1) 0 + 1)) := by
  have hne : a.length - 1 ≠ a.length - 2 := by omega
  rw [List.set_comm _ _ hne, List.set_set]

/-- The effect of `++` in terms of the recursive successor. -/
theorem incr_eq {a : List Nat} (hne : a ≠ []) (hs : a.getD (a.length - 1) 0 + 1 < 65536) :
    incr a = match next a with
      | some r => .ok r
      | none => .overrun ((a.sum + 1) :: List.replicate (a.length - 1) 0) := by
  have hl : a.length ≠ 0 := by simpa using hne
  unfold incr
  simp only [hl, if_false]
  by_cases h1 : a.length = 1
  · obtain ⟨x, rfl⟩ := List.length_eq_one_iff.1 h1
    simp only [List.length_singleton, Nat.sub_self, List.getD_cons_zero] at hs
    simp [next, wrap, Nat.mod_eq_of_lt hs]
  · simp only [h1, if_false]
    have e := incrLoop_eq_next hne hs
    by_cases h2 : a.getD (a.length - 2) 0 = 0
    · simp only [h2, ne_eq, not_true_eq_false, if_false]
      rw [e]
      cases hn : next a with
      | some r => rfl
      | none =>
        simp only
        rw [set_last_of_next_none hn, ← sum_of_next_none hn, wrap,
          Nat.mod_eq_of_lt (by rw [sum_of_next_none hn]; exact hs)]
        obtain ⟨m, hm⟩ : ∃ m, a.length = m + 1 := ⟨a.length - 1, by omega⟩
        rw [hm]
        simp [List.replicate_succ]
    · rw [if_pos h2, incr_fast (by omega) h2]
      have h3 : a.length - 1 = (a.length - 2) + 1 := by omega
      rw [← e]
      have hg : (a.set (a.length - 1) 0).getD (a.length - 2) 0 = a.getD (a.length - 2) 0 := by
        rw [List.getD_eq_getElem?_getD, List.getElem?_set_ne (by omega),
          List.getD_eq_getElem?_getD]
      conv => rhs; rw [h3]
      simp only [incrLoop]
      rw [← h3, hg, if_pos h2]

end Verif.Expansion
