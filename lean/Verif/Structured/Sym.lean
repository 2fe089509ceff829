import Verif.Structured.Model
import Verif.Matrix.Props
import Mathlib.Tactic.Linarith
import Mathlib.Tactic.Ring
import Mathlib.Algebra.Ring.Parity
import Mathlib.Algebra.BigOperators.Intervals

/-!
# C98: symmetric matrices
-/

namespace Verif.Structured

open Verif.Matrix (Encl Ops)

variable {X : Type*}

/-! ## Positions in the packed array -/

theorem double_row {n i : ℕ} (h : i < n) : 2 * (i * (2 * n - i - 1) / 2) = i * (2 * n - i - 1) := by
  apply Nat.two_mul_div_two_of_even
  rcases Nat.even_or_odd i with h' | h'
  · exact h'.mul_right _
  · refine Even.mul_left ?_ _
    obtain ⟨k, rfl⟩ := h'
    exact ⟨n - k - 1, by omega⟩

theorem double_size (n : ℕ) : 2 * (n * (n + 1) / 2) = n * (n + 1) :=
  Nat.two_mul_div_two_of_even (Nat.even_mul_succ_self n)

theorem double_fast {n i j : ℕ} (h : i < n) :
    (2 * (fastPosition n i j : ℕ) : ℤ) = i * (2 * n - i - 1) + 2 * j := by
  have h1 := double_row h
  have h2 : ((2 * n - i - 1 : ℕ) : ℤ) = 2 * n - i - 1 := by omega
  unfold fastPosition
  push_cast [← h2] at h1 ⊢
  have h3 : (2 * ((i * (2 * n - i - 1) / 2 : ℕ) : ℤ)) = (i : ℤ) * ((2 * n - i - 1 : ℕ) : ℤ) := by
    exact_mod_cast h1
  push_cast at h3
  linarith

theorem fast_lt {n i j : ℕ} (h : i ≤ j) (hj : j < n) : fastPosition n i j < n * (n + 1) / 2 := by
  have h1 := double_fast (n := n) (i := i) (j := j) (by omega)
  have h2 : (2 * ((n * (n + 1) / 2 : ℕ) : ℤ)) = n * (n + 1) := by exact_mod_cast double_size n
  zify at h hj ⊢
  have h3 : (i : ℤ) * (2 * n - i - 1) + 2 * j < n * (n + 1) := by nlinarith
  have : (2 * (fastPosition n i j : ℕ) : ℤ) < 2 * ((n * (n + 1) / 2 : ℕ) : ℤ) := by rw [h1, h2]; exact h3
  push_cast at this
  linarith

theorem fast_row {n i j k l : ℕ} (hj : j < n) (hij : i ≤ j) (hkl : k ≤ l) (hl : l < n) (h : i < k) :
    fastPosition n i j < fastPosition n k l := by
  have h1 := double_fast (n := n) (i := i) (j := j) (by omega)
  have h2 := double_fast (n := n) (i := k) (j := l) (by omega)
  zify at *
  have h3 : (i : ℤ) * (2 * n - i - 1) + 2 * j < k * (2 * n - k - 1) + 2 * l := by
    nlinarith [mul_nonneg (show (0 : ℤ) ≤ k - (i + 1) by linarith) (show (0 : ℤ) ≤ 2 * n + 1 - k - (i + 1) by linarith)]
  linarith

theorem fast_inj {n i j k l : ℕ} (hij : i ≤ j) (hj : j < n) (hkl : k ≤ l) (hl : l < n)
    (h : fastPosition n i j = fastPosition n k l) : i = k ∧ j = l := by
  rcases lt_trichotomy i k with h1 | h1 | h1
  · exact absurd h (fast_row hj hij hkl hl h1).ne
  · subst h1
    exact ⟨rfl, by unfold fastPosition at h; omega⟩
  · exact absurd h.symm (fast_row hl hkl hij hj h1).ne

theorem fast_surj {n p : ℕ} (h : p < n * (n + 1) / 2) : ∃ i j, i ≤ j ∧ j < n ∧ fastPosition n i j = p := by
  have key : ∀ i ≤ n, (2 * p : ℤ) < i * (2 * n - i + 1) → ∃ i j, i ≤ j ∧ j < n ∧ fastPosition n i j = p := by
    intro i
    induction i with
    | zero => intro _ h; simp at h; omega
    | succ i ih =>
      intro hi h
      by_cases h1 : (2 * p : ℤ) < i * (2 * n - i + 1)
      · exact ih (by omega) h1
      · have h2 := double_fast (n := n) (i := i) (j := i) (by omega)
        have h3 : (fastPosition n i i : ℤ) ≤ p := by push_cast at h2; nlinarith
        have h4 : (p : ℤ) < fastPosition n i i + (n - i) := by push_cast at h h2; nlinarith
        refine ⟨i, i + (p - fastPosition n i i), by omega, by omega, ?_⟩
        have h5 : fastPosition n i (i + (p - fastPosition n i i)) = fastPosition n i i + (p - fastPosition n i i) := by
          simp only [fastPosition]; omega
        omega
  refine key n le_rfl ?_
  have h2 : (2 * ((n * (n + 1) / 2 : ℕ) : ℤ)) = n * (n + 1) := by exact_mod_cast double_size n
  have h3 : (p : ℤ) < ((n * (n + 1) / 2 : ℕ) : ℤ) := by exact_mod_cast h
  nlinarith

theorem position_comm (n i j : ℕ) : position n i j = position n j i := by
  unfold position
  split_ifs with h1 h2
  · rw [le_antisymm h1 h2]
  · rfl
  · rfl
  · omega

/-- **C98** Entries inside the matrix are inside the array, and two entries are stored at the same place
exactly if they are the same or mirror images. -/
theorem C98_positions {n i j k l : ℕ} (hi : i < n) (hj : j < n) (hk : k < n) (hl : l < n) :
    position n i j < n * (n + 1) / 2 ∧
      (position n i j = position n k l ↔ (i = k ∧ j = l) ∨ (i = l ∧ j = k)) := by
  have lt : ∀ {i j}, i < n → j < n → position n i j < n * (n + 1) / 2 := by
    intro i j hi hj
    unfold position
    split_ifs with h
    · exact fast_lt h hj
    · exact fast_lt (by omega) hi
  refine ⟨lt hi hj, ?_, ?_⟩
  · intro h
    unfold position at h
    split_ifs at h with h1 h2 h2
    · exact Or.inl (fast_inj h1 hj h2 hl h)
    · exact Or.inr (fast_inj h1 hj (by omega) hk h)
    · have := fast_inj (by omega) hi h2 hl h; exact Or.inr ⟨this.2, this.1⟩
    · have := fast_inj (by omega) hi (by omega) hk h; exact Or.inl ⟨this.2, this.1⟩
  · rintro (⟨rfl, rfl⟩ | ⟨rfl, rfl⟩)
    · rfl
    · exact position_comm _ _ _

/-! ## The matrix represented -/

/-- spec: `S` holds the entries `A` of an `n` by `n` matrix. -/
structure Holds (S : Sym X) (n : ℕ) (A : ℕ → ℕ → X) : Prop where
  size : S.s = n
  length : S.ary.length = n * (n + 1) / 2
  at_eq : ∀ i < n, ∀ j < n, S.at i j = some (A i j)

variable {S T : Sym X} {n : ℕ} {A B : ℕ → ℕ → X}

/-- **C98** Whatever the array, the matrix is symmetric; a matrix of the right length holds some entries. -/
theorem C98_symmetric (i j : ℕ) : S.at i j = S.at j i := by
  unfold Sym.at; rw [position_comm]

theorem holds_of_length (hs : S.s = n) (h : S.ary.length = n * (n + 1) / 2) (z : X) :
    Holds S n fun i j => (S.at i j).getD z := by
  refine ⟨hs, h, fun i hi j hj => ?_⟩
  have := (C98_positions hi hj hi hj).1
  simp only [Sym.at, hs]
  rw [List.getElem?_eq_getElem (by omega)]
  simp

/-- The entries determine the matrix. -/
theorem holds_unique (hS : Holds S n A) (hT : Holds T n B) (h : ∀ i < n, ∀ j < n, A i j = B i j) : S = T := by
  obtain ⟨s, a⟩ := S
  obtain ⟨t, b⟩ := T
  have e1 : s = n := hS.size
  have e2 : t = n := hT.size
  subst e1
  subst e2
  simp only [Sym.mk.injEq, true_and]
  have hl := hS.length
  have hl' := hT.length
  simp only at hl hl'
  refine List.ext_getElem? fun p => ?_
  by_cases hp : p < t * (t + 1) / 2
  · obtain ⟨i, j, hij, hj, rfl⟩ := fast_surj hp
    have h1 := hS.at_eq i (by omega) j hj
    have h2 := hT.at_eq i (by omega) j hj
    simp only [Sym.at, position, if_pos hij] at h1 h2
    rw [h1, h2, h i (by omega) j hj]
  · rw [List.getElem?_eq_none (by omega), List.getElem?_eq_none (by omega)]

/-- **C98** Constant matrices. -/
theorem C98_filled (n : ℕ) (z : X) : Holds (Sym.filled n z) n fun _ _ => z := by
  refine ⟨rfl, by simp [Sym.filled], fun i hi j hj => ?_⟩
  have := (C98_positions hi hj hi hj).1
  simp only [Sym.at, Sym.filled]
  rw [List.getElem?_replicate, if_pos this]

/-- **C98** Setting an entry sets it and its mirror image, and no other. -/
theorem C98_set (h : Holds S n A) {i j : ℕ} (hi : i < n) (hj : j < n) (x : X) :
    ∃ S', S.set i j x = some S' ∧ Holds S' n fun k l =>
      if (k = i ∧ l = j) ∨ (k = j ∧ l = i) then x else A k l := by
  have hp := (C98_positions hi hj hi hj).1
  refine ⟨⟨S.s, S.ary.set (position S.s i j) x⟩,
    by rw [Sym.set, if_pos (by rw [h.size, h.length]; exact hp)], h.size, by simp [h.length], ?_⟩
  intro k hk l hl
  have h1 := (C98_positions hi hj hk hl).2
  simp only [Sym.at]
  rw [List.getElem?_set]
  split_ifs with h2 h3 h4 h5
  · rfl
  · exfalso; rw [h.size] at h2; have := h1.1 h2; omega
  · exfalso; rw [h.size, h.length] at h3; exact h3 hp
  · exfalso; apply h2; rw [h.size]; exact h1.2 (by omega)
  · exact h.at_eq k hk l hl

/-- Filling gives the values at the indices visited, and keeps the others. -/
theorem fill_holds (v : ℕ → ℕ → X) (l : List (ℕ × ℕ)) (hl : ∀ p ∈ l, p.1 ≤ p.2 ∧ p.2 < n) (h : Holds S n A) :
    ∃ S', Sym.fill v l S = some S' ∧ Holds S' n fun i j =>
      if (min i j, max i j) ∈ l then v (min i j) (max i j) else A i j := by
  induction l generalizing S A with
  | nil => exact ⟨S, rfl, by simpa using h⟩
  | cons p l ih =>
    have hp := hl p (by simp)
    obtain ⟨S1, h1, h2⟩ := C98_set h (i := p.1) (j := p.2) (by omega) hp.2 (v p.1 p.2)
    obtain ⟨S2, h3, h4⟩ := ih (fun q hq => hl q (by simp [hq])) h2
    refine ⟨S2, by simp only [Sym.fill, List.foldlM_cons, h1] at h3 ⊢; exact h3, h4.size, h4.length, ?_⟩
    intro i hi j hj
    rw [h4.at_eq i hi j hj]
    congr 1
    obtain ⟨a, b⟩ := p
    simp only at hp
    by_cases h5 : (min i j, max i j) ∈ l
    · simp [h5]
    · by_cases h6 : (min i j, max i j) = (a, b)
      · have h7 := Prod.ext_iff.1 h6
        simp only at h7
        rw [if_neg h5, if_pos (by omega), if_pos (by simp [h6]), h7.1, h7.2]
      · have h7 : ¬((i = a ∧ j = b) ∨ (i = b ∧ j = a)) := by
          intro h7
          apply h6
          rw [Prod.mk.injEq]
          omega
        rw [if_neg h5, if_neg h7, if_neg (by simp [h5, h6])]

theorem mem_upper {n i j : ℕ} : (i, j) ∈ upper n ↔ i ≤ j ∧ j < n := by
  simp only [upper, List.mem_flatMap, List.mem_range, List.mem_map, List.mem_range'_1, Prod.mk.injEq]
  constructor
  · rintro ⟨a, h1, b, h2, rfl, rfl⟩; omega
  · rintro ⟨h1, h2⟩; exact ⟨i, by omega, j, by omega, rfl, rfl⟩

theorem upper_holds (v : ℕ → ℕ → X) (h : Holds S n A) : ∃ S', Sym.fill v (upper n) S = some S' ∧
    Holds S' n fun i j => v (min i j) (max i j) := by
  obtain ⟨S', h1, h2⟩ := fill_holds v (upper n) (fun p hp => mem_upper.1 hp) h
  refine ⟨S', h1, h2.size, h2.length, fun i hi j hj => ?_⟩
  rw [h2.at_eq i hi j hj, if_pos (mem_upper.2 ⟨by omega, by omega⟩)]

/-- **C98** The constructor from a matrix throws exactly if some entry differs from its mirror image, and
otherwise holds the entries above the diagonal and their mirror images. -/
theorem C98_of_matrix (ne : X → X → Bool) (z : X) (n : ℕ) (A : ℕ → ℕ → X) :
    ((∃ i j, i < j ∧ j < n ∧ ne (A i j) (A j i) = true) → Sym.ofMatrix ne z n A = none) ∧
    ((∀ i j, i < j → j < n → ne (A i j) (A j i) = false) →
      ∃ S, Sym.ofMatrix ne z n A = some S ∧ Holds S n fun i j => A (min i j) (max i j)) := by
  constructor
  · rintro ⟨i, j, h1, h2, h3⟩
    have key : ∀ (l : List (ℕ × ℕ)) (S : Sym X), (i, j) ∈ l →
        l.foldlM (fun S p => if p.1 ≠ p.2 ∧ ne (A p.1 p.2) (A p.2 p.1) = true then none
          else S.set p.1 p.2 (A p.1 p.2)) S = none := by
      intro l
      induction l with
      | nil => intro S h; simp at h
      | cons p l ih =>
        intro S h
        rw [List.foldlM_cons]
        rcases List.mem_cons.1 h with rfl | h
        · simp [h3, h1.ne]
        · split_ifs
          · rfl
          · rcases S.set p.1 p.2 (A p.1 p.2) with _ | S'
            · rfl
            · exact ih S' h
    exact key _ _ (mem_upper.2 ⟨h1.le, h2⟩)
  · intro h
    obtain ⟨S, h1, h2⟩ := upper_holds A (C98_filled n z)
    refine ⟨S, ?_, h2⟩
    rw [← h1]
    have key : ∀ (l : List (ℕ × ℕ)) (S : Sym X), (∀ p ∈ l, p.1 ≤ p.2 ∧ p.2 < n) →
        l.foldlM (fun S p => if p.1 ≠ p.2 ∧ ne (A p.1 p.2) (A p.2 p.1) = true then none
          else S.set p.1 p.2 (A p.1 p.2)) S = l.foldlM (fun S p => S.set p.1 p.2 (A p.1 p.2)) S := by
      intro l
      induction l with
      | nil => intro S _; rfl
      | cons p l ih =>
        intro S hl
        rw [List.foldlM_cons, List.foldlM_cons, if_neg]
        · rcases S.set p.1 p.2 (A p.1 p.2) with _ | S'
          · rfl
          · exact ih S' fun q hq => hl q (by simp [hq])
        · rintro ⟨h3, h4⟩
          have := hl p (by simp)
          rw [h p.1 p.2 (by omega) this.2] at h4
          exact absurd h4 (by simp)
    exact key _ _ fun p hp => mem_upper.1 hp

/-- **C98** Conversion to a matrix gives the entries held, so that converting back gives a matrix with
the same entries. -/
theorem C98_to_matrix (h : Holds S n A) {i j : ℕ} (hi : i < n) (hj : j < n) :
    S.toMatrix i j = some (A i j) := by
  unfold Sym.toMatrix
  split_ifs
  · exact h.at_eq i hi j hj
  · rw [C98_symmetric]; exact h.at_eq i hi j hj

theorem C98_round_trip (ne : X → X → Bool) (hne : ∀ x, ne x x = false) (z : X) (h : Holds S n A) :
    Sym.ofMatrix ne z n (fun i j => (S.toMatrix i j).getD z) = some S := by
  have hs : ∀ i j, i < n → j < n → (S.toMatrix i j).getD z = A i j := fun i j hi hj => by
    rw [C98_to_matrix h hi hj]; rfl
  have hA : ∀ i j, i < n → j < n → A i j = A j i := fun i j hi hj => by
    have := (h.at_eq i hi j hj).symm.trans ((C98_symmetric i j).trans (h.at_eq j hj i hi))
    exact Option.some.inj this
  obtain ⟨S', h1, h2⟩ := (C98_of_matrix ne z n fun i j => (S.toMatrix i j).getD z).2 (fun i j hij hj => by
    rw [hs i j (by omega) hj, hs j i hj (by omega), hA i j (by omega) hj]; exact hne _)
  rw [h1]
  congr 1
  refine holds_unique h2 h fun i hi j hj => ?_
  rw [hs _ _ (by omega) (by omega)]
  rcases le_total i j with h3 | h3
  · rw [min_eq_left h3, max_eq_right h3]
  · rw [min_eq_right h3, max_eq_left h3, hA j i hj hi]

/-! ## Arithmetic -/

variable {K : Type*} [Field K] [LinearOrder K] [IsStrictOrderedRing K] {o : Ops X} {mem : X → K → Prop}

/-- spec: the entries enclose those of the matrix `a`. -/
def Enclosed (mem : X → K → Prop) (S : Sym X) (n : ℕ) (a : ℕ → ℕ → K) : Prop :=
  ∃ A, Holds S n A ∧ ∀ i < n, ∀ j < n, mem (A i j) (a i j)

variable {a b : ℕ → ℕ → K}

theorem zip_holds (f : X → X → X) (hS : Holds S n A) (hT : Holds T n B) :
    ∃ U, Sym.zip f S T = some U ∧ Holds U n fun i j => f (A i j) (B i j) := by
  refine ⟨⟨S.s, (List.zipWith f S.ary T.ary).take (S.s * (S.s + 1) / 2)⟩, ?_, hS.size, ?_, ?_⟩
  · rw [Sym.zip, if_pos (hS.size.trans hT.size.symm), if_pos ⟨by rw [hS.size, hS.length], by rw [hS.size, hT.length]⟩]
  · simp [hS.size, hS.length, hT.length]
  · intro i hi j hj
    have h1 := hS.at_eq i hi j hj
    have h2 := hT.at_eq i hi j hj
    have hp := (C98_positions hi hj hi hj).1
    simp only [Sym.at, hS.size, hT.size] at h1 h2 ⊢
    rw [List.getElem?_take, if_pos hp, List.getElem?_zipWith, h1, h2]

theorem map_holds (f : X → X) (hS : Holds S n A) :
    ∃ U, Sym.map f S = some U ∧ Holds U n fun i j => f (A i j) := by
  refine ⟨⟨S.s, (S.ary.map f).take (S.s * (S.s + 1) / 2)⟩, ?_, hS.size, ?_, ?_⟩
  · rw [Sym.map, if_pos (by rw [hS.size, hS.length])]
  · simp [hS.size, hS.length]
  · intro i hi j hj
    have h1 := hS.at_eq i hi j hj
    have hp := (C98_positions hi hj hi hj).1
    simp only [Sym.at, hS.size] at h1 ⊢
    rw [List.getElem?_take, if_pos hp, List.getElem?_map, h1]
    rfl

/-- **C98** Sums, differences and multiples; matrices of different sizes are rejected. -/
theorem C98_arithmetic (h : Encl o mem) (hS : Enclosed mem S n a) :
    (∀ T b, Enclosed mem T n b →
      (∃ U, Sym.zip o.add S T = some U ∧ Enclosed mem U n fun i j => a i j + b i j) ∧
      (∃ U, Sym.zip o.sub S T = some U ∧ Enclosed mem U n fun i j => a i j - b i j)) ∧
    (∀ T, T.s ≠ n → Sym.zip o.add S T = none ∧ Sym.zip o.sub S T = none) ∧
    (∀ c r, mem c r → (∃ U, Sym.map (o.mul c) S = some U ∧ Enclosed mem U n fun i j => r * a i j) ∧
      (∃ U, Sym.map (fun x => o.mul x c) S = some U ∧ Enclosed mem U n fun i j => a i j * r)) ∧
    (∀ (dv : X → X → X) c r, (∀ x y, mem x y → mem (dv x c) (y / r)) →
      ∃ U, Sym.map (fun x => dv x c) S = some U ∧ Enclosed mem U n fun i j => a i j / r) := by
  obtain ⟨A, hA, hA'⟩ := hS
  refine ⟨?_, ?_, ?_, ?_⟩
  · rintro T b ⟨B, hB, hB'⟩
    obtain ⟨U, h1, h2⟩ := zip_holds o.add hA hB
    obtain ⟨V, h3, h4⟩ := zip_holds o.sub hA hB
    exact ⟨⟨U, h1, _, h2, fun i hi j hj => h.add (hA' i hi j hj) (hB' i hi j hj)⟩,
      ⟨V, h3, _, h4, fun i hi j hj => h.sub (hA' i hi j hj) (hB' i hi j hj)⟩⟩
  · intro T hT
    have : S.s ≠ T.s := by rw [hA.size]; exact hT.symm
    simp [Sym.zip, this]
  · intro c r hc
    obtain ⟨U, h1, h2⟩ := map_holds (o.mul c) hA
    obtain ⟨V, h3, h4⟩ := map_holds (fun x => o.mul x c) hA
    exact ⟨⟨U, h1, _, h2, fun i hi j hj => h.mul hc (hA' i hi j hj)⟩,
      ⟨V, h3, _, h4, fun i hi j hj => h.mul (hA' i hi j hj) hc⟩⟩
  · intro dv c r hd
    obtain ⟨U, h1, h2⟩ := map_holds (fun x => dv x c) hA
    exact ⟨U, h1, _, h2, fun i hi j hj => hd _ _ (hA' i hi j hj)⟩

theorem fold_dot (h : Encl o mem) (f g : ℕ → X) (x y : ℕ → K) (m : ℕ) (hf : ∀ k < m, mem (f k) (x k))
    (hg : ∀ k < m, mem (g k) (y k)) :
    mem ((List.range m).foldl (fun s k => o.add s (o.mul (f k) (g k))) o.zero)
      (∑ k ∈ Finset.range m, x k * y k) := by
  induction m with
  | zero => simpa using h.zero
  | succ m ih =>
    rw [List.range_succ, List.foldl_append, Finset.sum_range_succ]
    exact h.add (ih (fun k hk => hf k (by omega)) fun k hk => hg k (by omega))
      (h.mul (hf m (by omega)) (hg m (by omega)))

/-- **C98** `outer` of a matrix is its transpose times the matrix. -/
theorem C98_outer (h : Encl o mem) {m : ℕ} (hA : ∀ i < m, ∀ j < n, mem (A i j) (a i j)) :
    ∃ U, Sym.outer o.zero o.add o.mul m n A = some U ∧
      Enclosed mem U n fun i j => ∑ k ∈ Finset.range m, a k i * a k j := by
  obtain ⟨U, h1, h2⟩ := upper_holds (fun i j => (List.range m).foldl
    (fun s k => o.add s (o.mul (A k i) (A k j))) o.zero) (C98_filled n o.zero)
  refine ⟨U, h1, _, h2, fun i hi j hj => ?_⟩
  have := fold_dot h (fun k => A k (min i j)) (fun k => A k (max i j)) (fun k => a k (min i j))
    (fun k => a k (max i j)) m (fun k hk => hA k hk _ (by omega)) (fun k hk => hA k hk _ (by omega))
  convert this using 2
  rcases le_total i j with h3 | h3
  · rw [min_eq_left h3, max_eq_right h3]
  · rw [min_eq_right h3, max_eq_left h3, mul_comm]

/-- **C98** `symmetrize` is half of the sum of a matrix and its transpose; it keeps symmetric matrices. -/
theorem C98_symmetrize (h : Encl o mem) {hlf : X → X} (hh : ∀ x y, mem x y → mem (hlf x) (y / 2))
    (hA : ∀ i < n, ∀ j < n, mem (A i j) (a i j)) :
    ∃ U, Sym.symmetrize o.zero o.add hlf n A = some U ∧ Enclosed mem U n fun i j => (a i j + a j i) / 2 := by
  obtain ⟨U, h1, h2⟩ := upper_holds (fun i j => if i = j then A i i else hlf (o.add (A i j) (A j i)))
    (C98_filled n o.zero)
  refine ⟨U, h1, _, h2, fun i hi j hj => ?_⟩
  rcases lt_trichotomy i j with h3 | rfl | h3
  · rw [min_eq_left h3.le, max_eq_right h3.le, if_neg h3.ne]
    exact hh _ _ (h.add (hA i hi j hj) (hA j hj i hi))
  · rw [min_self, max_self, if_pos rfl]
    have : (a i i + a i i) / 2 = a i i := by ring
    simp only [this]
    exact hA i hi i hi
  · rw [min_eq_right h3.le, max_eq_left h3.le, if_neg h3.ne]
    simp only [add_comm (a i j)]
    exact hh _ _ (h.add (hA j hj i hi) (hA i hi j hj))

/-- **C98** Symmetric matrices stay enclosed by the conversion, although entries and their mirror images
need not have the same bounds. -/
theorem C98_of_matrix_enclosed (ne : X → X → Bool) (z : X) (hne : ∀ i j, i < j → j < n → ne (A i j) (A j i) = false)
    (hs : ∀ i j, a i j = a j i) (hA : ∀ i < n, ∀ j < n, mem (A i j) (a i j)) :
    ∃ U, Sym.ofMatrix ne z n A = some U ∧ Enclosed mem U n a := by
  obtain ⟨U, h1, h2⟩ := (C98_of_matrix ne z n A).2 hne
  refine ⟨U, h1, _, h2, fun i hi j hj => ?_⟩
  rcases le_total i j with h3 | h3
  · rw [min_eq_left h3, max_eq_right h3]; exact hA i hi j hj
  · rw [min_eq_right h3, max_eq_left h3, hs i j]; exact hA j hj i hi

/-- **C98** The identity matrix. -/
theorem C98_identity (zero one : X) (n : ℕ) :
    ∃ S, Sym.identity zero one n = some S ∧ Holds S n fun i j => if i = j then one else zero := by
  have key : ∀ (l : List ℕ) (S : Sym X) (A : ℕ → ℕ → X), (∀ i ∈ l, i < n) → Holds S n A →
      ∃ S', l.foldlM (fun S i => S.set i i one) S = some S' ∧
        Holds S' n fun i j => if i = j ∧ i ∈ l then one else A i j := by
    intro l
    induction l with
    | nil => intro S A _ h; exact ⟨S, rfl, by simpa using h⟩
    | cons k l ih =>
      intro S A hl h
      obtain ⟨S1, h1, h2⟩ := C98_set h (hl k (by simp)) (hl k (by simp)) one
      obtain ⟨S2, h3, h4⟩ := ih S1 _ (fun i hi => hl i (by simp [hi])) h2
      refine ⟨S2, by rw [List.foldlM_cons, h1]; exact h3, h4.size, h4.length, fun i hi j hj => ?_⟩
      rw [h4.at_eq i hi j hj]
      congr 1
      by_cases h5 : i = j
      · subst h5
        by_cases h6 : i = k
        · simp [h6]
        · simp [h6]
      · rw [if_neg (by tauto), if_neg (by rintro (⟨rfl, rfl⟩ | ⟨rfl, rfl⟩) <;> exact h5 rfl), if_neg (by tauto)]
  obtain ⟨S, h1, h2⟩ := key (List.range n) (Sym.filled n zero) _ (fun i hi => List.mem_range.1 hi)
    (C98_filled n zero)
  refine ⟨S, h1, h2.size, h2.length, fun i hi j hj => ?_⟩
  rw [h2.at_eq i hi j hj]
  simp [hi]

/-- **C98**, counterexample: a matrix which has been resized to any positive size has too short an
array: its last diagonal entry cannot be accessed. -/
theorem C98_resize_wrong (S : Sym X) (z : X) {n : ℕ} (hn : 0 < n) :
    (S.resize z n).at (n - 1) (n - 1) = none ∧ (S.resize z n).set (n - 1) (n - 1) z = none ∧
      ∀ A, ¬Holds (S.resize z n) n A := by
  have hl : (S.resize z n).ary.length ≤ n * (n - 1) / 2 := by simp [Sym.resize]
  have hs : (S.resize z n).s = n := rfl
  have hp : n * (n - 1) / 2 ≤ position n (n - 1) (n - 1) := by
    have h1 : position n (n - 1) (n - 1) = fastPosition n (n - 1) (n - 1) := by simp [position]
    have h2 : 2 * n - (n - 1) - 1 = n := by omega
    rw [h1, fastPosition, h2, mul_comm]
    omega
  have h0 : (S.resize z n).at (n - 1) (n - 1) = none := by
    unfold Sym.at; rw [hs]; exact List.getElem?_eq_none (by omega)
  refine ⟨h0, ?_, ?_⟩
  · unfold Sym.set; rw [hs, if_neg (by omega)]
  · intro A hA
    have := hA.at_eq (n - 1) (by omega) (n - 1) (by omega)
    rw [h0] at this
    exact absurd this (by simp)

end Verif.Structured
