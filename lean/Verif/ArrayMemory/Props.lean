import Verif.ArrayMemory.Model
import Mathlib.Data.List.Basic
import Mathlib.Data.List.Range
import Mathlib.Data.List.Sort
import Mathlib.Logic.Basic
import Mathlib.Tactic.Tauto

/-!
# C107: arrays own their memory

Specification: arrays are values (`Op.spec`: what an operation does to the lists of elements of the arrays), whatever the
blocks are; memory which is live belongs to exactly one array (`Inv`, `Leaked`).
-/

namespace Verif.ArrayMemory

variable {T : Type}

/-! ### Specification -/

/-- The elements of the arrays. -/
def value (m : Mem T) (v : ℕ) : Option (List T) := (m.vars v).bind (read m)

/-- What operations do to arrays as values. -/
def Op.spec (σ : ℕ → Option (List T)) : Op T → ℕ → Option (List T)
  | .default i => upd σ i (some [])
  | .make i xs => upd σ i (some xs)
  | .copy i j => upd σ i (σ j)
  | .move i j => upd (upd σ i (σ j)) j (some [])
  | .assign i j => upd σ i (σ j)
  | .moveAssign i j => if i = j then σ else upd (upd σ i (σ j)) j (some [])
  | .resize i n t => upd σ i ((σ i).map fun xs => xs.take n ++ List.replicate (n - xs.length) t)
  | .reallocate i n t => upd σ i ((σ i).map fun xs => if xs.length = n then xs else List.replicate n t)
  | .swap i j => upd (upd σ i (σ j)) j (σ i)
  | .set i k x => upd σ i ((σ i).map fun xs => xs.set k x)
  | .destroy i => upd σ i none

/-- Programs construct new arrays, and use existing ones. -/
def Op.Allowed (σ : ℕ → Option (List T)) : Op T → Prop
  | .default i => σ i = none
  | .make i _ => σ i = none
  | .copy i j => σ i = none ∧ (σ j).isSome
  | .move i j => σ i = none ∧ (σ j).isSome
  | .assign i j => (σ i).isSome ∧ (σ j).isSome
  | .moveAssign i j => (σ i).isSome ∧ (σ j).isSome
  | .resize i _ _ => (σ i).isSome
  | .reallocate i _ _ => (σ i).isSome
  | .swap i j => (σ i).isSome ∧ (σ j).isSome
  | .set i _ _ => (σ i).isSome
  | .destroy i => (σ i).isSome

/-- Arrays are null, or have a live block of their size; no two have the same block. -/
structure Inv (m : Mem T) : Prop where
  block : ∀ v a, m.vars v = some a → (a.ptr = none ∧ a.size = 0) ∨
    ∃ (p : ℕ) (xs : List T), a.ptr = some p ∧ m.heap[p]? = some (some xs) ∧ xs.length = a.size
  apart : ∀ v w a b p, m.vars v = some a → m.vars w = some b → a.ptr = some p → b.ptr = some p → v = w

/-- Live memory which belongs to no array, and will never be freed. -/
def Leaked (m : Mem T) (p : ℕ) : Prop :=
  (∃ xs, m.heap[p]? = some (some xs)) ∧ ∀ v a, m.vars v = some a → a.ptr ≠ some p

/-! ### Primitives -/

theorem upd_self {A : Type} (f : ℕ → A) (v : ℕ) (x : A) : upd f v x v = x := if_pos rfl
theorem upd_ne {A : Type} (f : ℕ → A) {v w : ℕ} (x : A) (h : w ≠ v) : upd f v x w = f w := if_neg h

theorem read_null (m : Mem T) : read m null = some [] := rfl

theorem read_block {m : Mem T} {a : Arr} {p : ℕ} {xs : List T} (hp : a.ptr = some p) (hx : m.heap[p]? = some (some xs))
    (hl : xs.length = a.size) : read m a = some xs := by
  unfold read
  by_cases h0 : a.size = 0
  · rw [if_pos h0]
    obtain rfl : xs = [] := List.length_eq_zero_iff.1 (hl.trans h0)
    rfl
  · rw [if_neg h0, hp, Option.bind_some, hx, Option.bind_some, Option.bind_some, if_pos (by omega), ← hl, List.take_length]

theorem Inv.read {m : Mem T} (hI : Inv m) {v : ℕ} {a : Arr} (h : m.vars v = some a) :
    ∃ xs, read m a = some xs ∧ xs.length = a.size ∧ value m v = some xs := by
  rcases hI.block v a h with ⟨h1, h2⟩ | ⟨p, xs, h1, h2, h3⟩
  · have : ArrayMemory.read m a = some [] := by unfold ArrayMemory.read; rw [if_pos h2]
    exact ⟨[], this, by simp [h2], by unfold value; rw [h]; exact this⟩
  · have := read_block h1 h2 h3
    exact ⟨xs, this, h3, by unfold value; rw [h]; exact this⟩

theorem Inv.value_none {m : Mem T} (hI : Inv m) (v : ℕ) : value m v = none ↔ m.vars v = none := by
  constructor
  · intro h
    cases hv : m.vars v with
    | none => rfl
    | some a => obtain ⟨xs, -, -, h'⟩ := hI.read hv; rw [h'] at h; exact absurd h (by simp)
  · intro h; unfold value; rw [h]; rfl

theorem Inv.value_some {m : Mem T} (hI : Inv m) {v : ℕ} (h : (value m v).isSome = true) : ∃ a, m.vars v = some a := by
  cases hv : m.vars v with
  | none => rw [(hI.value_none v).2 hv] at h; exact absurd h (by simp)
  | some a => exact ⟨a, rfl⟩

/-- Allocation. -/
theorem extend_spec {m : Mem T} (hI : Inv m) (xs : List T) :
    Inv (extend m xs) ∧ (∀ v, value (extend m xs) v = value m v) ∧ (extend m xs).heap[m.heap.length]? = some (some xs) ∧
    (∀ v a, m.vars v = some a → a.ptr ≠ some m.heap.length) ∧
    ∀ q, Leaked (extend m xs) q ↔ Leaked m q ∨ q = m.heap.length := by
  have hlt : ∀ v a p, m.vars v = some a → a.ptr = some p → p < m.heap.length := by
    intro v a p hv hp
    rcases hI.block v a hv with ⟨h1, -⟩ | ⟨q, ys, h1, h2, -⟩
    · rw [hp] at h1; exact absurd h1 (by simp)
    · rw [hp] at h1; obtain rfl := Option.some.inj h1
      exact (List.getElem?_eq_some_iff.1 h2).1
  have hget : ∀ p, p < m.heap.length → (extend m xs).heap[p]? = m.heap[p]? := fun p hp =>
    List.getElem?_append_left hp
  have hlast : (extend m xs).heap[m.heap.length]? = some (some xs) := by
    show (m.heap ++ [some xs])[m.heap.length]? = _
    rw [List.getElem?_append_right (Nat.le_refl _)]; simp
  have hI' : Inv (extend m xs) := by
    refine ⟨fun v a hv => ?_, hI.apart⟩
    rcases hI.block v a hv with h | ⟨p, ys, h1, h2, h3⟩
    · exact Or.inl h
    · exact Or.inr ⟨p, ys, h1, by rw [hget p (hlt v a p hv h1)]; exact h2, h3⟩
  refine ⟨hI', ?_, hlast, ?_, ?_⟩
  · intro v
    cases hv : m.vars v with
    | none => rw [(hI.value_none v).2 hv, (hI'.value_none v).2 hv]
    | some a =>
      unfold value
      rw [hv, show (extend m xs).vars v = some a from hv, Option.bind_some, Option.bind_some]
      rcases hI.block v a hv with ⟨-, h2⟩ | ⟨p, ys, h1, h2, h3⟩
      · unfold ArrayMemory.read; rw [if_pos h2, if_pos h2]
      · rw [read_block h1 h2 h3, read_block (m := extend m xs) h1 (by rw [hget p (hlt v a p hv h1)]; exact h2) h3]
  · intro v a hv hp
    exact absurd (hlt v a _ hv hp) (Nat.lt_irrefl _)
  · intro q
    constructor
    · rintro ⟨⟨ys, h1⟩, h2⟩
      by_cases hq : q = m.heap.length
      · exact Or.inr hq
      · have hq' : q < m.heap.length := by
          have : q < (m.heap ++ [some xs]).length := (List.getElem?_eq_some_iff.1 h1).1
          simp at this; omega
        exact Or.inl ⟨⟨ys, by rw [← hget q hq']; exact h1⟩, h2⟩
    · rintro (⟨⟨ys, h1⟩, h2⟩ | rfl)
      · exact ⟨⟨ys, by rw [hget q (List.getElem?_eq_some_iff.1 h1).1]; exact h1⟩, h2⟩
      · exact ⟨⟨xs, hlast⟩, fun v a hv hp => absurd (hlt v a _ hv hp) (Nat.lt_irrefl _)⟩

/-- Giving up an array without freeing its block. -/
theorem unbind_spec {m : Mem T} (hI : Inv m) {v : ℕ} {a : Arr} (hv : m.vars v = some a) :
    Inv (setVar m v none) ∧ (∀ w, value (setVar m v none) w = upd (value m) v none w) ∧
    (∀ q, Leaked (setVar m v none) q ↔ Leaked m q ∨ a.ptr = some q) := by
  have hI' : Inv (setVar m v none) := by
    refine ⟨fun w b hw => ?_, fun w x b c p hw hx => ?_⟩
    · by_cases e : w = v
      · subst e; exact absurd ((upd_self _ _ _).symm.trans hw) (by simp)
      · exact hI.block w b (by rwa [show (setVar m v none).vars w = m.vars w from upd_ne _ _ e] at hw)
    · by_cases e : w = v
      · subst e; exact absurd ((upd_self _ _ _).symm.trans hw) (by simp)
      by_cases e' : x = v
      · subst e'; exact absurd ((upd_self _ _ _).symm.trans hx) (by simp)
      rw [show (setVar m v none).vars w = m.vars w from upd_ne _ _ e] at hw
      rw [show (setVar m v none).vars x = m.vars x from upd_ne _ _ e'] at hx
      exact hI.apart w x b c p hw hx
  refine ⟨hI', fun w => ?_, fun q => ?_⟩
  · by_cases e : w = v
    · subst e; rw [upd_self]; exact (hI'.value_none w).2 (upd_self _ _ _)
    · rw [upd_ne _ _ e]
      unfold value
      rw [show (setVar m v none).vars w = m.vars w from upd_ne _ _ e]; rfl
  · constructor
    · rintro ⟨h1, h2⟩
      by_cases e : a.ptr = some q
      · exact Or.inr e
      · refine Or.inl ⟨h1, fun w b hw => ?_⟩
        by_cases ew : w = v
        · subst ew; rw [hv] at hw; obtain rfl := Option.some.inj hw; exact e
        · exact h2 w b ((upd_ne _ _ ew).trans hw)
    · rintro (⟨h1, h2⟩ | e)
      · refine ⟨h1, fun w b hw => ?_⟩
        by_cases ew : w = v
        · subst ew; exact absurd ((upd_self _ _ _).symm.trans hw) (by simp)
        · exact h2 w b ((upd_ne _ _ ew).symm.trans hw)
      · refine ⟨?_, fun w b hw hp => ?_⟩
        · rcases hI.block v a hv with ⟨h1, -⟩ | ⟨p, xs, h1, h2, -⟩
          · rw [e] at h1; exact absurd h1 (by simp)
          · rw [e] at h1; obtain rfl := Option.some.inj h1; exact ⟨xs, h2⟩
        · by_cases ew : w = v
          · subst ew; exact absurd ((upd_self _ _ _).symm.trans hw) (by simp)
          · exact ew (hI.apart w v b a q ((upd_ne _ _ ew).symm.trans hw) hv hp e)

/-- Taking a block which belongs to nobody, or none. -/
theorem bind_spec {m : Mem T} (hI : Inv m) {v : ℕ} {a : Arr} {xs : List T} (hv : m.vars v = none)
    (ha : (a.ptr = none ∧ a.size = 0 ∧ xs = []) ∨ ∃ p, a.ptr = some p ∧ m.heap[p]? = some (some xs) ∧ xs.length = a.size ∧
      ∀ w b, m.vars w = some b → b.ptr ≠ some p) :
    Inv (setVar m v (some a)) ∧ (∀ w, value (setVar m v (some a)) w = upd (value m) v (some xs) w) ∧
    (∀ q, Leaked (setVar m v (some a)) q ↔ Leaked m q ∧ a.ptr ≠ some q) := by
  have hfree : ∀ w b p, m.vars w = some b → b.ptr = some p → a.ptr ≠ some p := by
    intro w b p hw hb e
    rcases ha with ⟨h1, -⟩ | ⟨q, h1, -, -, h4⟩
    · rw [e] at h1; exact absurd h1 (by simp)
    · rw [e] at h1; obtain rfl := Option.some.inj h1; exact h4 w b hw hb
  have hI' : Inv (setVar m v (some a)) := by
    refine ⟨fun w b hw => ?_, fun w x b c p hw hx hb hc => ?_⟩
    · by_cases e : w = v
      · subst e
        obtain rfl := Option.some.inj ((upd_self _ _ _).symm.trans hw)
        rcases ha with ⟨h1, h2, -⟩ | ⟨p, h1, h2, h3, -⟩
        · exact Or.inl ⟨h1, h2⟩
        · exact Or.inr ⟨p, xs, h1, h2, h3⟩
      · exact hI.block w b ((upd_ne _ _ e).symm.trans hw)
    · by_cases e : w = v
      · subst e
        obtain rfl := Option.some.inj ((upd_self _ _ _).symm.trans hw)
        by_cases e' : x = w
        · exact e'.symm
        · exact absurd hb (hfree x c p ((upd_ne _ _ e').symm.trans hx) hc)
      · by_cases e' : x = v
        · subst e'
          obtain rfl := Option.some.inj ((upd_self _ _ _).symm.trans hx)
          exact absurd hc (hfree w b p ((upd_ne _ _ e).symm.trans hw) hb)
        · exact hI.apart w x b c p ((upd_ne _ _ e).symm.trans hw) ((upd_ne _ _ e').symm.trans hx) hb hc
  refine ⟨hI', fun w => ?_, fun q => ?_⟩
  · by_cases e : w = v
    · subst e
      rw [upd_self]
      unfold value
      rw [show (setVar m w (some a)).vars w = some a from upd_self _ _ _, Option.bind_some]
      rcases ha with ⟨-, h2, rfl⟩ | ⟨p, h1, h2, h3, -⟩
      · unfold ArrayMemory.read; rw [if_pos h2]
      · exact read_block h1 h2 h3
    · rw [upd_ne _ _ e]
      unfold value
      rw [show (setVar m v (some a)).vars w = m.vars w from upd_ne _ _ e]; rfl
  · constructor
    · rintro ⟨h1, h2⟩
      refine ⟨⟨h1, fun w b hw => ?_⟩, h2 v a (upd_self _ _ _)⟩
      have e : w ≠ v := by rintro rfl; rw [hv] at hw; exact absurd hw (by simp)
      exact h2 w b ((upd_ne _ _ e).trans hw)
    · rintro ⟨⟨h1, h2⟩, h3⟩
      refine ⟨h1, fun w b hw => ?_⟩
      by_cases e : w = v
      · subst e; obtain rfl := Option.some.inj ((upd_self _ _ _).symm.trans hw); exact h3
      · exact h2 w b ((upd_ne _ _ e).symm.trans hw)

/-- Freeing the block of an array, which is forgotten. -/
theorem remove_spec {m : Mem T} (hI : Inv m) {v : ℕ} {a : Arr} (hv : m.vars v = some a) :
    ∃ m', release m a = some m' ∧ m'.vars = m.vars ∧ (∀ p, a.ptr ≠ some p → m'.heap[p]? = m.heap[p]?) ∧
      m'.heap.length = m.heap.length ∧ Inv (setVar m' v none) ∧
      (∀ w, value (setVar m' v none) w = upd (value m) v none w) ∧ (∀ q, Leaked (setVar m' v none) q ↔ Leaked m q) := by
  obtain ⟨xs, hr, -, -⟩ := hI.read hv
  rcases hI.block v a hv with ⟨h1, h2⟩ | ⟨p, ys, h1, h2, h3⟩
  · obtain ⟨u1, u2, u3⟩ := unbind_spec hI hv
    refine ⟨m, ?_, rfl, fun _ _ => rfl, rfl, u1, u2, fun q => ?_⟩
    · unfold release; rw [hr, Option.bind_some, h1]; rfl
    · rw [u3 q, h1]; simp
  · have hf : free m a.ptr = some { m with heap := m.heap.set p none } := by
      rw [h1]; show m.heap[p]?.bind _ = _; rw [h2]; rfl
    have hne : ∀ q, q ≠ p → (m.heap.set p none)[q]? = m.heap[q]? := fun q hq => List.getElem?_set_ne (Ne.symm hq)
    have hp : (m.heap.set p none)[p]? = some none := List.getElem?_set_self (List.getElem?_eq_some_iff.1 h2).1
    have hother : ∀ w b q, w ≠ v → m.vars w = some b → b.ptr = some q → q ≠ p := by
      intro w b q hw hb hq e
      subst e
      exact hw (hI.apart w v b a q hb hv hq h1)
    have hI' : Inv (setVar { m with heap := m.heap.set p none } v none) := by
      refine ⟨fun w b hw => ?_, fun w x b c q hw hx hb hc => ?_⟩
      · by_cases e : w = v
        · subst e; exact absurd ((upd_self _ _ _).symm.trans hw) (by simp)
        · have hw' : m.vars w = some b := (upd_ne _ _ e).symm.trans hw
          rcases hI.block w b hw' with h | ⟨q, zs, g1, g2, g3⟩
          · exact Or.inl h
          · exact Or.inr ⟨q, zs, g1, (hne q (hother w b q e hw' g1)).trans g2, g3⟩
      · by_cases e : w = v
        · subst e; exact absurd ((upd_self _ _ _).symm.trans hw) (by simp)
        by_cases e' : x = v
        · subst e'; exact absurd ((upd_self _ _ _).symm.trans hx) (by simp)
        exact hI.apart w x b c q ((upd_ne _ _ e).symm.trans hw) ((upd_ne _ _ e').symm.trans hx) hb hc
    refine ⟨{ m with heap := m.heap.set p none }, ?_, rfl, ?_, by simp, hI', fun w => ?_, fun q => ?_⟩
    · unfold release; rw [hr]; exact hf
    · intro q hq
      exact hne q fun e => hq (by rw [h1, e])
    · by_cases e : w = v
      · subst e; rw [upd_self]; exact (hI'.value_none w).2 (upd_self _ _ _)
      · rw [upd_ne _ _ e]
        cases hw : m.vars w with
        | none => rw [(hI.value_none w).2 hw]; exact (hI'.value_none w).2 ((upd_ne _ _ e).trans hw)
        | some b =>
          unfold value
          rw [hw, show (setVar { m with heap := m.heap.set p none } v none).vars w = some b from (upd_ne _ _ e).trans hw,
            Option.bind_some, Option.bind_some]
          rcases hI.block w b hw with ⟨-, g2⟩ | ⟨q, zs, g1, g2, g3⟩
          · unfold ArrayMemory.read; rw [if_pos g2, if_pos g2]
          · rw [read_block g1 g2 g3, read_block g1 ((hne q (hother w b q e hw g1)).trans g2) g3]
    · constructor
      · rintro ⟨⟨zs, g1⟩, g2⟩
        have hq : q ≠ p := by
          rintro rfl
          have : (m.heap.set q none)[q]? = some (some zs) := g1
          rw [hp] at this; exact absurd this (by simp)
        refine ⟨⟨zs, (hne q hq).symm.trans g1⟩, fun w b hw => ?_⟩
        by_cases e : w = v
        · subst e; rw [hv] at hw; obtain rfl := Option.some.inj hw
          rw [h1]; intro e; exact hq (Option.some.inj e).symm
        · exact g2 w b ((upd_ne _ _ e).trans hw)
      · rintro ⟨⟨zs, g1⟩, g2⟩
        have hq : q ≠ p := fun e => g2 v a hv (by rw [h1, e])
        refine ⟨⟨zs, (hne q hq).trans g1⟩, fun w b hw => ?_⟩
        by_cases e : w = v
        · subst e; exact absurd ((upd_self _ _ _).symm.trans hw) (by simp)
        · exact g2 w b ((upd_ne _ _ e).symm.trans hw)

/-- Overwriting the elements of an array. -/
theorem fill_spec {m : Mem T} (hI : Inv m) {v : ℕ} {a : Arr} (hv : m.vars v = some a) {ys : List T}
    (hy : ys.length = a.size) : ∃ m', fill m a ys = some m' ∧ Inv m' ∧ (∀ w, value m' w = upd (value m) v (some ys) w) ∧
      ∀ q, Leaked m' q ↔ Leaked m q := by
  by_cases h0 : a.size = 0
  · refine ⟨m, if_pos h0, hI, fun w => ?_, fun q => Iff.rfl⟩
    by_cases e : w = v
    · subst e; rw [upd_self]
      obtain ⟨xs, -, h1, h2⟩ := hI.read hv
      rw [h2, List.length_eq_zero_iff.1 (h1.trans h0), List.length_eq_zero_iff.1 (hy.trans h0)]
    · rw [upd_ne _ _ e]
  · rcases hI.block v a hv with ⟨-, h2⟩ | ⟨p, xs, h1, h2, h3⟩
    · exact absurd h2 h0
    have hne : ∀ q, q ≠ p → (m.heap.set p (some ys))[q]? = m.heap[q]? := fun q hq => List.getElem?_set_ne (Ne.symm hq)
    have hp : (m.heap.set p (some ys))[p]? = some (some ys) := List.getElem?_set_self (List.getElem?_eq_some_iff.1 h2).1
    have hblock : ∀ w b, m.vars w = some b → w ≠ v → ∀ q, b.ptr = some q → q ≠ p := by
      intro w b hb hw q hq e
      subst e
      exact hw (hI.apart w v b a q hb hv hq h1)
    have hI' : Inv (⟨m.heap.set p (some ys), m.vars⟩ : Mem T) := by
      refine ⟨fun w b hw => ?_, hI.apart⟩
      by_cases e : w = v
      · subst e
        have hb : m.vars w = some b := hw
        rw [hv] at hb; obtain rfl := Option.some.inj hb
        exact Or.inr ⟨p, ys, h1, hp, hy⟩
      · rcases hI.block w b hw with h | ⟨q, zs, g1, g2, g3⟩
        · exact Or.inl h
        · exact Or.inr ⟨q, zs, g1, (hne q (hblock w b hw e q g1)).trans g2, g3⟩
    refine ⟨⟨m.heap.set p (some ys), m.vars⟩, ?_, hI', fun w => ?_, fun q => ?_⟩
    · unfold fill
      rw [if_neg h0, h1, Option.bind_some, h2, Option.bind_some, Option.bind_some, if_pos ⟨by omega, by omega⟩]
      rw [← hy, List.take_length, List.drop_eq_nil_of_le (by omega), List.append_nil]
    · by_cases e : w = v
      · subst e; rw [upd_self]
        unfold value
        rw [show (⟨m.heap.set p (some ys), m.vars⟩ : Mem T).vars w = some a from hv]
        exact read_block h1 hp hy
      · rw [upd_ne _ _ e]
        unfold value
        show (m.vars w).bind _ = _
        cases hw : m.vars w with
        | none => rfl
        | some b =>
          rw [Option.bind_some, Option.bind_some]
          rcases hI.block w b hw with ⟨-, g2⟩ | ⟨q, zs, g1, g2, g3⟩
          · unfold ArrayMemory.read; rw [if_pos g2, if_pos g2]
          · rw [read_block g1 g2 g3, read_block g1 ((hne q (hblock w b hw e q g1)).trans g2) g3]
    · have live : (∃ zs, (m.heap.set p (some ys))[q]? = some (some zs)) ↔ ∃ zs, m.heap[q]? = some (some zs) := by
        by_cases e : q = p
        · subst e; exact ⟨fun _ => ⟨xs, h2⟩, fun _ => ⟨ys, hp⟩⟩
        · rw [hne q e]
      exact and_congr live Iff.rfl

/-- Constructing an array with elements. -/
theorem make_spec {m : Mem T} (hI : Inv m) {v : ℕ} (hv : m.vars v = none) (xs : List T) :
    Inv (make m v xs) ∧ (∀ w, value (make m v xs) w = upd (value m) v (some xs) w) ∧
    ∀ q, Leaked (make m v xs) q ↔ Leaked m q := by
  obtain ⟨e1, e2, e3, e4, e5⟩ := extend_spec hI xs
  obtain ⟨b1, b2, b3⟩ := bind_spec (a := ⟨xs.length, some m.heap.length⟩) (xs := xs) e1 (v := v) hv
    (Or.inr ⟨_, rfl, e3, rfl, e4⟩)
  refine ⟨b1, fun w => ?_, fun q => ?_⟩
  · show value (setVar (extend m xs) v _) w = _
    rw [b2 w]
    unfold upd; by_cases e : w = v
    · rw [if_pos e, if_pos e]
    · rw [if_neg e, if_neg e, e2]
  · show Leaked (setVar (extend m xs) v _) q ↔ _
    rw [b3 q, e5 q]
    constructor
    · rintro ⟨h | h, h'⟩
      · exact h
      · exact absurd (by rw [h]) h'
    · intro h
      refine ⟨Or.inl h, fun e => ?_⟩
      have hq : m.heap.length = q := Option.some.inj e
      obtain ⟨ys, hy⟩ := h.1
      have := (List.getElem?_eq_some_iff.1 hy).1
      omega

theorem setVar_setVar (m : Mem T) (v : ℕ) (a b : Option Arr) : setVar (setVar m v a) v b = setVar m v b := by
  unfold setVar; congr 1; funext w; unfold upd; by_cases e : w = v <;> simp [e]

theorem setVar_comm (m : Mem T) {v w : ℕ} (a b : Option Arr) (h : v ≠ w) :
    setVar (setVar m v a) w b = setVar (setVar m w b) v a := by
  unfold setVar; congr 1; funext x; unfold upd
  by_cases e : x = v
  · subst e; simp [h]
  · simp [e]

theorem setVar_same (m : Mem T) {v : ℕ} {a : Option Arr} (h : m.vars v = a) : setVar m v a = m := by
  unfold setVar; cases m; congr 1; funext x; unfold upd
  by_cases e : x = v
  · subst e; rw [if_pos rfl]; exact h.symm
  · rw [if_neg e]

theorem make_setVar (m : Mem T) (v : ℕ) (a : Option Arr) (xs : List T) : make (setVar m v a) v xs = make m v xs :=
  setVar_setVar (extend m xs) v a _

/-- Moving the block of an array to a new one. -/
theorem transfer_spec {m : Mem T} (hI : Inv m) {i j : ℕ} {a : Arr} (hij : i ≠ j) (hi : m.vars i = none)
    (hj : m.vars j = some a) : Inv (setVar (setVar m i (some a)) j (some null)) ∧
    (∀ w, value (setVar (setVar m i (some a)) j (some null)) w = upd (upd (value m) i (value m j)) j (some []) w) ∧
    ∀ q, Leaked (setVar (setVar m i (some a)) j (some null)) q ↔ Leaked m q := by
  obtain ⟨xs, -, hl, hx⟩ := hI.read hj
  obtain ⟨u1, u2, u3⟩ := unbind_spec hI hj
  have hi1 : (setVar m j none).vars i = none := (upd_ne _ _ hij).trans hi
  obtain ⟨b1, b2, b3⟩ := bind_spec (a := a) (xs := xs) u1 hi1 (by
    rcases hI.block j a hj with ⟨h1, h2⟩ | ⟨p, ys, h1, h2, h3⟩
    · exact Or.inl ⟨h1, h2, List.length_eq_zero_iff.1 (hl.trans h2)⟩
    · have hy : ys = xs := by
        have := read_block h1 h2 h3
        unfold value at hx; rw [hj, Option.bind_some, this] at hx
        exact Option.some.inj hx
      subst hy
      refine Or.inr ⟨p, h1, h2, h3, fun w b hw hp => ?_⟩
      by_cases e : w = j
      · subst e; exact absurd ((upd_self _ _ _).symm.trans hw) (by simp)
      · exact e (hI.apart w j b a p ((upd_ne _ _ e).symm.trans hw) hj hp h1))
  have hj2 : (setVar (setVar m j none) i (some a)).vars j = none := (upd_ne _ _ hij.symm).trans (upd_self _ _ _)
  obtain ⟨c1, c2, c3⟩ := bind_spec (a := null) (xs := []) b1 hj2 (Or.inl ⟨rfl, rfl, rfl⟩)
  have e : setVar (setVar (setVar m j none) i (some a)) j (some null) = setVar (setVar m i (some a)) j (some null) := by
    rw [setVar_comm m none (some a) hij.symm, setVar_setVar]
  rw [e] at c1 c2 c3
  refine ⟨c1, fun w => ?_, fun q => ?_⟩
  · rw [c2 w]
    by_cases e1 : w = j
    · subst e1; rw [upd_self, upd_self]
    · rw [upd_ne _ _ e1, upd_ne _ _ e1, b2 w]
      by_cases e2 : w = i
      · subst e2; rw [upd_self, upd_self, hx]
      · rw [upd_ne _ _ e2, upd_ne _ _ e2, u2 w, upd_ne _ _ e1]
  · rw [c3 q, b3 q, u3 q]
    have h1 : Leaked m q → a.ptr ≠ some q := fun h => h.2 j a hj
    have h2 : null.ptr ≠ some q := by simp [null]
    tauto

/-! ### C107 -/

/-- The memory which an operation leaks: that of an array which is assigned to by moving. -/
def Op.leaks (m : Mem T) : Op T → ℕ → Prop
  | .moveAssign i j, q => i ≠ j ∧ ∃ a, m.vars i = some a ∧ a.ptr = some q
  | _, _ => False

/-- **C107**: every operation of a program which constructs new arrays and uses existing ones is defined, keeps arrays apart,
and does to the elements what it says; the only memory leaked is that of arrays assigned to by moving. -/
theorem C107_step {m : Mem T} (hI : Inv m) (o : Op T) (hA : o.Allowed (value m)) :
    ∃ m', step m o = some m' ∧ Inv m' ∧ (∀ v, value m' v = o.spec (value m) v) ∧
      ∀ q, Leaked m' q ↔ Leaked m q ∨ o.leaks m q := by
  cases o with
  | default i =>
    obtain ⟨b1, b2, b3⟩ := bind_spec (a := null) (xs := []) hI ((hI.value_none i).1 hA) (Or.inl ⟨rfl, rfl, rfl⟩)
    refine ⟨_, rfl, b1, b2, fun q => ?_⟩
    rw [b3 q]; simp [null, Op.leaks]
  | make i xs =>
    obtain ⟨b1, b2, b3⟩ := make_spec hI ((hI.value_none i).1 hA) xs
    exact ⟨_, rfl, b1, b2, fun q => by rw [b3 q]; simp [Op.leaks]⟩
  | copy i j =>
    obtain ⟨b, hb⟩ := hI.value_some hA.2
    obtain ⟨xs, h1, -, h2⟩ := hI.read hb
    obtain ⟨b1, b2, b3⟩ := make_spec hI ((hI.value_none i).1 hA.1) xs
    refine ⟨make m i xs, ?_, b1, fun v => ?_, fun q => by rw [b3 q]; simp [Op.leaks]⟩
    · show (m.vars j).bind _ = _
      rw [hb, Option.bind_some, h1]; rfl
    · rw [b2 v]; show _ = upd (value m) i (value m j) v; rw [h2]
  | move i j =>
    obtain ⟨b, hb⟩ := hI.value_some hA.2
    have hi := (hI.value_none i).1 hA.1
    have hij : i ≠ j := by rintro rfl; rw [hi] at hb; exact absurd hb (by simp)
    obtain ⟨b1, b2, b3⟩ := transfer_spec hI hij hi hb
    refine ⟨_, ?_, b1, b2, fun q => by rw [b3 q]; simp [Op.leaks]⟩
    show (m.vars j).map _ = _
    rw [hb]; rfl
  | assign i j =>
    obtain ⟨a, ha⟩ := hI.value_some hA.1
    obtain ⟨b, hb⟩ := hI.value_some hA.2
    obtain ⟨ys, h1, hl, h2⟩ := hI.read hb
    by_cases hs : a.size = b.size
    · obtain ⟨m', f1, f2, f3, f4⟩ := fill_spec hI ha (ys := ys) (by omega)
      refine ⟨m', ?_, f2, fun v => ?_, fun q => by rw [f4 q]; simp [Op.leaks]⟩
      · show (m.vars i).bind _ = _
        rw [ha, Option.bind_some, hb, Option.bind_some, if_pos hs, h1]; exact f1
      · rw [f3 v]; show _ = upd (value m) i (value m j) v; rw [h2]
    · have hij : j ≠ i := by
        rintro rfl; rw [ha] at hb; exact hs (by rw [Option.some.inj hb])
      obtain ⟨m', r1, r2, -, -, r5, r6, r7⟩ := remove_spec hI ha
      have hread : read m' b = some ys := by
        have h3 := r6 j
        rw [upd_ne _ _ hij, h2] at h3
        unfold value at h3
        rw [show (setVar m' i none).vars j = some b from (upd_ne _ _ hij).trans (by rw [r2]; exact hb), Option.bind_some] at h3
        exact h3
      obtain ⟨b1, b2, b3⟩ := make_spec r5 (v := i) (upd_self _ _ _) ys
      rw [make_setVar] at b1 b2 b3
      refine ⟨make m' i ys, ?_, b1, fun v => ?_, fun q => by rw [b3 q, r7 q]; simp [Op.leaks]⟩
      · show (m.vars i).bind _ = _
        rw [ha, Option.bind_some, hb, Option.bind_some, if_neg hs, r1, Option.bind_some, hread]; rfl
      · rw [b2 v]
        show _ = upd (value m) i (value m j) v
        by_cases e : v = i
        · subst e; rw [upd_self, upd_self, h2]
        · rw [upd_ne _ _ e, upd_ne _ _ e, r6 v, upd_ne _ _ e]
  | moveAssign i j =>
    obtain ⟨a, ha⟩ := hI.value_some hA.1
    obtain ⟨b, hb⟩ := hI.value_some hA.2
    by_cases hij : i = j
    · refine ⟨m, ?_, hI, fun v => ?_, fun q => ?_⟩
      · show (m.vars i).bind _ = _
        rw [ha, Option.bind_some, hb, Option.map_some, if_pos hij]
      · show _ = (if i = j then value m else _) v; rw [if_pos hij]
      · simp [Op.leaks, hij]
    · obtain ⟨u1, u2, u3⟩ := unbind_spec hI ha
      have hb' : (setVar m i none).vars j = some b := (upd_ne _ _ (Ne.symm hij)).trans hb
      obtain ⟨b1, b2, b3⟩ := transfer_spec u1 hij (upd_self _ _ _) hb'
      rw [setVar_setVar] at b1 b2 b3
      refine ⟨_, ?_, b1, fun v => ?_, fun q => ?_⟩
      · show (m.vars i).bind _ = _
        rw [ha, Option.bind_some, hb, Option.map_some, if_neg hij]
      · rw [b2 v]
        show _ = (if i = j then value m else upd (upd (value m) i (value m j)) j (some [])) v
        rw [if_neg hij]
        by_cases e1 : v = j
        · subst e1; rw [upd_self, upd_self]
        · rw [upd_ne _ _ e1, upd_ne _ _ e1]
          by_cases e2 : v = i
          · subst e2; rw [upd_self, upd_self, u2 j, upd_ne _ _ (Ne.symm hij)]
          · rw [upd_ne _ _ e2, upd_ne _ _ e2, u2 v, upd_ne _ _ e2]
      · rw [b3 q, u3 q]
        refine or_congr_right ⟨fun e => ⟨hij, a, ha, e⟩, ?_⟩
        rintro ⟨-, a', ha', e⟩
        rw [ha] at ha'; obtain rfl := Option.some.inj ha'; exact e
  | resize i n t =>
    obtain ⟨a, ha⟩ := hI.value_some hA
    obtain ⟨xs, h1, hl, h2⟩ := hI.read ha
    by_cases hs : a.size = n
    · refine ⟨m, ?_, hI, fun v => ?_, fun q => by simp [Op.leaks]⟩
      · show (m.vars i).bind _ = _
        rw [ha, Option.bind_some, if_pos hs]
      · show _ = upd (value m) i ((value m i).map _) v
        by_cases e : v = i
        · subst e; rw [upd_self, h2, Option.map_some, ← hs, ← hl, List.take_length]; simp
        · rw [upd_ne _ _ e]
    · generalize hys : xs.take n ++ List.replicate (n - xs.length) t = ys
      have hly : ys.length = n := by rw [← hys]; simp; omega
      obtain ⟨e1, e2, e3, e4, e5⟩ := extend_spec hI ys
      obtain ⟨m', r1, r2, r3, -, r5, r6, r7⟩ := remove_spec e1 (show (extend m ys).vars i = some a from ha)
      have hlive : (setVar m' i none).heap[m.heap.length]? = some (some ys) := by
        show m'.heap[m.heap.length]? = _
        rw [r3 _ (e4 i a ha)]; exact e3
      obtain ⟨b1, b2, b3⟩ := bind_spec (a := ⟨n, some m.heap.length⟩) (xs := ys) r5 (v := i) (upd_self _ _ _)
        (Or.inr ⟨_, rfl, hlive, hly, fun w b hw => by
          by_cases e : w = i
          · subst e; exact absurd ((upd_self _ _ _).symm.trans hw) (by simp)
          · have : m'.vars w = some b := (upd_ne _ _ e).symm.trans hw
            rw [r2] at this; exact e4 w b this⟩)
      rw [setVar_setVar] at b1 b2 b3
      refine ⟨_, ?_, b1, fun v => ?_, fun q => ?_⟩
      · show (m.vars i).bind _ = _
        rw [ha, Option.bind_some, if_neg hs, h1, Option.bind_some, hys, r1]; rfl
      · rw [b2 v]
        show _ = upd (value m) i ((value m i).map _) v
        by_cases e : v = i
        · subst e; rw [upd_self, upd_self, h2, Option.map_some, hys]
        · rw [upd_ne _ _ e, upd_ne _ _ e, r6 v, upd_ne _ _ e, e2]
      · rw [b3 q, r7 q, e5 q]
        simp only [Op.leaks, or_false]
        constructor
        · rintro ⟨h | h, h'⟩
          · exact h
          · exact absurd (by rw [h]) h'
        · intro h
          refine ⟨Or.inl h, fun e => ?_⟩
          have hq : m.heap.length = q := Option.some.inj e
          obtain ⟨zs, hz⟩ := h.1
          have := (List.getElem?_eq_some_iff.1 hz).1
          omega
  | reallocate i n t =>
    obtain ⟨a, ha⟩ := hI.value_some hA
    obtain ⟨xs, h1, hl, h2⟩ := hI.read ha
    by_cases hs : a.size = n
    · refine ⟨m, ?_, hI, fun v => ?_, fun q => by simp [Op.leaks]⟩
      · show (m.vars i).bind _ = _
        rw [ha, Option.bind_some, if_pos hs]
      · show _ = upd (value m) i ((value m i).map _) v
        by_cases e : v = i
        · subst e; rw [upd_self, h2, Option.map_some, if_pos (by omega)]
        · rw [upd_ne _ _ e]
    · obtain ⟨m', r1, r2, -, -, r5, r6, r7⟩ := remove_spec hI ha
      obtain ⟨b1, b2, b3⟩ := make_spec r5 (v := i) (upd_self _ _ _) (List.replicate n t)
      rw [make_setVar] at b1 b2 b3
      refine ⟨_, ?_, b1, fun v => ?_, fun q => by rw [b3 q, r7 q]; simp [Op.leaks]⟩
      · show (m.vars i).bind _ = _
        rw [ha, Option.bind_some, if_neg hs, r1]; rfl
      · rw [b2 v]
        show _ = upd (value m) i ((value m i).map _) v
        by_cases e : v = i
        · subst e; rw [upd_self, upd_self, h2, Option.map_some, if_neg (by omega)]
        · rw [upd_ne _ _ e, upd_ne _ _ e, r6 v, upd_ne _ _ e]
  | swap i j =>
    obtain ⟨a, ha⟩ := hI.value_some hA.1
    obtain ⟨b, hb⟩ := hI.value_some hA.2
    have hstep : step m (.swap i j) = some (setVar (setVar m i (some b)) j (some a)) := by
      show (m.vars i).bind _ = _
      rw [ha, Option.bind_some, hb]; rfl
    have hvars : ∀ w, (setVar (setVar m i (some b)) j (some a)).vars w = m.vars (if w = j then i else if w = i then j else w) := by
      intro w
      show upd (upd m.vars i (some b)) j (some a) w = _
      by_cases e1 : w = j
      · subst e1; rw [upd_self, if_pos rfl, ha]
      · rw [upd_ne _ _ e1, if_neg e1]
        by_cases e2 : w = i
        · subst e2; rw [upd_self, if_pos rfl, hb]
        · rw [upd_ne _ _ e2, if_neg e2]
    have hinj : ∀ v w : ℕ, (if v = j then i else if v = i then j else v) = (if w = j then i else if w = i then j else w) → v = w := by
      intro v w h
      split_ifs at h <;> omega
    refine ⟨_, hstep, ⟨fun v c hv => ?_, fun v w c d p hv hw hc hd => ?_⟩, fun v => ?_, fun q => ?_⟩
    · rw [hvars] at hv; exact hI.block _ c hv
    · rw [hvars] at hv hw; exact hinj v w (hI.apart _ _ c d p hv hw hc hd)
    · unfold value
      rw [hvars]
      show value m _ = upd (upd (value m) i (value m j)) j (value m i) v
      by_cases e1 : v = j
      · subst e1; rw [upd_self, if_pos rfl]
      · rw [upd_ne _ _ e1, if_neg e1]
        by_cases e2 : v = i
        · subst e2; rw [upd_self, if_pos rfl]
        · rw [upd_ne _ _ e2, if_neg e2]
    · simp only [Op.leaks, or_false]
      refine and_congr Iff.rfl ⟨fun h v c hv => ?_, fun h v c hv => ?_⟩
      · refine h (if v = j then i else if v = i then j else v) c ?_
        rw [hvars]
        rw [← hv]; congr 1
        split_ifs <;> omega
      · rw [hvars] at hv; exact h _ c hv
  | set i k x =>
    obtain ⟨a, ha⟩ := hI.value_some hA
    obtain ⟨xs, h1, hl, h2⟩ := hI.read ha
    by_cases hk : k < a.size
    · obtain ⟨m', f1, f2, f3, f4⟩ := fill_spec hI ha (ys := xs.set k x) (by simp [hl])
      refine ⟨m', ?_, f2, fun v => ?_, fun q => by rw [f4 q]; simp [Op.leaks]⟩
      · show (m.vars i).bind _ = _
        rw [ha, Option.bind_some, h1, Option.bind_some, if_pos hk]; exact f1
      · rw [f3 v]; show _ = upd (value m) i ((value m i).map _) v; rw [h2]; rfl
    · refine ⟨m, ?_, hI, fun v => ?_, fun q => by simp [Op.leaks]⟩
      · show (m.vars i).bind _ = _
        rw [ha, Option.bind_some, h1, Option.bind_some, if_neg hk]
      · show _ = upd (value m) i ((value m i).map _) v
        by_cases e : v = i
        · subst e; rw [upd_self, h2, Option.map_some, List.set_eq_of_length_le (by omega)]
        · rw [upd_ne _ _ e]
  | destroy i =>
    obtain ⟨a, ha⟩ := hI.value_some hA
    obtain ⟨m', r1, -, -, -, r5, r6, r7⟩ := remove_spec hI ha
    refine ⟨_, ?_, r5, r6, fun q => by rw [r7 q]; simp [Op.leaks]⟩
    show (m.vars i).bind _ = _
    rw [ha, Option.bind_some, r1]; rfl

/-! ### Programs -/

/-- What programs do to arrays as values. -/
def specs (σ : ℕ → Option (List T)) : List (Op T) → ℕ → Option (List T)
  | [] => σ
  | o :: os => specs (o.spec σ) os

/-- Programs which construct new arrays and use existing ones. -/
def AllowedAll (σ : ℕ → Option (List T)) : List (Op T) → Prop
  | [] => True
  | o :: os => o.Allowed σ ∧ AllowedAll (o.spec σ) os

/-- The memory at the beginning. -/
def empty : Mem T := ⟨[], fun _ => none⟩

theorem empty_inv : Inv (empty : Mem T) :=
  ⟨fun v a h => absurd h (by simp [empty]), fun v w a b p h => absurd h (by simp [empty])⟩

theorem run_spec : ∀ (os : List (Op T)) {m : Mem T}, Inv m → AllowedAll (value m) os →
    ∃ m', run m os = some m' ∧ Inv m' ∧ value m' = specs (value m) os ∧
      ((∀ i j, .moveAssign i j ∉ os) → ∀ q, Leaked m' q ↔ Leaked m q) := by
  intro os
  induction os with
  | nil => intro m hI _; exact ⟨m, rfl, hI, rfl, fun _ q => Iff.rfl⟩
  | cons o os ih =>
    intro m hI hA
    obtain ⟨m1, h1, h2, h3, h4⟩ := C107_step hI o hA.1
    have h3' : value m1 = o.spec (value m) := funext h3
    obtain ⟨m', g1, g2, g3, g4⟩ := ih h2 (by rw [h3']; exact hA.2)
    refine ⟨m', ?_, g2, by rw [g3, h3']; rfl, fun hno q => ?_⟩
    · show (step m o).bind _ = _
      rw [h1]; exact g1
    · rw [g4 (fun i j h => hno i j (List.mem_cons_of_mem _ h)) q, h4 q]
      cases o with
      | moveAssign i j => exact absurd List.mem_cons_self (hno i j)
      | _ => simp [Op.leaks]

/-- **C107**: programs never read or free memory which is not live, and arrays behave as values: no operation changes the
elements of an array other than those which it names. -/
theorem C107_programs (os : List (Op T)) (hA : AllowedAll (fun _ => none) os) :
    ∃ m', run empty os = some m' ∧ Inv m' ∧ value m' = specs (fun _ => none) os := by
  obtain ⟨m', h1, h2, h3, -⟩ := run_spec os empty_inv hA
  exact ⟨m', h1, h2, h3⟩

/-- **C107** (partial): programs without move assignments leak no memory; at the end, when all arrays are destroyed, every
block has been freed. Missing: move assignments (`C107_move_assign_fails`). -/
theorem C107_no_leaks_partial (os : List (Op T)) (hA : AllowedAll (fun _ => none) os) (hno : ∀ i j, .moveAssign i j ∉ os) :
    ∃ m', run empty os = some m' ∧ (∀ q, ¬ Leaked m' q) ∧
      ((∀ v, specs (fun _ => none) os v = none) → ∀ b ∈ m'.heap, b = none) := by
  obtain ⟨m', h1, h2, h3, h4⟩ := run_spec os empty_inv hA
  have hl : ∀ q, ¬ Leaked m' q := fun q h => by
    obtain ⟨xs, hx⟩ := ((h4 hno q).1 h).1
    exact absurd hx (by simp [empty])
  refine ⟨m', h1, hl, fun hv b hb => ?_⟩
  cases b with
  | none => rfl
  | some xs =>
    exfalso
    obtain ⟨q, hq, e⟩ := List.mem_iff_getElem.1 hb
    refine hl q ⟨⟨xs, by rw [List.getElem?_eq_getElem hq, e]⟩, fun v a ha => ?_⟩
    have hn : value m' v = none := by rw [h3]; exact hv v
    rw [(h2.value_none v).1 hn] at ha
    exact absurd ha (by simp)

/-- **C107**: the block of an array which is assigned to by moving is never freed: `a={1}; b={2}; a=move(b);` and the
destructors. -/
theorem C107_move_assign_fails : ∃ m' : Mem ℕ,
    run empty [.make 0 [1], .make 1 [2], .moveAssign 0 1, .destroy 0, .destroy 1] = some m' ∧ (∀ v, m'.vars v = none) ∧
    Leaked m' 0 := by
  refine ⟨_, rfl, fun v => ?_, ⟨⟨[1], rfl⟩, fun v a h => ?_⟩⟩
  · show (if v = 1 then none else if v = 0 then none else _) = none
    by_cases e1 : v = 1
    · rw [if_pos e1]
    by_cases e0 : v = 0
    · rw [if_neg e1, if_pos e0]
    · simp [e1, e0, setVar, upd, make, extend, empty]
  · by_cases e1 : v = 1
    · subst e1; exact absurd h (by simp [setVar, upd])
    by_cases e0 : v = 0
    · subst e0; exact absurd h (by simp [setVar, upd])
    · exact absurd h (by simp [e1, e0, setVar, upd, make, extend, empty])

/-- A program which meets the hypotheses, with copies, a change of a copy, moves, sizes and self-assignment. -/
example : AllowedAll (T := ℕ) (fun _ => none) [.make 0 [1, 2], .copy 1 0, .set 1 0 7, .move 2 0, .resize 2 3 5, .assign 0 1,
    .assign 1 1, .swap 1 2, .destroy 2, .destroy 1, .destroy 0] := by
  simp [AllowedAll, Op.Allowed, Op.spec, upd]

/-! ### Complements -/

theorem complementLoop_spec : ∀ (js vs : List ℕ) (left : ℕ), js.Pairwise (· < ·) → vs.Pairwise (· < ·) → (∀ v ∈ vs, v ∈ js) →
    left + vs.length = js.length → complementLoop js vs left = some (js.filter (· ∉ vs)) := by
  intro js
  induction js with
  | nil =>
    intro vs left _ _ hsub hl
    cases vs with
    | nil => obtain rfl : left = 0 := by simpa using hl
             rfl
    | cons v vs => exact absurd (hsub v List.mem_cons_self) (by simp)
  | cons j js ih =>
    intro vs left hj hv hsub hl
    have hj' := List.pairwise_cons.1 hj
    cases vs with
    | nil =>
      cases left with
      | zero => exact absurd hl (by simp)
      | succ left =>
        show (complementLoop js [] left).map (j :: ·) = _
        rw [ih [] left hj'.2 hv (by simp) (by simpa using hl)]
        simp
    | cons v vs =>
      have hv' := List.pairwise_cons.1 hv
      by_cases e : j = v
      · subst e
        have hsub' : ∀ w ∈ vs, w ∈ js := fun w hw => by
          rcases List.mem_cons.1 (hsub w (List.mem_cons_of_mem _ hw)) with rfl | h
          · exact absurd (hv'.1 w hw) (Nat.lt_irrefl _)
          · exact h
        rw [show complementLoop (j :: js) (j :: vs) left = complementLoop js vs left by cases left <;> simp [complementLoop]]
        rw [ih vs left hj'.2 hv'.2 hsub' (by simp at hl; omega), List.filter_cons, if_neg (by simp)]
        congr 1
        refine List.filter_congr fun x hx => ?_
        have : x ≠ j := fun e => absurd (hj'.1 x hx) (by omega)
        simp [this]
      · have hnot : j ∉ v :: vs := by
          intro h
          rcases List.mem_cons.1 h with rfl | h
          · exact e rfl
          · have h1 := hv'.1 j h
            rcases List.mem_cons.1 (hsub v List.mem_cons_self) with h2 | h2
            · exact e h2.symm
            · have := hj'.1 v h2; omega
        have hsub' : ∀ w ∈ v :: vs, w ∈ js := fun w hw => by
          rcases List.mem_cons.1 (hsub w hw) with rfl | h
          · exact absurd hw hnot
          · exact h
        cases left with
        | zero =>
          exfalso
          have hnd : (v :: vs).Nodup := hv.imp fun h => by omega
          have := (List.subperm_of_subset hnd hsub').length_le
          simp at hl this; omega
        | succ left =>
          rw [show complementLoop (j :: js) (v :: vs) (left + 1) = (complementLoop js (v :: vs) left).map (j :: ·) by
            simp [complementLoop, e]]
          rw [ih (v :: vs) left hj'.2 hv hsub' (by simp at hl ⊢; omega), List.filter_cons, if_pos (by simpa using hnot)]
          rfl

/-- **C107** (partial): the complement of increasing indices below the bound is the increasing list of the others. Missing:
indices in any order (`C107_complement_fails`). -/
theorem C107_complement_partial (nmax : ℕ) (vars : List ℕ) (hv : vars.Pairwise (· < ·)) (hb : ∀ v ∈ vars, v < nmax) :
    complement nmax vars = some ((List.range nmax).filter (· ∉ vars)) := by
  have hnd : vars.Nodup := hv.imp fun h => by omega
  have hlen : vars.length ≤ nmax := by
    have := (List.subperm_of_subset hnd (fun v h => List.mem_range.2 (hb v h))).length_le
    simpa using this
  unfold complement
  rw [if_pos hlen]
  exact complementLoop_spec _ _ _ List.pairwise_lt_range hv (fun v h => List.mem_range.2 (hb v h)) (by simp; omega)

/-- **C107**: for indices in another order, or repeated, the complement is written past the end. -/
theorem C107_complement_fails : complement 2 [1, 0] = none ∧ complement 2 [1, 1] = none := by decide

example : complement 5 [1, 3] = some [0, 2, 4] := by decide

end Verif.ArrayMemory
