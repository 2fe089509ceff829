import Verif.BinaryTree.Spec
import Mathlib.Tactic.Tauto
/-!
# Helper lemmas for binary trees
-/
namespace Ariadne.BinaryTree
open Ariadne.Logical (LV)
open Ariadne.Logical.LV
namespace Tree

theorem definitely_iff {v : LV} : v.definitely = true ↔ v = true_ := by cases v <;> decide
theorem definitely_false_iff {v : LV} : v.definitely = false ↔ v ≠ true_ := by cases v <;> decide

theorem extends_nil (p : Path) : Extends p [] := by intro i h; simp at h

theorem extends_cons (p : Path) (b : Bool) (w : List Bool) :
    Extends p (b :: w) ↔ p 0 = b ∧ Extends (p.drop 1) w := by
  constructor
  · intro h
    refine ⟨h 0 (by simp), fun i hi => ?_⟩
    have := h (i+1) (by simpa using hi)
    simpa [Path.drop, Nat.add_comm] using this
  · rintro ⟨h0, h⟩ i hi
    cases i with
    | zero => exact h0
    | succ i =>
      have := h i (by simpa using hi)
      simpa [Path.drop, Nat.add_comm] using this

theorem mem_leaf (v : LV) (p : Path) : p ∈ (leaf v).points ↔ v = true_ := by
  constructor
  · rintro ⟨w, h, _⟩
    cases w with
    | nil => simpa [leafAt] using h
    | cons b w => simp [leafAt] at h
  · rintro rfl
    exact ⟨[], rfl, extends_nil p⟩

theorem mem_node (v : LV) (l r : Tree) (p : Path) :
    p ∈ (node v l r).points ↔ (if p 0 then p.drop 1 ∈ r.points else p.drop 1 ∈ l.points) := by
  constructor
  · rintro ⟨w, h, he⟩
    cases w with
    | nil => simp [leafAt] at h
    | cons b w =>
      rw [extends_cons] at he
      simp only [leafAt] at h
      rw [he.1]
      cases b
      · exact ⟨w, by simpa using h, he.2⟩
      · exact ⟨w, by simpa using h, he.2⟩
  · intro h
    cases hp : p 0 with
    | true =>
      simp only [hp, if_true] at h
      obtain ⟨w, h, he⟩ := h
      exact ⟨true :: w, by simpa [leafAt] using h, (extends_cons _ _ _).2 ⟨hp, he⟩⟩
    | false =>
      simp only [hp, Bool.false_eq_true, if_false] at h
      obtain ⟨w, h, he⟩ := h
      exact ⟨false :: w, by simpa [leafAt] using h, (extends_cons _ _ _).2 ⟨hp, he⟩⟩

/-- Path starting with `b` and continuing as `p`. -/
def cons (b : Bool) (p : Path) : Path := fun i => match i with | 0 => b | i+1 => p i

@[simp] theorem cons_zero (b : Bool) (p : Path) : cons b p 0 = b := rfl
@[simp] theorem drop_cons (b : Bool) (p : Path) : (cons b p).drop 1 = p := by
  funext i; simp [Path.drop, Nat.add_comm 1 i, cons]

theorem forall_path {P : Path → Prop} : (∀ p, P p) ↔ (∀ p, P (cons false p)) ∧ (∀ p, P (cons true p)) := by
  constructor
  · intro h; exact ⟨fun p => h _, fun p => h _⟩
  · rintro ⟨h0, h1⟩ p
    have : p = cons (p 0) (p.drop 1) := by
      funext i
      cases i with
      | zero => rfl
      | succ i => simp [cons, Path.drop, Nat.add_comm 1 i]
    rw [this]
    cases p 0
    · exact h0 _
    · exact h1 _

theorem exists_path {P : Path → Prop} : (∃ p, P p) ↔ (∃ p, P (cons false p)) ∨ (∃ p, P (cons true p)) := by
  have := forall_path (P := fun p => ¬ P p)
  constructor
  · rintro ⟨p, hp⟩
    by_contra hc
    push Not at hc
    exact this.2 hc p hp
  · rintro (⟨p, hp⟩ | ⟨p, hp⟩) <;> exact ⟨_, hp⟩

theorem drop_drop (p : Path) (m n : Nat) : (p.drop m).drop n = p.drop (m + n) := by
  funext i; simp [Path.drop, Nat.add_assoc]

theorem mem_hasEnabled (t : Tree) : t.hasEnabled = true ↔ ∃ p, p ∈ t.points := by
  induction t with
  | leaf v =>
    simp only [hasEnabled, mem_leaf, definitely_iff]
    exact ⟨fun h => ⟨fun _ => false, h⟩, fun ⟨_, h⟩ => h⟩
  | node v l r ihl ihr =>
    rw [exists_path]
    simp only [hasEnabled, Bool.or_eq_true, ihl, ihr, mem_node, cons_zero, drop_cons, if_true,
      Bool.false_eq_true, if_false]

theorem mem_allEnabled (t : Tree) : t.allEnabled = true ↔ ∀ p, p ∈ t.points := by
  induction t with
  | leaf v =>
    simp only [allEnabled, mem_leaf, definitely_iff]
    exact ⟨fun h _ => h, fun h => h (fun _ => false)⟩
  | node v l r ihl ihr =>
    rw [forall_path]
    simp only [allEnabled, Bool.and_eq_true, ihl, ihr, mem_node, cons_zero, drop_cons, if_true,
      Bool.false_eq_true, if_false]

theorem exists_extends (w : List Bool) (q : Path) : ∃ p, Extends p w ∧ p.drop w.length = q := by
  induction w with
  | nil => exact ⟨q, extends_nil q, by funext i; simp [Path.drop]⟩
  | cons b w ih =>
    obtain ⟨p, h1, h2⟩ := ih
    refine ⟨cons b p, (extends_cons _ _ _).2 ⟨rfl, by rwa [drop_cons]⟩, ?_⟩
    rw [List.length_cons, Nat.add_comm, ← drop_drop, drop_cons, h2]

end Tree
end Ariadne.BinaryTree
