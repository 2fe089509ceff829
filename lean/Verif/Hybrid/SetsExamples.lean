import Verif.Hybrid.Sets
import Mathlib.Order.Nat
import Mathlib.Order.Interval.Set.Basic

/-!
# Examples and counterexamples for C67

Sets are closed intervals of natural numbers; the tests are exact.
-/

namespace Verif.Hybrid

open Verif.Container

namespace SetsExample

/-- Exact tests of intervals of natural numbers, each interval being open. -/
def T : Tests (ℕ × ℕ) (ℕ × ℕ) where
  inside a b := decide (a.2 < a.1) || decide (b.1 ≤ a.1) && decide (a.2 ≤ b.2)
  separated a b := decide (a.2 < a.1) || decide (b.2 < b.1) || decide (a.2 < b.1) || decide (b.2 < a.1)
  overlaps a b := decide (a.1 ≤ a.2) && decide (b.1 ≤ b.2) && decide (b.1 ≤ a.2) && decide (a.1 ≤ b.2)
  covers a b := decide (b.2 < b.1) || decide (a.1 ≤ b.1) && decide (b.2 ≤ a.2)
  isEmpty a := decide (a.2 < a.1)
  boxIsEmpty b := decide (b.2 < b.1)

/-- The points of an interval. -/
def den (a : ℕ × ℕ) : Set ℕ := Set.Icc a.1 a.2

theorem sound : Sound T den den den den where
  inside a b h := by
    simp only [T, Bool.or_eq_true, Bool.and_eq_true, decide_eq_true_eq] at h
    rintro x ⟨h1, h2⟩
    simp only [den, Set.mem_Icc]
    omega
  separated a b h := by
    simp only [T, Bool.or_eq_true, decide_eq_true_eq] at h
    rw [Set.disjoint_left]
    rintro x ⟨h1, h2⟩ ⟨h3, h4⟩
    omega
  overlaps a b h := by
    simp only [T, Bool.and_eq_true, decide_eq_true_eq] at h
    refine ⟨max a.1 b.1, ?_, ?_⟩ <;> simp only [den, Set.mem_Icc] <;> omega
  covers a b h := by
    simp only [T, Bool.or_eq_true, Bool.and_eq_true, decide_eq_true_eq] at h
    rintro x ⟨h1, h2⟩
    simp only [den, Set.mem_Icc]
    omega
  isEmpty a h := by
    simp only [T, decide_eq_true_eq] at h
    exact Set.Icc_eq_empty (by omega)
  boxIsEmpty a h := by
    simp only [T, decide_eq_true_eq] at h
    exact Set.Icc_eq_empty (by omega)

/-- Locations with one variable, another value of it, and another variable. -/
def p : Loc ℕ ℕ := ⟨[(0, 0)], by simp [SortedKeys]⟩
def q : Loc ℕ ℕ := ⟨[(0, 1)], by simp [SortedKeys]⟩
def r : Loc ℕ ℕ := ⟨[(1, 0)], by simp [SortedKeys]⟩

theorem p_lt_q : p < q := by decide

example : Basic.inside T ⟨p, (2, 3)⟩ ⟨p, (1, 4)⟩ = some true := by decide
example : Basic.boxInside T ⟨p, (2, 3)⟩ ⟨p, (1, 4)⟩ = some true := by decide
example : Basic.separated T ⟨p, (2, 3)⟩ ⟨q, (1, 4)⟩ = some true := by decide
example : Basic.overlaps T ⟨p, (2, 3)⟩ ⟨p, (3, 4)⟩ = some true := by decide
example : Basic.covers T ⟨p, (2, 3)⟩ ⟨p, (3, 3)⟩ = some true := by decide
example : Basic.covers T ⟨p, (2, 3)⟩ ⟨q, (3, 3)⟩ = some false := by decide
example : Basic.boxCovers T ⟨p, (2, 3)⟩ ⟨q, (4, 3)⟩ = some true := by decide
example : Basic.overlaps T ⟨p, (2, 3)⟩ ⟨r, (3, 4)⟩ = none := by decide

/-- A set in two locations. -/
def m : HMap ℕ ℕ (ℕ × ℕ) := [(p, (2, 3)), (q, (5, 6))]

theorem m_sorted : SortedKeys m := by
  rw [SortedKeys, m]
  simpa using p_lt_q

example : hmOverlaps T m ⟨q, (6, 9)⟩ = true := by decide
example : hmCovers T m ⟨q, (6, 6)⟩ = true := by decide
example : hmSeparated T m ⟨q, (7, 9)⟩ = true := by decide
example : hmInside T [(p, (0, 4)), (q, (4, 9))] m true = some true := by decide
example : Basic.insideBoxes T ⟨q, (5, 5)⟩ m = true := by decide

end SetsExample

open SetsExample in
/-- C67: `HybridBoundedConstraintSet::inside` fails for the empty set in a location without box, although the set is inside
the boxes. -/
theorem C67_inside_fails :
    hmInside T [(p, (0, 4))] [(p, (2, 3)), (q, (6, 5))] true = none ∧
    hmStates den [(p, (2, 3)), (q, (6, 5))] ⊆ hmStates den [(p, (0, 4))] := by
  refine ⟨by decide, ?_⟩
  rintro ⟨l, x⟩ ⟨a, h1, h2⟩
  simp only [List.mem_cons, Prod.mk.injEq, List.not_mem_nil, or_false] at h1
  rcases h1 with ⟨rfl, rfl⟩ | ⟨rfl, rfl⟩
  · refine ⟨(0, 4), List.mem_cons_self, ?_⟩
    simp only [den, Set.mem_Icc] at h2 ⊢
    omega
  · simp only [den, Set.mem_Icc] at h2
    omega

open SetsExample in
/-- C67: after adjoining the interval from 5 to 6 in a location which is present, 5 is not in the set. -/
theorem C67_adjoin_wrong : (p, 5) ∈ (Basic.mk p (5, 6)).states den ∧ (p, 5) ∉ hmStates den (hmAdjoin p (5, 6) m) := by
  rw [C67_adjoin_ignored m m_sorted p (5, 6) (2, 3) (by decide)]
  refine ⟨⟨rfl, by simp [den]⟩, ?_⟩
  rintro ⟨a, h1, h2⟩
  simp only [m, List.mem_cons, Prod.mk.injEq, List.not_mem_nil, or_false] at h1
  rcases h1 with ⟨-, rfl⟩ | ⟨h, rfl⟩
  · simp [den] at h2
  · exact absurd h (ne_of_lt p_lt_q)

open SetsExample in
/-- C67: `intersection` fails if a box is in a location without constraints, although the code has a branch for it. -/
theorem C67_intersection_fails :
    hmIntersection (fun b c : ℕ × ℕ => (max b.1 c.1, min b.2 c.2)) id [(p, (2, 3))] [(p, (0, 9)), (q, (0, 9))] [] = none := by
  decide

open SetsExample in
example : hmIntersection (fun b c : ℕ × ℕ => (max b.1 c.1, min b.2 c.2)) id [(p, (2, 3)), (q, (5, 6))]
    [(p, (0, 2)), (q, (6, 9))] [] = some [(p, (2, 2)), (q, (6, 6))] := by decide

open SetsExample in
example : (hlAdjoin p 7 (2, 3) ([] : HList ℕ ℕ ℕ (ℕ × ℕ))).bind (hlAdjoin q 8 (4, 5)) =
    some [(p, 7, [(2, 3)]), (q, 8, [(4, 5)])] := by decide

open SetsExample in
example : hlRun 3 (hlSkip [(r, 7, []), (p, 7, [1, 2]), (q, 8, [5])]) = [(p, 7, 1), (p, 7, 2), (q, 8, 5)] := by decide

end Verif.Hybrid
