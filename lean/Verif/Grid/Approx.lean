import Verif.Grid.BoxQuery
import Verif.Grid.Neighbour
/-!
# C21: outer, lower and inner approximations of sets by pavings

A set is known to the algorithms only through answers about boxes: `sep`, `cov` and `ov` say whether
`separated`, `covers` and `overlaps` *definitely* hold.  Nothing is assumed about them but soundness:
an indeterminate answer is modelled by `false`.
-/
namespace Verif.Grid
open Ariadne.BinaryWord (Word)
open Ariadne.BinaryTree
open Ariadne.BinaryTree.Tree
open Ariadne.Logical (LV)
open Ariadne.Logical.LV

/-! ## Model -/

/-- `split()` of a node followed by updates of both children, as in the recursive steps below
(e.g. grid_paving.cpp:2245-2251). -/
def both (f : Bool → Tree → Tree) : Tree → Tree
  | .leaf v => .node indeterminate (f false (.leaf v)) (f true (.leaf v))
  | .node v l r => .node v (f false l) (f true r)

/-- Models `_adjoin_outer_approximation` (grid_paving.cpp:2223-2269 and, identical, 2271-2317).  The
number is `max_mince_tree_depth - pPath->size()`; `cov` is constantly false if the set is not open. -/
def outerApprox (sep cov : Word → Bool) : ℕ → Word → Tree → Tree
  | 0, w, t => if sep w then t else if cov w then .leaf true_ else if t.isEnabled then t else .leaf true_
  | n + 1, w, t => if sep w then t else if cov w then .leaf true_ else if t.isEnabled then t
    else both (fun b => outerApprox sep cov n (w ++ [b])) t

/-- Models `_adjoin_lower_approximation` for overt sets (grid_paving.cpp:2326-2357). -/
def lowerOvert (ov : Word → Bool) : ℕ → Word → Tree → Tree
  | 0, w, t => if ov w then (if !t.hasEnabled then .leaf true_ else t) else t
  | n + 1, w, t => if ov w then both (fun b => lowerOvert ov n (w ++ [b])) t else t

/-- Models `_adjoin_lower_approximation` for open sets (grid_paving.cpp:2359-2393). -/
def lowerOpen (cov ov : Word → Bool) : ℕ → Word → Tree → Tree
  | 0, w, t => if cov w then (Tree.leaf true_).mince 0
    else if ov w then (if t.isLeaf then .leaf true_ else t) else t
  | n + 1, w, t => if cov w then (Tree.leaf true_).mince (n + 1)
    else if ov w then both (fun b => lowerOpen cov ov n (w ++ [b])) t else t

/-- Models `_adjoin_inner_approximation` (grid_paving.cpp:2525-2572); `closed` says whether the set
is also a closed set, so that it can be asked about separation. -/
def innerApprox (closed : Bool) (sep cov : Word → Bool) : ℕ → Word → Tree → Tree
  | 0, w, t => if !t.isEnabled then (if cov w then .leaf true_ else t) else t
  | n + 1, w, t => if !t.isEnabled then
      (if cov w then .leaf true_
       else if closed && !sep w then both (fun b => innerApprox closed sep cov n (w ++ [b])) t else t)
    else t

/-- Models `zero_cell_subdivisions_to_tree_subdivisions` (grid_paving.cpp:1112-1125) for an empty path
from the primary cell. -/
def treeDepth (d extent subdivisions : ℕ) : ℕ := (extent + subdivisions) * d

section
variable {K : Type*} [Field K] [LinearOrder K] [IsStrictOrderedRing K] {d : ℕ} [NeZero d]

/-- The box in grid coordinates (grid_paving.cpp:83-86), rounded outwards (float_bounds.hpp:631-657 with
a positive singleton divisor). -/
def toLattice (R : Ariadne.Rounding K) (o l : Fin d → K) (b : Box K d) : Box K d := fun j =>
  (R.down (R.down ((b j).1 - o j) / l j), R.up (R.up ((b j).2 - o j) / l j))

/-- Models `smallest_enclosing_primary_cell_extent(UpperBoxType,Grid)` (grid_paving.cpp:81-89). -/
def enclosingExtent (R : Ariadne.Rounding K) (o l : Fin d → K) (fuel : ℕ) (b : Box K d) : Option ℕ :=
  smallestEnclosing fuel (toLattice R o l b)

/-- Models `adjoin_outer_approximation` (grid_paving.cpp:2411-2441, 2443-2473) of a set with bounding
box `bb`. -/
def Paving.adjoinOuter (R : Ariadne.Rounding K) (o l : Fin d → K) (fuel : ℕ) (p : Paving) (bb : Box K d)
    (sep cov : Box K d → Bool) (subdivisions : ℕ) : Option Paving :=
  (enclosingExtent R o l fuel bb).bind fun e =>
    p.align d (e + d) true false (outerApprox (fun w => sep (spaceBox (gridMap R o l) (e + d) w))
      (fun w => cov (spaceBox (gridMap R o l) (e + d) w)) (treeDepth d (e + d) subdivisions) [])

/-- Models `adjoin_over_approximation` (grid_paving.cpp:2395-2403): `none` also for the exception. -/
def Paving.adjoinOver (R : Ariadne.Rounding K) (o l : Fin d → K) (fuel : ℕ) (p : Paving) (b : Box K d)
    (sep cov : Box K d → Bool) (subdivisions : ℕ) : Option Paving :=
  if (List.finRange d).any fun j => decide ((b j).1 ≥ (b j).2) then none
  else p.adjoinOuter R o l fuel b sep cov subdivisions

/-- Models `adjoin_lower_approximation` with given extent (grid_paving.cpp:2481-2510); `cov` is `none` for a
set that is not open. -/
def Paving.adjoinLower (φ : Fin d → K → K) (p : Paving) (e : ℕ)
    (cov : Option (Box K d → Bool)) (ov : Box K d → Bool) (subdivisions : ℕ) : Option Paving :=
  p.align d e true false (match cov with
    | some c => lowerOpen (fun w => c (spaceBox φ e w)) (fun w => ov (spaceBox φ e w)) (treeDepth d e subdivisions) []
    | none => lowerOvert (fun w => ov (spaceBox φ e w)) (treeDepth d e subdivisions) [])

/-- Models `adjoin_inner_approximation` with given extent (grid_paving.cpp:2574-2596); `sep` is `none` for a
set that is not closed. -/
def Paving.adjoinInner (φ : Fin d → K → K) (p : Paving) (e : ℕ)
    (sep : Option (Box K d → Bool)) (cov : Box K d → Bool) (subdivisions : ℕ) : Option Paving :=
  p.align d e true false (innerApprox sep.isSome (fun w => (sep.getD fun _ => true) (spaceBox φ e w))
    (fun w => cov (spaceBox φ e w)) (treeDepth d e subdivisions) [])

/-- Models `adjoin_lower_approximation` within a bounding box (grid_paving.cpp:2512-2523). -/
def Paving.adjoinLowerIn (R : Ariadne.Rounding K) (o l : Fin d → K) (fuel : ℕ) (p : Paving) (bb : Box K d)
    (cov : Option (Box K d → Bool)) (ov : Box K d → Bool) (subdivisions : ℕ) : Option Paving :=
  (enclosingExtent R o l fuel bb).bind fun e => p.adjoinLower (gridMap R o l) e cov ov subdivisions

/-- Models `adjoin_inner_approximation` within a bounding box (grid_paving.cpp:2598-2613). -/
def Paving.adjoinInnerIn (R : Ariadne.Rounding K) (o l : Fin d → K) (fuel : ℕ) (p : Paving) (bb : Box K d)
    (sep : Option (Box K d → Bool)) (cov : Box K d → Bool) (subdivisions : ℕ) : Option Paving :=
  (enclosingExtent R o l fuel bb).bind fun e => p.adjoinInner (gridMap R o l) e sep cov subdivisions
end

/-! ## Prefixes of addresses -/

/-- The first `k` bits of an address. -/
def pre (P : Path) (k : ℕ) : Word := (List.range k).map P

theorem pre_zero (P : Path) : pre P 0 = [] := rfl

theorem pre_length (P : Path) (k : ℕ) : (pre P k).length = k := by simp [pre]

theorem pre_snoc (P : Path) (k : ℕ) : pre P (k + 1) = pre P k ++ [P k] := by
  simp [pre, List.range_succ]

theorem pre_succ (P : Path) (k : ℕ) : pre P (k + 1) = P 0 :: pre (Path.drop 1 P) k := by
  simp [pre, List.range_succ_eq_map, Path.drop, Function.comp_def, Nat.add_comm]

theorem pre_add (P : Path) (m k : ℕ) : pre P (m + k) = pre P m ++ pre (Path.drop m P) k := by
  induction k with
  | zero => simp [pre_zero]
  | succ k ih => rw [← Nat.add_assoc, pre_snoc, ih, pre_snoc, List.append_assoc]; rfl

theorem pre_of_extends {P : Path} {w : Word} (h : Extends P w) : pre P w.length = w := by
  apply List.ext_getElem
  · rw [pre_length]
  · intro i h1 h2
    simp only [pre, List.getElem_map, List.getElem_range]
    exact h i h2

theorem extends_pre (P : Path) (k : ℕ) : Extends P (pre P k) := by
  intro i h
  simp [pre]

/-! ## The tree recursions, exactly -/

/-- The child of a node after splitting. -/
def child : Tree → Bool → Tree
  | .leaf v, _ => .leaf v
  | .node _ l r, b => if b then r else l

theorem child_wf {t : Tree} (ht : t.WF) (b : Bool) : (child t b).WF := by
  cases t with
  | leaf v => exact ht
  | node v l r => cases b; exacts [ht.2.1, ht.2.2]

theorem mem_child (t : Tree) (P : Path) : P ∈ t.points ↔ Path.drop 1 P ∈ (child t (P 0)).points := by
  cases t with
  | leaf v => simp [child, mem_leaf]
  | node v l r => rw [mem_node]; cases h : P 0 <;> simp [child]

theorem mem_both (f : Bool → Tree → Tree) (t : Tree) (P : Path) :
    P ∈ (both f t).points ↔ Path.drop 1 P ∈ (f (P 0) (child t (P 0))).points := by
  cases t with
  | leaf v => rw [both, mem_node]; cases h : P 0 <;> simp [child]
  | node v l r => rw [both, mem_node]; cases h : P 0 <;> simp [child]

theorem both_wf (f : Bool → Tree → Tree) (t : Tree) (ht : t.WF) (hf : ∀ b, ∀ u : Tree, u.WF → (f b u).WF) :
    (both f t).WF := by
  cases t with
  | leaf v => exact ⟨rfl, hf _ _ ht, hf _ _ ht⟩
  | node v l r => exact ⟨ht.1, hf _ _ ht.2.1, hf _ _ ht.2.2⟩

/-- **Outer approximation, exactly**: besides the old cells, those addresses no prefix of which was
separated, down to the finest level or to a covered cell. -/
theorem outerApprox_points (sep cov : Word → Bool) (n : ℕ) (w : Word) (t : Tree) (ht : t.WF) :
    (outerApprox sep cov n w t).WF ∧ ∀ P, P ∈ (outerApprox sep cov n w t).points ↔
      P ∈ t.points ∨ ∃ k ≤ n, (∀ j ≤ k, sep (w ++ pre P j) = false) ∧ (cov (w ++ pre P k) = true ∨ k = n) := by
  induction n generalizing w t with
  | zero =>
    have base : ∀ P, (∃ k ≤ 0, (∀ j ≤ k, sep (w ++ pre P j) = false) ∧ (cov (w ++ pre P k) = true ∨ k = 0)) ↔
        sep w = false := by
      intro P
      constructor
      · rintro ⟨k, hk, h1, -⟩
        have := h1 0 (Nat.zero_le _)
        rwa [pre_zero, List.append_nil] at this
      · intro h
        refine ⟨0, le_refl _, fun j hj => ?_, Or.inr rfl⟩
        rw [Nat.le_zero.1 hj, pre_zero, List.append_nil]; exact h
    rw [outerApprox]
    split_ifs with h1 h2 h3
    · exact ⟨ht, fun P => by rw [base]; simp [h1]⟩
    · exact ⟨Or.inl rfl, fun P => by rw [base]; simp [h1, mem_leaf]⟩
    · have := isEnabled_leaf ht h3
      subst this
      exact ⟨ht, fun P => by simp [mem_leaf]⟩
    · exact ⟨Or.inl rfl, fun P => by rw [base]; simp [h1, mem_leaf]⟩
  | succ n ih =>
    rw [outerApprox]
    split_ifs with h1 h2 h3
    · refine ⟨ht, fun P => ⟨Or.inl, ?_⟩⟩
      rintro (h | ⟨k, hk, h, -⟩)
      · exact h
      · have := h 0 (Nat.zero_le _)
        rw [pre_zero, List.append_nil, h1] at this
        exact absurd this (by simp)
    · refine ⟨Or.inl rfl, fun P => ⟨fun _ => Or.inr ⟨0, Nat.zero_le _, fun j hj => ?_, Or.inl ?_⟩, fun _ => (mem_leaf _ _).2 rfl⟩⟩
      · rw [Nat.le_zero.1 hj, pre_zero, List.append_nil]; simpa using h1
      · rw [pre_zero, List.append_nil]; exact h2
    · have := isEnabled_leaf ht h3
      subst this
      exact ⟨ht, fun P => by simp [mem_leaf]⟩
    · refine ⟨both_wf _ t ht fun b u hu => (ih _ u hu).1, fun P => ?_⟩
      rw [mem_both, (ih _ _ (child_wf ht _)).2, ← mem_child]
      refine or_congr Iff.rfl ?_
      constructor
      · rintro ⟨k, hk, g1, g2⟩
        refine ⟨k + 1, by omega, fun j hj => ?_, ?_⟩
        · cases j with
          | zero => rw [pre_zero, List.append_nil]; simpa using h1
          | succ j =>
            have := g1 j (by omega)
            rwa [List.append_assoc, List.singleton_append, ← pre_succ] at this
        · rw [List.append_assoc, List.singleton_append, ← pre_succ] at g2
          exact g2.imp id (by omega)
      · rintro ⟨k, hk, g1, g2⟩
        cases k with
        | zero =>
          rw [pre_zero, List.append_nil] at g2
          rcases g2 with g2 | g2
          · exact absurd g2 h2
          · omega
        | succ k =>
          refine ⟨k, by omega, fun j hj => ?_, ?_⟩
          · rw [List.append_assoc, List.singleton_append, ← pre_succ]; exact g1 (j + 1) (by omega)
          · rw [List.append_assoc, List.singleton_append, ← pre_succ]; exact g2.imp id (by omega)

/-- **Inner approximation, exactly**: besides the old cells, the covered cells no larger cell of which was
separated. -/
theorem innerApprox_points (closed : Bool) (sep cov : Word → Bool) (n : ℕ) (w : Word) (t : Tree) (ht : t.WF) :
    (innerApprox closed sep cov n w t).WF ∧ ∀ P, P ∈ (innerApprox closed sep cov n w t).points ↔
      P ∈ t.points ∨ ∃ k ≤ n, cov (w ++ pre P k) = true ∧
        ∀ j < k, closed = true ∧ sep (w ++ pre P j) = false := by
  induction n generalizing w t with
  | zero =>
    rw [innerApprox]
    split_ifs with h1 h2
    · refine ⟨Or.inl rfl, fun P => ⟨fun _ => Or.inr ⟨0, le_refl _, ?_, fun j hj => by omega⟩, fun _ => (mem_leaf _ _).2 rfl⟩⟩
      rw [pre_zero, List.append_nil]; exact h2
    · refine ⟨ht, fun P => ⟨Or.inl, ?_⟩⟩
      rintro (h | ⟨k, hk, h, -⟩)
      · exact h
      · rw [Nat.le_zero.1 hk, pre_zero, List.append_nil] at h
        exact absurd h h2
    · have := isEnabled_leaf ht (by simpa using h1)
      subst this
      exact ⟨ht, fun P => by simp [mem_leaf]⟩
  | succ n ih =>
    rw [innerApprox]
    split_ifs with h1 h2 h3
    · refine ⟨Or.inl rfl, fun P => ⟨fun _ => Or.inr ⟨0, Nat.zero_le _, ?_, fun j hj => by omega⟩, fun _ => (mem_leaf _ _).2 rfl⟩⟩
      rw [pre_zero, List.append_nil]; exact h2
    · refine ⟨both_wf _ t ht fun b u hu => (ih _ u hu).1, fun P => ?_⟩
      rw [mem_both, (ih _ _ (child_wf ht _)).2, ← mem_child]
      refine or_congr Iff.rfl ?_
      constructor
      · rintro ⟨k, hk, g1, g2⟩
        rw [List.append_assoc, List.singleton_append, ← pre_succ] at g1
        refine ⟨k + 1, by omega, g1, fun j hj => ?_⟩
        cases j with
        | zero => rw [pre_zero, List.append_nil]; simpa using h3
        | succ j =>
          have := g2 j (by omega)
          rwa [List.append_assoc, List.singleton_append, ← pre_succ] at this
      · rintro ⟨k, hk, g1, g2⟩
        cases k with
        | zero => rw [pre_zero, List.append_nil] at g1; exact absurd g1 h2
        | succ k =>
          refine ⟨k, by omega, ?_, fun j hj => ?_⟩
          · rw [List.append_assoc, List.singleton_append, ← pre_succ]; exact g1
          · rw [List.append_assoc, List.singleton_append, ← pre_succ]; exact g2 (j + 1) (by omega)
    · refine ⟨ht, fun P => ⟨Or.inl, ?_⟩⟩
      rintro (h | ⟨k, hk, h, g⟩)
      · exact h
      · cases k with
        | zero => rw [pre_zero, List.append_nil] at h; exact absurd h h2
        | succ k =>
          have := g 0 (by omega)
          rw [pre_zero, List.append_nil] at this
          exact absurd (by simp [this.1, this.2]) h3
    · have := isEnabled_leaf ht (by simpa using h1)
      subst this
      exact ⟨ht, fun P => by simp [mem_leaf]⟩

/-- **Lower approximation of overt sets, exactly**: besides the old cells, the cells of the finest level that
overlap together with all larger cells, unless something in them was enabled before. -/
theorem lowerOvert_points (ov : Word → Bool) (n : ℕ) (w : Word) (t : Tree) (ht : t.WF) :
    (lowerOvert ov n w t).WF ∧ ∀ P, P ∈ (lowerOvert ov n w t).points ↔
      P ∈ t.points ∨ ((∀ j ≤ n, ov (w ++ pre P j) = true) ∧ ∀ Q ∈ t.points, pre Q n ≠ pre P n) := by
  induction n generalizing w t with
  | zero =>
    rw [lowerOvert]
    split_ifs with h1 h2
    · refine ⟨Or.inl rfl, fun P => ⟨fun _ => Or.inr ⟨fun j hj => ?_, fun Q hQ => ?_⟩, fun _ => (mem_leaf _ _).2 rfl⟩⟩
      · rw [Nat.le_zero.1 hj, pre_zero, List.append_nil]; exact h1
      · have : t.hasEnabled = true := (C15_hasEnabled t).2 ⟨Q, hQ⟩
        simp [this] at h2
    · refine ⟨ht, fun P => ⟨Or.inl, ?_⟩⟩
      rintro (h | ⟨-, h⟩)
      · exact h
      · have : t.hasEnabled = true := by simpa using h2
        obtain ⟨Q, hQ⟩ := (C15_hasEnabled t).1 this
        exact absurd rfl (h Q hQ)
    · refine ⟨ht, fun P => ⟨Or.inl, ?_⟩⟩
      rintro (h | ⟨h, -⟩)
      · exact h
      · have := h 0 (le_refl _)
        rw [pre_zero, List.append_nil] at this
        exact absurd this h1
  | succ n ih =>
    rw [lowerOvert]
    split_ifs with h1
    · refine ⟨both_wf _ t ht fun b u hu => (ih _ u hu).1, fun P => ?_⟩
      rw [mem_both, (ih _ _ (child_wf ht _)).2, ← mem_child]
      refine or_congr Iff.rfl (and_congr ?_ ?_)
      · constructor
        · intro h j hj
          cases j with
          | zero => rw [pre_zero, List.append_nil]; exact h1
          | succ j =>
            have := h j (by omega)
            rwa [List.append_assoc, List.singleton_append, ← pre_succ] at this
        · intro h j hj
          rw [List.append_assoc, List.singleton_append, ← pre_succ]
          exact h (j + 1) (by omega)
      · constructor
        · intro h Q hQ he
          rw [pre_succ, pre_succ, List.cons.injEq] at he
          have hQ' := (mem_child t Q).1 hQ
          rw [he.1] at hQ'
          exact h _ hQ' he.2
        · intro h Q hQ he
          refine h (cons (P 0) Q) ?_ ?_
          · rw [mem_child, drop_cons, cons_zero]; exact hQ
          · rw [pre_succ, drop_cons, cons_zero, he, ← pre_succ]
    · refine ⟨ht, fun P => ⟨Or.inl, ?_⟩⟩
      rintro (h | ⟨h, -⟩)
      · exact h
      · have := h 0 (Nat.zero_le _)
        rw [pre_zero, List.append_nil] at this
        exact absurd this h1

/-- The tree has a leaf within `n` levels on the way of `P`. -/
def Shallow (t : Tree) (P : Path) (n : ℕ) : Prop := ∃ v, t.leafAt v ≠ none ∧ Extends P v ∧ v.length ≤ n

theorem shallow_zero (t : Tree) (P : Path) : Shallow t P 0 ↔ t.isLeaf = true := by
  constructor
  · rintro ⟨v, h1, -, h3⟩
    rw [List.length_eq_zero_iff.1 (Nat.le_zero.1 h3)] at h1
    cases t with
    | leaf v => rfl
    | node v l r => exact absurd rfl h1
  · intro h
    cases t with
    | leaf v => exact ⟨[], by simp [leafAt], extends_nil _, le_refl _⟩
    | node v l r => simp [isLeaf] at h

theorem shallow_child (t : Tree) (P : Path) (n : ℕ) :
    Shallow t P (n + 1) ↔ Shallow (child t (P 0)) (Path.drop 1 P) n := by
  cases t with
  | leaf v =>
    constructor
    · intro _; exact ⟨[], by simp [child, leafAt], extends_nil _, Nat.zero_le _⟩
    · intro _; exact ⟨[], by simp [leafAt], extends_nil _, Nat.zero_le _⟩
  | node v l r =>
    constructor
    · rintro ⟨u, h1, h2, h3⟩
      cases u with
      | nil => exact absurd rfl h1
      | cons b u =>
        rw [extends_cons] at h2
        refine ⟨u, ?_, h2.2, by simpa using h3⟩
        rw [h2.1]
        cases b <;> simpa [leafAt, child] using h1
    · rintro ⟨u, h1, h2, h3⟩
      refine ⟨P 0 :: u, ?_, (extends_cons _ _ _).2 ⟨rfl, h2⟩, by simpa using h3⟩
      cases h : P 0 <;> simpa [leafAt, child, h] using h1

/-- **Lower approximation of open sets, exactly**: besides the old cells, the covered cells, and the
overlapping cells of the finest level unless the tree was finer there. -/
theorem lowerOpen_points (cov ov : Word → Bool) (n : ℕ) (w : Word) (t : Tree) (ht : t.WF) :
    (lowerOpen cov ov n w t).WF ∧ ∀ P, P ∈ (lowerOpen cov ov n w t).points ↔
      P ∈ t.points ∨ ∃ k ≤ n, (∀ j < k, ov (w ++ pre P j) = true) ∧
        (cov (w ++ pre P k) = true ∨ (k = n ∧ ov (w ++ pre P n) = true ∧ Shallow t P n)) := by
  have hleaf : ∀ m, ((Tree.leaf true_).mince m).WF ∧ ∀ P, P ∈ ((Tree.leaf true_).mince m).points := fun m =>
    ⟨(C15_invariant (leaf true_) (leaf true_) [] m (Or.inl rfl) (Or.inl rfl)).2.2.2.2.2.2.1,
      fun P => by rw [C16_mince_points]; exact (mem_leaf _ _).2 rfl⟩
  induction n generalizing w t with
  | zero =>
    rw [lowerOpen]
    by_cases h1 : cov w = true
    · rw [if_pos h1]
      refine ⟨(hleaf 0).1, fun P => ⟨fun _ => Or.inr ⟨0, le_refl _, fun j hj => by omega, Or.inl ?_⟩, fun _ => (hleaf 0).2 P⟩⟩
      rw [pre_zero, List.append_nil]; exact h1
    · rw [if_neg h1]
      by_cases h2 : ov w = true
      · rw [if_pos h2]
        by_cases h3 : t.isLeaf = true
        · rw [if_pos h3]
          refine ⟨Or.inl rfl, fun P => ⟨fun _ => Or.inr ⟨0, le_refl _, fun j hj => by omega, Or.inr ⟨rfl, ?_, ?_⟩⟩,
            fun _ => (mem_leaf _ _).2 rfl⟩⟩
          · rw [pre_zero, List.append_nil]; exact h2
          · exact (shallow_zero t P).2 h3
        · rw [if_neg h3]
          refine ⟨ht, fun P => ⟨Or.inl, ?_⟩⟩
          rintro (h | ⟨k, hk, -, h | ⟨-, -, h⟩⟩)
          · exact h
          · rw [Nat.le_zero.1 hk, pre_zero, List.append_nil] at h; exact absurd h h1
          · exact absurd ((shallow_zero t P).1 h) h3
      · rw [if_neg h2]
        refine ⟨ht, fun P => ⟨Or.inl, ?_⟩⟩
        rintro (h | ⟨k, hk, -, h | ⟨-, h, -⟩⟩)
        · exact h
        · rw [Nat.le_zero.1 hk, pre_zero, List.append_nil] at h; exact absurd h h1
        · rw [pre_zero, List.append_nil] at h; exact absurd h h2
  | succ n ih =>
    rw [lowerOpen]
    by_cases h1 : cov w = true
    · rw [if_pos h1]
      refine ⟨(hleaf _).1, fun P => ⟨fun _ => Or.inr ⟨0, Nat.zero_le _, fun j hj => by omega, Or.inl ?_⟩, fun _ => (hleaf _).2 P⟩⟩
      rw [pre_zero, List.append_nil]; exact h1
    · rw [if_neg h1]
      by_cases h2 : ov w = true
      · rw [if_pos h2]
        refine ⟨both_wf _ t ht fun b u hu => (ih _ u hu).1, fun P => ?_⟩
        rw [mem_both, (ih _ _ (child_wf ht _)).2, ← mem_child]
        refine or_congr Iff.rfl ?_
        constructor
        · rintro ⟨k, hk, g1, g2⟩
          simp only [List.append_assoc, List.singleton_append, ← pre_succ, ← shallow_child] at g1 g2
          refine ⟨k + 1, by omega, fun j hj => ?_, g2.imp id fun h => ⟨by omega, h.2⟩⟩
          cases j with
          | zero => rw [pre_zero, List.append_nil]; exact h2
          | succ j => exact g1 j (by omega)
        · rintro ⟨k, hk, g1, g2⟩
          cases k with
          | zero =>
            rcases g2 with g2 | g2
            · rw [pre_zero, List.append_nil] at g2; exact absurd g2 h1
            · exact absurd g2.1 (by omega)
          | succ k =>
            refine ⟨k, by omega, ?_⟩
            simp only [List.append_assoc, List.singleton_append, ← pre_succ, ← shallow_child]
            exact ⟨fun j hj => g1 (j + 1) (by omega), g2.imp id fun h => ⟨by omega, h.2⟩⟩
      · rw [if_neg h2]
        refine ⟨ht, fun P => ⟨Or.inl, ?_⟩⟩
        rintro (h | ⟨k, hk, g, h⟩)
        · exact h
        · cases k with
          | zero =>
            rcases h with h | h
            · rw [pre_zero, List.append_nil] at h; exact absurd h h1
            · exact absurd h.1 (by omega)
          | succ k =>
            have := g 0 (by omega)
            rw [pre_zero, List.append_nil] at this
            exact absurd this h2

/-! ## Closed sets of addresses -/

section Closure
variable {K : Type*} [Field K] [LinearOrder K] {d : ℕ} [NeZero d]

/-- The points in all the boxes on the way of some address. -/
def closureOf (B : Word → Box K d) (S : Set Path) : Set (Fin d → K) :=
  {x | ∃ P ∈ S, ∀ k, x ∈ (B (pre P k)).closed}

omit [NeZero d] in
theorem closureOf_union (B : Word → Box K d) (S T : Set Path) :
    closureOf B (S ∪ T) = closureOf B S ∪ closureOf B T := by
  ext x
  constructor
  · rintro ⟨P, h | h, hx⟩
    · exact Or.inl ⟨P, h, hx⟩
    · exact Or.inr ⟨P, h, hx⟩
  · rintro (⟨P, h, hx⟩ | ⟨P, h, hx⟩)
    · exact ⟨P, Or.inl h, hx⟩
    · exact ⟨P, Or.inr h, hx⟩

omit [NeZero d] in
theorem closureOf_mono (B : Word → Box K d) {S T : Set Path} (h : S ⊆ T) : closureOf B S ⊆ closureOf B T :=
  fun _ ⟨P, hP, hx⟩ => ⟨P, h hP, hx⟩

variable {B : Word → Box K d}

omit [NeZero d] in
/-- Every point of a closed cell has an address below it. -/
theorem exists_path (hB : Splits B) (w : Word) (x : Fin d → K) (hx : x ∈ (B w).closed) :
    ∃ Q : Path, ∀ k, x ∈ (B (w ++ pre Q k)).closed := by
  classical
  choose c hc using fun u : {u : Word // x ∈ (B u).closed} => closed_child hB u.1 x u.2
  let seq : ℕ → {u : Word // x ∈ (B u).closed} := fun k =>
    Nat.rec ⟨w, hx⟩ (fun _ u => ⟨u.1 ++ [c u], hc u⟩) k
  refine ⟨fun k => c (seq k), fun k => ?_⟩
  have : (seq k).1 = w ++ pre (fun k => c (seq k)) k := by
    induction k with
    | zero => simp [pre_zero, seq]
    | succ k ih => rw [pre_snoc, ← List.append_assoc, ← ih]
  rw [← this]; exact (seq k).2

omit [NeZero d] in
theorem closed_pre (hB : Splits B) (P : Path) (x : Fin d → K) (m : ℕ)
    (h : ∀ k, x ∈ (B (pre P (m + k))).closed) (k : ℕ) : x ∈ (B (pre P k)).closed := by
  have := h k
  rw [Nat.add_comm, pre_add] at this
  exact closed_mono hB _ _ this

omit [NeZero d] in
theorem closureOf_tree (hB : Splits B) (t : Tree) :
    closureOf B t.points = {x | ∃ v, t.leafAt v = some true_ ∧ x ∈ (B v).closed} := by
  ext x
  constructor
  · rintro ⟨P, ⟨v, hv, hP⟩, hx⟩
    exact ⟨v, hv, by rw [← pre_of_extends hP]; exact hx _⟩
  · rintro ⟨v, hv, hx⟩
    obtain ⟨Q, hQ⟩ := exists_path hB v x hx
    obtain ⟨P, h1, h2⟩ := exists_extends v Q
    refine ⟨P, ⟨v, hv, h1⟩, closed_pre hB P x v.length fun k => ?_⟩
    rw [pre_add, pre_of_extends h1, h2]; exact hQ k

omit [NeZero d] in
theorem closureOf_univ (hB : Splits B) : closureOf B Set.univ = (B []).closed := by
  ext x
  constructor
  · rintro ⟨P, -, hx⟩; exact hx 0
  · intro hx
    obtain ⟨Q, hQ⟩ := exists_path hB [] x hx
    exact ⟨Q, trivial, hQ⟩

variable [IsStrictOrderedRing K]

theorem closureOf_reroot (φ : Fin d → K → K) (hφ : ∀ j, Monotone (φ j)) {e N : ℕ} (h : e ≤ N) (S : Set Path) :
    closureOf (spaceBox φ N) (below (primaryPath d N e) S) = closureOf (spaceBox φ e) S := by
  have hbox : ∀ w, spaceBox φ N (primaryPath d N e ++ w) = spaceBox φ e w := fun w => by
    rw [spaceBox, C18_reroot N e w h, spaceBox]
  ext x
  constructor
  · rintro ⟨P, ⟨h1, h2⟩, hx⟩
    refine ⟨_, h2, fun k => ?_⟩
    have := hx ((primaryPath d N e).length + k)
    rwa [pre_add, pre_of_extends h1, hbox] at this
  · rintro ⟨Q, hQ, hx⟩
    obtain ⟨P, h1, h2⟩ := exists_extends (primaryPath d N e) Q
    refine ⟨P, ⟨h1, by rw [h2]; exact hQ⟩, closed_pre (spaceBox_splits φ hφ N) P x (primaryPath d N e).length fun k => ?_⟩
    rw [pre_add, pre_of_extends h1, h2, hbox]; exact hx k

/-- The set of a paving in the state space: the union of the closed boxes of its cells. -/
def Paving.closed (φ : Fin d → K → K) (p : Paving) : Set (Fin d → K) := p.sub.closed φ

theorem Paving.closed_eq (φ : Fin d → K → K) (hφ : ∀ j, Monotone (φ j)) (p : Paving) :
    p.closed φ = closureOf (spaceBox φ p.extent) p.tree.points := by
  rw [closureOf_tree (spaceBox_splits φ hφ _)]
  ext x
  simp [Paving.closed, Subpaving.closed, Paving.sub]

theorem walk_gen (f : Tree → Tree) (hf : ∀ t : Tree, t.WF → (f t).WF ∧ t.points ⊆ (f t).points) (path : Word)
    (t : Tree) (ht : t.WF) :
    (walk true false f path t).WF ∧
    (((walk true false f path t).points = t.points ∧ below path Set.univ ⊆ t.points) ∨
      ∃ u : Tree, u.WF ∧ below path u.points ⊆ t.points ∧
        (walk true false f path t).points = t.points ∪ below path (f u).points) := by
  induction path generalizing t with
  | nil =>
    rw [walk]
    refine ⟨(hf t ht).1, Or.inr ⟨t, ht, by rw [below_nil], ?_⟩⟩
    rw [below_nil, Set.union_eq_self_of_subset_left (hf t ht).2]
  | cons b path ih =>
    rw [walk.eq_def]
    simp only
    by_cases hs : ((t.isEnabled && true) || (t.isDisabled && false)) = true
    · rw [if_pos hs]
      have : t = .leaf true_ := isEnabled_leaf ht (by simpa using hs)
      subst this
      exact ⟨ht, Or.inl ⟨rfl, fun p _ => (mem_leaf _ _).2 rfl⟩⟩
    · rw [if_neg hs]
      have key : ∀ (X c : Tree), (∀ p, p ∈ t.points → p 0 = b → Path.drop 1 p ∈ c.points) →
          (∀ p, p 0 = b → Path.drop 1 p ∈ c.points → p ∈ t.points) →
          (∀ p, p 0 = b → (p ∈ X.points ↔ Path.drop 1 p ∈ (walk true false f path c).points)) →
          (∀ p, p 0 ≠ b → (p ∈ X.points ↔ p ∈ t.points)) → c.WF →
          ((X.points = t.points ∧ below (b :: path) Set.univ ⊆ t.points) ∨
            ∃ u : Tree, u.WF ∧ below (b :: path) u.points ⊆ t.points ∧
              X.points = t.points ∪ below (b :: path) (f u).points) := by
        intro X c h1 h2 h3 h4 hc
        rcases (ih c hc).2 with ⟨g1, g2⟩ | ⟨u, hu, g1, g2⟩
        · left
          constructor
          · ext p
            by_cases hp : p 0 = b
            · rw [h3 p hp, g1]; exact ⟨h2 p hp, fun h => h1 p h hp⟩
            · exact h4 p hp
          · intro p hp
            rw [mem_below_cons] at hp
            exact h2 p hp.1 (g2 hp.2)
        · right
          refine ⟨u, hu, ?_, ?_⟩
          · intro p hp
            rw [mem_below_cons] at hp
            exact h2 p hp.1 (g1 hp.2)
          · ext p
            rw [Set.mem_union, mem_below_cons]
            by_cases hp : p 0 = b
            · rw [h3 p hp, g2, Set.mem_union]
              exact ⟨Or.imp (h2 p hp) fun h => ⟨hp, h⟩, Or.imp (fun h => h1 p h hp) And.right⟩
            · rw [h4 p hp]
              exact ⟨Or.inl, fun h => h.resolve_right fun h => hp h.1⟩
      cases t with
      | leaf v =>
        have hw := (ih (.leaf v) ht).1
        cases b
        · refine ⟨⟨rfl, hw, ht⟩, key _ (.leaf v) ?_ ?_ ?_ ?_ ht⟩ <;> intro p <;> cases hp : p 0 <;>
            simp [mem_node, hp, mem_leaf]
        · refine ⟨⟨rfl, ht, hw⟩, key _ (.leaf v) ?_ ?_ ?_ ?_ ht⟩ <;> intro p <;> cases hp : p 0 <;>
            simp [mem_node, hp, mem_leaf]
      | node v l r =>
        cases b
        · refine ⟨⟨ht.1, (ih l ht.2.1).1, ht.2.2⟩, key _ l ?_ ?_ ?_ ?_ ht.2.1⟩ <;> intro p <;> cases hp : p 0 <;>
            simp [mem_node, hp]
        · refine ⟨⟨ht.1, ht.2.1, (ih r ht.2.2).1⟩, key _ r ?_ ?_ ?_ ?_ ht.2.2⟩ <;> intro p <;> cases hp : p 0 <;>
            simp [mem_node, hp]

/-- The effect on the closed set of any growing update of the node that `align_with_cell` finds. -/
theorem align_closed (φ : Fin d → K → K) (hφ : ∀ j, Monotone (φ j)) (p : Paving) (hp : p.WF) (e : ℕ)
    (f : Tree → Tree) (hf : ∀ t : Tree, t.WF → (f t).WF ∧ t.points ⊆ (f t).points) :
    ∃ q, p.align d e true false f = some q ∧ q.WF ∧ p.closed φ ⊆ q.closed φ ∧
      ((q.closed φ = p.closed φ ∧ (spaceBox φ e []).closed ⊆ p.closed φ) ∨
        ∃ u : Tree, u.WF ∧ closureOf (spaceBox φ e) u.points ⊆ p.closed φ ∧
          q.closed φ = p.closed φ ∪ closureOf (spaceBox φ e) (f u).points) := by
  have weaken : ∀ q : Paving, ((q.closed φ = p.closed φ ∧ (spaceBox φ e []).closed ⊆ p.closed φ) ∨
        ∃ u : Tree, u.WF ∧ closureOf (spaceBox φ e) u.points ⊆ p.closed φ ∧
          q.closed φ = p.closed φ ∪ closureOf (spaceBox φ e) (f u).points) → p.closed φ ⊆ q.closed φ := by
    rintro q (⟨h, -⟩ | ⟨u, -, -, h⟩)
    · rw [h]
    · rw [h]; exact Set.subset_union_left
  suffices h : ∃ q, p.align d e true false f = some q ∧ q.WF ∧
      ((q.closed φ = p.closed φ ∧ (spaceBox φ e []).closed ⊆ p.closed φ) ∨
        ∃ u : Tree, u.WF ∧ closureOf (spaceBox φ e) u.points ⊆ p.closed φ ∧
          q.closed φ = p.closed φ ∪ closureOf (spaceBox φ e) (f u).points) by
    obtain ⟨q, h1, h2, h3⟩ := h
    exact ⟨q, h1, h2, weaken q h3, h3⟩
  unfold Paving.align
  split_ifs with h1 h2
  · obtain ⟨w1, w2⟩ := walk_gen f hf (primaryPath d p.extent e) p.tree hp
    refine ⟨⟨p.extent, walk true false f (primaryPath d p.extent e) p.tree⟩, rfl, w1, ?_⟩
    rw [Paving.closed_eq φ hφ, Paving.closed_eq φ hφ]
    rcases w2 with ⟨g1, g2⟩ | ⟨u, hu, g1, g2⟩
    · left
      refine ⟨by rw [g1], ?_⟩
      rw [← closureOf_univ (spaceBox_splits φ hφ e), ← closureOf_reroot φ hφ (show e ≤ p.extent by omega)]
      exact closureOf_mono _ g2
    · right
      refine ⟨u, hu, ?_, ?_⟩
      · rw [← closureOf_reroot φ hφ (show e ≤ p.extent by omega)]
        exact closureOf_mono _ g1
      · rw [g2, closureOf_union, closureOf_reroot φ hφ (show e ≤ p.extent by omega)]
  · obtain ⟨s, hs, hpts⟩ := C15_prepend p.tree (primaryPath d e p.extent) (primaryPath_ne_nil h2)
    have hsw : s.WF := (C15_invariant p.tree p.tree _ 0 hp hp).2.2.2.2.2.2.2.2 s hs
    refine ⟨⟨e, f s⟩, by rw [Paving.upTo, hs]; rfl, (hf s hsw).1, Or.inr ⟨s, hsw, ?_, ?_⟩⟩
    · rw [Paving.closed_eq φ hφ, ← closureOf_reroot φ hφ h2.le, hpts]; exact subset_rfl
    · rw [Paving.closed_eq φ hφ, Paving.closed_eq φ hφ, ← closureOf_reroot φ hφ h2.le]
      refine (Set.union_eq_self_of_subset_left (closureOf_mono _ ?_)).symm
      have := (hf s hsw).2
      rw [hpts] at this
      exact this
  · have he : p.extent = e := by omega
    refine ⟨⟨p.extent, f p.tree⟩, rfl, (hf p.tree hp).1, Or.inr ⟨p.tree, hp, ?_, ?_⟩⟩
    · rw [Paving.closed_eq φ hφ, he]
    · rw [Paving.closed_eq φ hφ, Paving.closed_eq φ hφ, he]
      exact (Set.union_eq_self_of_subset_left (closureOf_mono _ (hf p.tree hp).2)).symm

/-! ## The theorems -/

/-- The finest cells have lattice width `2^-k`. -/
theorem width_finest (e k : ℕ) (w : Word) (hw : w.length = treeDepth d e k) (j : Fin d) :
    (latticeBox K d e w j).2 - (latticeBox K d e w j).1 = 1 / 2 ^ k := by
  have hd := NeZero.pos d
  rw [C18_width, hw, treeDepth]
  have : ((e + k) * d + (d - 1 - j)) / d = e + k := by
    rw [Nat.add_comm, Nat.add_mul_div_right _ _ hd, Nat.div_eq_of_lt (by omega), Nat.zero_add]
  rw [this, pow_add]
  have h2 : (2 : K) ^ e ≠ 0 := by positivity
  field_simp

/-- **The primary cell encloses the set.**  Although the boxes of cells are rounded to nearest, the
box of the primary cell found contains the given box. -/
theorem C21_enclosing [Archimedean K] (R : Ariadne.Rounding K) (o l : Fin d → K) (hl : ∀ j, 0 < l j)
    (bb : Box K d) (hbb : ∀ j, R.Rep (bb j).1 ∧ R.Rep (bb j).2) :
    ∃ n e, (∀ fuel, n ≤ fuel → enclosingExtent R o l fuel bb = some e) ∧
      ∀ N, e ≤ N → bb.closed ⊆ (spaceBox (gridMap R o l) N []).closed := by
  obtain ⟨n, e, h1, h2, -⟩ := C18_smallest_enclosing (toLattice R o l bb)
  refine ⟨n, e, h1, fun N hN x hx j => ?_⟩
  have hmono := closed_mono (spaceBox_splits (gridMap R o l) (gridMap_mono R o l fun j => (hl j).le) N)
    [] (primaryPath d N e)
  have hbox : spaceBox (gridMap R o l) N ([] ++ primaryPath d N e) = spaceBox (gridMap R o l) e [] := by
    have := C18_reroot (K := K) (d := d) N e [] hN
    rw [List.append_nil] at this
    rw [List.nil_append, spaceBox, this, spaceBox]
  rw [hbox] at hmono
  refine hmono (fun j => ?_) j
  have hb := h2 j
  simp only [toLattice] at hb
  have e1 : (spaceBox (gridMap R o l) e [] j) =
      (R.near (o j + R.near (l j * (primaryBox K d e j).1)), R.near (o j + R.near (l j * (primaryBox K d e j).2))) := rfl
  rw [e1]
  constructor
  · refine le_trans ?_ (hx j).1
    have g1 := hb.1.trans_le (R.down_le _)
    rw [lt_div_iff₀ (hl j), mul_comm] at g1
    have g2 : R.near (l j * (primaryBox K d e j).1) ≤ R.down ((bb j).1 - o j) := by
      have := R.near_mono g1.le
      rwa [R.near_of_rep (R.rep_down _)] at this
    have g3 : o j + R.near (l j * (primaryBox K d e j).1) ≤ (bb j).1 := by
      linarith [R.down_le ((bb j).1 - o j)]
    have := R.near_mono g3
    rwa [R.near_of_rep (hbb j).1] at this
  · refine (hx j).2.trans ?_
    have g1 := (R.le_up _).trans_lt hb.2
    rw [div_lt_iff₀ (hl j), mul_comm] at g1
    have g2 : R.up ((bb j).2 - o j) ≤ R.near (l j * (primaryBox K d e j).2) := by
      have := R.near_mono g1.le
      rwa [R.near_of_rep (R.rep_up _)] at this
    have g3 : (bb j).2 ≤ o j + R.near (l j * (primaryBox K d e j).2) := by
      linarith [R.le_up ((bb j).2 - o j)]
    have := R.near_mono g3
    rwa [R.near_of_rep (hbb j).2] at this

/-- **Outer approximations.**  For every set with a sound `separated` and a bounding box, every grid,
every fineness and every previous paving, the new paving contains the old one and the whole set; every point
added lies in a cell not known to be separated from the set which is as fine as was asked for or known to be
covered. -/
theorem C21_outer [Archimedean K] (R : Ariadne.Rounding K) (o l : Fin d → K) (hl : ∀ j, 0 < l j) (p : Paving)
    (hp : p.WF) (S : Set (Fin d → K)) (bb : Box K d) (hbb : ∀ j, R.Rep (bb j).1 ∧ R.Rep (bb j).2)
    (hS : S ⊆ bb.closed) (sep cov : Box K d → Bool)
    (hsep : ∀ b : Box K d, (∀ j, (b j).1 ≤ (b j).2) → sep b = true → S ∩ b.closed = ∅) (k : ℕ) :
    ∃ n, ∀ fuel, n ≤ fuel → ∃ q N, p.adjoinOuter R o l fuel bb sep cov k = some q ∧ q.WF ∧
      p.closed (gridMap R o l) ⊆ q.closed (gridMap R o l) ∧ S ⊆ q.closed (gridMap R o l) ∧
      ∀ x ∈ q.closed (gridMap R o l), x ∈ p.closed (gridMap R o l) ∨
        ∃ w, x ∈ (spaceBox (gridMap R o l) N w).closed ∧ sep (spaceBox (gridMap R o l) N w) = false ∧
          (cov (spaceBox (gridMap R o l) N w) = true ∨
            ∀ j, (latticeBox K d N w j).2 - (latticeBox K d N w j).1 = 1 / 2 ^ k) := by
  have hφ := gridMap_mono R o l fun j => (hl j).le
  obtain ⟨n, e, h1, h2⟩ := C21_enclosing R o l hl bb hbb
  refine ⟨n, fun fuel hfuel => ?_⟩
  have hspec := outerApprox_points (fun w => sep (spaceBox (gridMap R o l) (e + d) w))
    (fun w => cov (spaceBox (gridMap R o l) (e + d) w)) (treeDepth d (e + d) k) []
  obtain ⟨q, q1, q2, q3, q4⟩ := align_closed (gridMap R o l) hφ p hp (e + d) _
    fun t ht => ⟨(hspec t ht).1, fun P hP => ((hspec t ht).2 P).2 (Or.inl hP)⟩
  refine ⟨q, e + d, by rw [Paving.adjoinOuter, h1 fuel hfuel, Option.bind_some, q1], q2, q3, ?_, ?_⟩
  · intro x hx
    have hroot : x ∈ (spaceBox (gridMap R o l) (e + d) []).closed := h2 _ (by omega) (hS hx)
    rcases q4 with ⟨g1, g2⟩ | ⟨u, hu, g1, g2⟩
    · rw [g1]; exact g2 hroot
    · rw [g2]
      right
      obtain ⟨Q, hQ⟩ := exists_path (spaceBox_splits _ hφ _) [] x hroot
      refine ⟨Q, ((hspec u hu).2 Q).2 (Or.inr ⟨_, le_refl _, fun j _ => ?_, Or.inr rfl⟩), hQ⟩
      by_contra hc
      rw [Bool.not_eq_false] at hc
      have : x ∈ S ∩ (spaceBox (gridMap R o l) (e + d) ([] ++ pre Q j)).closed := ⟨hx, hQ j⟩
      rw [hsep _ (spaceBox_le _ hφ _ _) hc] at this
      exact this
  · intro x hx
    rcases q4 with ⟨g1, g2⟩ | ⟨u, hu, g1, g2⟩
    · rw [g1] at hx; exact Or.inl hx
    · rw [g2] at hx
      rcases hx with hx | ⟨P, hP, hx⟩
      · exact Or.inl hx
      · rcases ((hspec u hu).2 P).1 hP with h | ⟨m, hm, g3, g4⟩
        · exact Or.inl (g1 ⟨P, h, hx⟩)
        · right
          refine ⟨pre P m, hx m, g3 m (le_refl _), g4.imp id ?_⟩
          rintro rfl j
          exact width_finest _ _ _ (pre_length _ _) j

/-- If moreover the answers are exact on boxes, every point added lies in a cell meeting the set. -/
theorem C21_outer_tight [Archimedean K] (R : Ariadne.Rounding K) (o l : Fin d → K) (hl : ∀ j, 0 < l j) (p : Paving)
    (hp : p.WF) (S : Set (Fin d → K)) (bb : Box K d) (hbb : ∀ j, R.Rep (bb j).1 ∧ R.Rep (bb j).2)
    (hS : S ⊆ bb.closed) (sep cov : Box K d → Bool) (hsep : ∀ b : Box K d, (∀ j, (b j).1 ≤ (b j).2) → (sep b = true ↔ S ∩ b.closed = ∅))
    (hcov : ∀ b, cov b = true → b.closed ⊆ S) (k : ℕ) :
    ∃ n, ∀ fuel, n ≤ fuel → ∃ q N, p.adjoinOuter R o l fuel bb sep cov k = some q ∧ q.WF ∧
      ∀ x ∈ q.closed (gridMap R o l), x ∈ p.closed (gridMap R o l) ∨ x ∈ S ∨
        ∃ w y, y ∈ S ∧ x ∈ (spaceBox (gridMap R o l) N w).closed ∧ y ∈ (spaceBox (gridMap R o l) N w).closed ∧
            ∀ j, (latticeBox K d N w j).2 - (latticeBox K d N w j).1 = 1 / 2 ^ k := by
  obtain ⟨n, h⟩ := C21_outer R o l hl p hp S bb hbb hS sep cov (fun b hb => (hsep b hb).1) k
  refine ⟨n, fun fuel hf => ?_⟩
  obtain ⟨q, N, h1, h2, -, -, h3⟩ := h fuel hf
  refine ⟨q, N, h1, h2, fun x hx => (h3 x hx).imp id ?_⟩
  rintro ⟨w, g1, g2, g3 | g3⟩
  · exact Or.inl (hcov _ g3 g1)
  · right
    have : (S ∩ (spaceBox (gridMap R o l) N w).closed).Nonempty := by
      rw [Set.nonempty_iff_ne_empty]
      intro hc
      rw [← hsep _ (spaceBox_le _ (gridMap_mono R o l fun j => (hl j).le) _ _), g2] at hc
      exact absurd hc (by simp)
    obtain ⟨y, y1, y2⟩ := this
    exact ⟨w, y, y1, g1, y2, g3⟩

/-- **Over-approximation of a box** stops with an exception exactly for boxes without interior. -/
theorem C21_over (R : Ariadne.Rounding K) (o l : Fin d → K) (fuel : ℕ) (p : Paving) (b : Box K d)
    (sep cov : Box K d → Bool) (k : ℕ) :
    ((∃ j, (b j).2 ≤ (b j).1) → p.adjoinOver R o l fuel b sep cov k = none) ∧
    ((∀ j, (b j).1 < (b j).2) → p.adjoinOver R o l fuel b sep cov k = p.adjoinOuter R o l fuel b sep cov k) := by
  constructor
  · rintro ⟨j, hj⟩
    rw [Paving.adjoinOver, if_pos]
    simp only [List.any_eq_true, decide_eq_true_eq]
    exact ⟨j, List.mem_finRange j, hj⟩
  · intro h
    rw [Paving.adjoinOver, if_neg]
    simp only [List.any_eq_true, decide_eq_true_eq, not_exists, not_and, not_le]
    exact fun j _ => h j

/-- **Inner approximations.**  For every set with a sound `covers`, whether or not it can be asked about
separation, the paving grows, by points of the set only. -/
theorem C21_inner (φ : Fin d → K → K) (hφ : ∀ j, Monotone (φ j)) (p : Paving) (hp : p.WF) (e : ℕ)
    (S : Set (Fin d → K)) (sep : Option (Box K d → Bool)) (cov : Box K d → Bool)
    (hcov : ∀ b, cov b = true → b.closed ⊆ S) (k : ℕ) :
    ∃ q, p.adjoinInner φ e sep cov k = some q ∧ q.WF ∧ p.closed φ ⊆ q.closed φ ∧
      q.closed φ ⊆ p.closed φ ∪ S := by
  have hspec := innerApprox_points sep.isSome (fun w => (sep.getD fun _ => true) (spaceBox φ e w))
    (fun w => cov (spaceBox φ e w)) (treeDepth d e k) []
  obtain ⟨q, q1, q2, q3, q4⟩ := align_closed φ hφ p hp e _
    fun t ht => ⟨(hspec t ht).1, fun P hP => ((hspec t ht).2 P).2 (Or.inl hP)⟩
  refine ⟨q, q1, q2, q3, fun x hx => ?_⟩
  rcases q4 with ⟨g1, g2⟩ | ⟨u, hu, g1, g2⟩
  · rw [g1] at hx; exact Or.inl hx
  · rw [g2] at hx
    rcases hx with hx | ⟨P, hP, hx⟩
    · exact Or.inl hx
    · rcases ((hspec u hu).2 P).1 hP with h | ⟨m, hm, g3, g4⟩
      · exact Or.inl (g1 ⟨P, h, hx⟩)
      · exact Or.inr (hcov _ g3 (hx m))

/-- **Inner approximations are exhaustive** for sets that are open and closed sets with sound answers: every
finest cell that is known to be covered is in the paving. -/
theorem C21_inner_complete (φ : Fin d → K → K) (hφ : ∀ j, Monotone (φ j)) (p : Paving) (hp : p.WF) (e : ℕ)
    (S : Set (Fin d → K)) (sep cov : Box K d → Bool) (hsep : ∀ b, sep b = true → S ∩ b.closed = ∅)
    (hcov : ∀ b, cov b = true → b.closed ⊆ S) (k : ℕ) (w : Word) (hw : w.length ≤ treeDepth d e k)
    (hc : cov (spaceBox φ e w) = true) :
    ∃ q, p.adjoinInner φ e (some sep) cov k = some q ∧ (spaceBox φ e w).closed ⊆ q.closed φ := by
  have hspec := innerApprox_points (some sep).isSome (fun w => ((some sep).getD fun _ => true) (spaceBox φ e w))
    (fun w => cov (spaceBox φ e w)) (treeDepth d e k) []
  obtain ⟨q, q1, q2, q3, q4⟩ := align_closed φ hφ p hp e _
    fun t ht => ⟨(hspec t ht).1, fun P hP => ((hspec t ht).2 P).2 (Or.inl hP)⟩
  refine ⟨q, q1, fun x hx => ?_⟩
  have hB := spaceBox_splits φ hφ e
  rcases q4 with ⟨g1, g2⟩ | ⟨u, hu, g1, g2⟩
  · rw [g1]
    exact g2 (closed_mono hB [] w (by simpa using hx))
  · rw [g2]
    right
    obtain ⟨Q, hQ⟩ := exists_path hB w x hx
    obtain ⟨P, h1, h2⟩ := exists_extends w Q
    refine ⟨P, ((hspec u hu).2 P).2 (Or.inr ⟨w.length, hw, ?_, fun j hj => ⟨rfl, ?_⟩⟩),
      closed_pre hB P x w.length fun i => ?_⟩
    · rw [pre_of_extends h1]; exact hc
    · by_contra hs
      rw [Bool.not_eq_false] at hs
      have hs' : S ∩ (spaceBox φ e ([] ++ pre P j)).closed = ∅ := hsep _ hs
      have hxS : x ∈ S := hcov _ hc hx
      have hxj : x ∈ (spaceBox φ e ([] ++ pre P j)).closed := by
        have hsplit : pre P w.length = pre P j ++ pre (Path.drop j P) (w.length - j) := by
          rw [← pre_add]; congr 1; omega
        rw [pre_of_extends h1] at hsplit
        rw [List.nil_append]
        rw [hsplit] at hx
        exact closed_mono hB _ _ hx
      have : x ∈ S ∩ (spaceBox φ e ([] ++ pre P j)).closed := ⟨hxS, hxj⟩
      rw [hs'] at this
      exact this
    · rw [pre_add, pre_of_extends h1, h2]; exact hQ i

/-- For an open set that is not a closed set nothing is refined: unless the whole primary cell is covered, the
inner approximation adds nothing, however fine. -/
theorem C21_inner_open_only (φ : Fin d → K → K) (hφ : ∀ j, Monotone (φ j)) (p : Paving) (hp : p.WF) (e : ℕ)
    (cov : Box K d → Bool) (k : ℕ) (hroot : cov (spaceBox φ e []) = false) :
    ∃ q, p.adjoinInner φ e none cov k = some q ∧ q.closed φ = p.closed φ := by
  have hspec := innerApprox_points false (fun w => ((none : Option (Box K d → Bool)).getD fun _ => true) (spaceBox φ e w))
    (fun w => cov (spaceBox φ e w)) (treeDepth d e k) []
  obtain ⟨q, q1, q2, q3, q4⟩ := align_closed φ hφ p hp e _
    fun t ht => ⟨(hspec t ht).1, fun P hP => ((hspec t ht).2 P).2 (Or.inl hP)⟩
  refine ⟨q, q1, ?_⟩
  rcases q4 with ⟨g1, -⟩ | ⟨u, hu, g1, g2⟩
  · exact g1
  · rw [g2, Set.union_eq_self_of_subset_right]
    rintro x ⟨P, hP, hx⟩
    rcases ((hspec u hu).2 P).1 hP with h | ⟨m, hm, g3, g4⟩
    · exact g1 ⟨P, h, hx⟩
    · cases m with
      | zero => rw [pre_zero, List.append_nil, hroot] at g3; exact absurd g3 (by simp)
      | succ m => exact absurd (g4 0 (by omega)).1 (by simp)

/-- **Lower approximations.**  For every set with sound `overlaps` (and `covers`, if the set is open), the
paving grows, by whole cells that each meet the set and are as fine as asked for, or are parts of
the set. -/
theorem C21_lower (φ : Fin d → K → K) (hφ : ∀ j, Monotone (φ j)) (p : Paving) (hp : p.WF) (e : ℕ)
    (S : Set (Fin d → K)) (cov : Option (Box K d → Bool)) (ov : Box K d → Bool)
    (hov : ∀ b : Box K d, (∀ j, (b j).1 ≤ (b j).2) → ov b = true → (S ∩ b.closed).Nonempty) (hcov : ∀ c ∈ cov, ∀ b, c b = true → b.closed ⊆ S) (k : ℕ) :
    ∃ q, p.adjoinLower φ e cov ov k = some q ∧ q.WF ∧ p.closed φ ⊆ q.closed φ ∧
      ∀ x ∈ q.closed φ, x ∈ p.closed φ ∨
        ∃ w, x ∈ (spaceBox φ e w).closed ∧ ((spaceBox φ e w).closed ⊆ S ∨ ((S ∩ (spaceBox φ e w).closed).Nonempty ∧
          ∀ j, (latticeBox K d e w j).2 - (latticeBox K d e w j).1 = 1 / 2 ^ k)) := by
  cases cov with
  | none =>
    have hspec := lowerOvert_points (fun w => ov (spaceBox φ e w)) (treeDepth d e k) []
    obtain ⟨q, q1, q2, q3, q4⟩ := align_closed φ hφ p hp e _
      fun t ht => ⟨(hspec t ht).1, fun P hP => ((hspec t ht).2 P).2 (Or.inl hP)⟩
    refine ⟨q, q1, q2, q3, fun x hx => ?_⟩
    rcases q4 with ⟨g1, g2⟩ | ⟨u, hu, g1, g2⟩
    · rw [g1] at hx; exact Or.inl hx
    · rw [g2] at hx
      rcases hx with hx | ⟨P, hP, hx⟩
      · exact Or.inl hx
      · rcases ((hspec u hu).2 P).1 hP with h | ⟨g3, -⟩
        · exact Or.inl (g1 ⟨P, h, hx⟩)
        · exact Or.inr ⟨_, hx _, Or.inr ⟨hov _ (spaceBox_le φ hφ _ _) (g3 _ (le_refl _)), width_finest _ _ _ (pre_length _ _)⟩⟩
  | some c =>
    have hspec := lowerOpen_points (fun w => c (spaceBox φ e w)) (fun w => ov (spaceBox φ e w)) (treeDepth d e k) []
    obtain ⟨q, q1, q2, q3, q4⟩ := align_closed φ hφ p hp e _
      fun t ht => ⟨(hspec t ht).1, fun P hP => ((hspec t ht).2 P).2 (Or.inl hP)⟩
    refine ⟨q, q1, q2, q3, fun x hx => ?_⟩
    rcases q4 with ⟨g1, g2⟩ | ⟨u, hu, g1, g2⟩
    · rw [g1] at hx; exact Or.inl hx
    · rw [g2] at hx
      rcases hx with hx | ⟨P, hP, hx⟩
      · exact Or.inl hx
      · rcases ((hspec u hu).2 P).1 hP with h | ⟨m, hm, -, g3 | ⟨-, g3, -⟩⟩
        · exact Or.inl (g1 ⟨P, h, hx⟩)
        · exact Or.inr ⟨_, hx m, Or.inl (hcov c rfl _ g3)⟩
        · exact Or.inr ⟨_, hx _, Or.inr ⟨hov _ (spaceBox_le φ hφ _ _) g3, width_finest _ _ _ (pre_length _ _)⟩⟩

/-- **Lower approximations of overt sets are exhaustive**: in every finest cell that is known to overlap the
set, together with all cells containing it, the paving has points. -/
theorem C21_lower_complete (φ : Fin d → K → K) (hφ : ∀ j, Monotone (φ j)) (p : Paving) (hp : p.WF) (e : ℕ)
    (ov : Box K d → Bool) (k : ℕ) (w : Word) (hw : w.length = treeDepth d e k)
    (ho : ∀ v, v <+: w → ov (spaceBox φ e v) = true) :
    ∃ q, p.adjoinLower φ e none ov k = some q ∧ (q.closed φ ∩ (spaceBox φ e w).closed).Nonempty := by
  have hspec := lowerOvert_points (fun w => ov (spaceBox φ e w)) (treeDepth d e k) []
  obtain ⟨q, q1, q2, q3, q4⟩ := align_closed φ hφ p hp e _
    fun t ht => ⟨(hspec t ht).1, fun P hP => ((hspec t ht).2 P).2 (Or.inl hP)⟩
  have hB := spaceBox_splits φ hφ e
  have hne : ∀ v, ((spaceBox φ e v).closed).Nonempty := fun v =>
    ⟨fun j => (spaceBox φ e v j).1, fun j => ⟨le_refl _, spaceBox_le φ hφ e v j⟩⟩
  refine ⟨q, q1, ?_⟩
  rcases q4 with ⟨g1, g2⟩ | ⟨u, hu, g1, g2⟩
  · obtain ⟨x, hx⟩ := hne w
    exact ⟨x, by rw [g1]; exact g2 (closed_mono hB [] w (by simpa using hx)), hx⟩
  · by_cases hold : ∃ Q ∈ u.points, pre Q (treeDepth d e k) = w
    · obtain ⟨Q, ⟨v, hv, hQ⟩, hQw⟩ := hold
      -- a point in all the boxes along `Q`
      by_cases hlen : v.length ≤ w.length
      · have hvw : v <+: w := by
          rw [← hQw, ← pre_of_extends hQ, hw.symm]
          refine ⟨pre (Path.drop v.length Q) (w.length - v.length), ?_⟩
          rw [← pre_add]; congr 1; omega
        obtain ⟨s, rfl⟩ := hvw
        obtain ⟨x, hx⟩ := hne (v ++ s)
        refine ⟨x, ?_, hx⟩
        rw [g2]
        left
        apply g1
        rw [closureOf_tree hB]
        exact ⟨v, hv, closed_mono hB _ _ hx⟩
      · obtain ⟨x, hx⟩ := hne v
        refine ⟨x, ?_, ?_⟩
        · rw [g2]; left; apply g1; rw [closureOf_tree hB]; exact ⟨v, hv, hx⟩
        · have : v = w ++ pre (Path.drop w.length Q) (v.length - w.length) := by
            rw [← pre_of_extends hQ, ← hQw, pre_length, pre_length, ← hw, ← pre_add]
            congr 1; omega
          rw [this] at hx
          exact closed_mono hB _ _ hx
    · obtain ⟨x, hx⟩ := hne w
      obtain ⟨Q, hQ⟩ := exists_path hB w x hx
      obtain ⟨P, h1, h2⟩ := exists_extends w Q
      have hPw : pre P (treeDepth d e k) = w := by rw [← hw, pre_of_extends h1]
      refine ⟨x, ?_, hx⟩
      rw [g2]
      right
      refine ⟨P, ((hspec u hu).2 P).2 (Or.inr ⟨fun j hj => ho _ ?_, fun Q hQ' he => hold ⟨Q, hQ', by rw [he, hPw]⟩⟩),
        closed_pre hB P x w.length fun i => ?_⟩
      · rw [List.nil_append, ← hPw]
        refine ⟨pre (Path.drop j P) (treeDepth d e k - j), ?_⟩
        rw [← pre_add]; congr 1; omega
      · rw [pre_add, pre_of_extends h1, h2]; exact hQ i

/-- The version for open sets is not exhaustive: where the tree happens to be divided further than asked for,
but has no enabled leaf, nothing is added.  The paving is reached by adjoining and removing a cell. -/
theorem C21_lower_open_misses :
    ∃ (p : Paving) (S : Set (Fin 1 → ℚ)) (cov ov : Box ℚ 1 → Bool),
      (((Paving.init false).adjoinCell 1 ⟨0, [false]⟩).bind fun q => q.removeCell 1 ⟨0, [false]⟩) = some p ∧
      (∀ b, cov b = true → b.closed ⊆ S) ∧ (∀ b, ov b = true → (S ∩ b.interior).Nonempty) ∧
      ov (spaceBox (fun (_ : Fin 1) (x : ℚ) => x) 0 []) = true ∧
      p.adjoinLower (fun (_ : Fin 1) (x : ℚ) => x) 0 (some cov) ov 0 = some p ∧ p.closed (fun (_ : Fin 1) (x : ℚ) => x) = ∅ := by
  refine ⟨⟨0, .node indeterminate (.leaf false_) (.leaf false_)⟩, {x | 0 < x 0 ∧ x 0 < 1}, fun _ => false,
    fun b => decide ((b 0).1 = 0 ∧ (b 0).2 = 1), by decide, by simp, ?_, by decide +kernel, ?_, ?_⟩
  · intro b hb
    have hb := of_decide_eq_true hb
    refine ⟨fun _ => 1/2, ⟨by norm_num, by norm_num⟩, fun j => ?_⟩
    rw [Subsingleton.elim j 0, hb.1, hb.2]
    norm_num
  · have hov : decide ((spaceBox (fun (_ : Fin 1) (x : ℚ) => x) 0 [] 0).1 = 0 ∧
        (spaceBox (fun (_ : Fin 1) (x : ℚ) => x) 0 [] 0).2 = 1) = true := by decide +kernel
    simp only [Paving.adjoinLower, Paving.align, treeDepth, lowerOpen, Nat.mul_one, Nat.add_zero, lt_irrefl,
      gt_iff_lt, if_false, hov, if_true, Bool.false_eq_true, isLeaf]
  · ext x
    simp only [Paving.closed, Subpaving.closed, Paving.sub, Set.mem_setOf_eq, Set.mem_empty_iff_false, iff_false]
    rintro ⟨w, hw, -⟩
    cases w with
    | nil => simp [leafAt] at hw
    | cons b w => cases b <;> cases w <;> simp [leafAt] at hw

/-! ## Boxes -/

/-- Models `covers` of boxes (box.hpp:407-411, interval.inl.hpp:115-116). -/
def boxCovers (A B : Box K d) : Bool :=
  (List.finRange d).all fun j => decide ((A j).1 < (B j).1) && decide ((A j).2 > (B j).2)

omit [Field K] [NeZero d] [IsStrictOrderedRing K] in
theorem boxCovers_sound (A B : Box K d) (h : boxCovers A B = true) : B.closed ⊆ A.closed := by
  intro x hx j
  simp only [boxCovers, List.all_eq_true, List.mem_finRange, forall_const, Bool.and_eq_true, decide_eq_true_eq] at h
  exact ⟨(h j).1.le.trans (hx j).1, (hx j).2.trans (h j).2.le⟩

omit [Field K] [NeZero d] [IsStrictOrderedRing K] in
theorem boxDisjoint_exact (A B : Box K d) (hA : ∀ j, (A j).1 ≤ (A j).2) (hB : ∀ j, (B j).1 ≤ (B j).2) :
    boxDisjoint A B = true ↔ A.closed ∩ B.closed = ∅ := by
  rw [boxDisjoint_iff]
  constructor
  · rintro ⟨j, h⟩
    ext x
    simp only [Set.mem_inter_iff, Set.mem_empty_iff_false, iff_false]
    rintro ⟨h1, h2⟩
    rcases h with h | h
    · exact absurd ((h1 j).1.trans (h2 j).2) (not_le.2 h)
    · exact absurd ((h2 j).1.trans (h1 j).2) (not_le.2 h)
  · intro h
    by_contra hc
    push Not at hc
    have : (fun j => max (A j).1 (B j).1) ∈ A.closed ∩ B.closed :=
      ⟨fun j => ⟨le_max_left _ _, max_le (hA j) (hc j).2⟩, fun j => ⟨le_max_right _ _, max_le (hc j).1 (hB j)⟩⟩
    rw [h] at this
    exact this

/-- **Outer approximation of a box** (grid_paving.cpp:2405-2409): covers the box, and every point added is in
the box or in a finest cell meeting the box. -/
theorem C21_outer_box [Archimedean K] (R : Ariadne.Rounding K) (o l : Fin d → K) (hl : ∀ j, 0 < l j) (p : Paving)
    (hp : p.WF) (b : Box K d) (hb : ∀ j, (b j).1 ≤ (b j).2) (hrep : ∀ j, R.Rep (b j).1 ∧ R.Rep (b j).2) (k : ℕ) :
    ∃ n, ∀ fuel, n ≤ fuel → ∃ q N, p.adjoinOuter R o l fuel b (boxDisjoint b) (boxCovers b) k = some q ∧ q.WF ∧
      p.closed (gridMap R o l) ⊆ q.closed (gridMap R o l) ∧ b.closed ⊆ q.closed (gridMap R o l) ∧
      ∀ x ∈ q.closed (gridMap R o l), x ∈ p.closed (gridMap R o l) ∨ x ∈ b.closed ∨
        ∃ w y, y ∈ b.closed ∧ x ∈ (spaceBox (gridMap R o l) N w).closed ∧ y ∈ (spaceBox (gridMap R o l) N w).closed ∧
            ∀ j, (latticeBox K d N w j).2 - (latticeBox K d N w j).1 = 1 / 2 ^ k := by
  obtain ⟨n1, h1⟩ := C21_outer R o l hl p hp b.closed b hrep subset_rfl (boxDisjoint b) (boxCovers b)
    (fun c hc => (boxDisjoint_exact b c hb hc).1) k
  obtain ⟨n2, h2⟩ := C21_outer_tight R o l hl p hp b.closed b hrep subset_rfl (boxDisjoint b) (boxCovers b)
    (fun c hc => boxDisjoint_exact b c hb hc) (boxCovers_sound b) k
  refine ⟨max n1 n2, fun fuel hf => ?_⟩
  obtain ⟨q, N, g1, g2, g3, g4, -⟩ := h1 fuel ((le_max_left _ _).trans hf)
  obtain ⟨q', N', k1, -, k3⟩ := h2 fuel ((le_max_right _ _).trans hf)
  have : q' = q := Option.some.inj (k1.symm.trans g1)
  subst this
  exact ⟨q', N', g1, g2, g3, g4, k3⟩

/-- **Inner approximation of a box** (grid_paving.cpp:2621-2624): only points of the box are added, and all cells
strictly inside the box, of the fineness asked for, are. -/
theorem C21_inner_box [Archimedean K] (R : Ariadne.Rounding K) (o l : Fin d → K) (hl : ∀ j, 0 < l j) (p : Paving)
    (hp : p.WF) (b : Box K d) (hb : ∀ j, (b j).1 ≤ (b j).2) (hrep : ∀ j, R.Rep (b j).1 ∧ R.Rep (b j).2) (k : ℕ) :
    ∃ n e, ∀ fuel, n ≤ fuel → ∃ q,
      p.adjoinInnerIn R o l fuel b (some (boxDisjoint b)) (boxCovers b) k = some q ∧ q.WF ∧
      p.closed (gridMap R o l) ⊆ q.closed (gridMap R o l) ∧
      q.closed (gridMap R o l) ⊆ p.closed (gridMap R o l) ∪ b.closed ∧
      b.closed ⊆ (spaceBox (gridMap R o l) e []).closed ∧
      ∀ w : Word, w.length ≤ treeDepth d e k →
        (∀ j, (b j).1 < (spaceBox (gridMap R o l) e w j).1 ∧ (spaceBox (gridMap R o l) e w j).2 < (b j).2) →
        (spaceBox (gridMap R o l) e w).closed ⊆ q.closed (gridMap R o l) := by
  have hφ := gridMap_mono R o l fun j => (hl j).le
  obtain ⟨n, e, h1, h2⟩ := C21_enclosing R o l hl b hrep
  refine ⟨n, e, fun fuel hf => ?_⟩
  obtain ⟨q, q1, q2, q3, q4⟩ := C21_inner (gridMap R o l) hφ p hp e b.closed (some (boxDisjoint b)) (boxCovers b)
    (boxCovers_sound b) k
  refine ⟨q, by rw [Paving.adjoinInnerIn, h1 fuel hf, Option.bind_some, q1], q2, q3, q4, h2 e (le_refl _), ?_⟩
  intro w hw hin
  have hsep : ∀ c, boxDisjoint b c = true → b.closed ∩ c.closed = ∅ := by
    intro c hc
    rw [boxDisjoint_iff] at hc
    obtain ⟨j, hj⟩ := hc
    ext x
    simp only [Set.mem_inter_iff, Set.mem_empty_iff_false, iff_false]
    rintro ⟨h1, h2⟩
    rcases hj with h | h
    · exact absurd ((h1 j).1.trans (h2 j).2) (not_le.2 h)
    · exact absurd ((h2 j).1.trans (h1 j).2) (not_le.2 h)
  obtain ⟨q', k1, k2⟩ := C21_inner_complete (gridMap R o l) hφ p hp e b.closed (boxDisjoint b) (boxCovers b) hsep
    (boxCovers_sound b) k w hw (by simpa [boxCovers] using hin)
  have : q' = q := Option.some.inj (k1.symm.trans q1)
  subst this
  exact k2

/-- A case meeting the hypotheses: the box `[1/4, 3/4] × [1/4, 3/4]` on the unit grid with 8-bit arithmetic. -/
example : ∀ j : Fin 2, ((fun _ => (1/4, 3/4) : Box ℚ 2) j).1 ≤ ((fun _ => (1/4, 3/4) : Box ℚ 2) j).2 ∧
    (Ariadne.PBit.rounding (K := ℚ) 8 (by norm_num)).Rep ((fun _ => (1/4, 3/4) : Box ℚ 2) j).1 ∧
    (Ariadne.PBit.rounding (K := ℚ) 8 (by norm_num)).Rep ((fun _ => (1/4, 3/4) : Box ℚ 2) j).2 := by
  intro j
  refine ⟨by norm_num, ⟨1, -2, by norm_num, by norm_num⟩, ⟨3, -2, by norm_num, by norm_num⟩⟩

/-- What the recursion computes for the interval `[1/4, 3/4]` and two further levels. -/
example : outerApprox (fun w => boxDisjoint (fun _ => (1/4, 3/4)) (spaceBox (fun (_ : Fin 1) (x : ℚ) => x) 0 w))
      (fun w => boxCovers (fun _ => (1/4, 3/4)) (spaceBox (fun (_ : Fin 1) (x : ℚ) => x) 0 w)) 3 [] (.leaf false_) =
    .node indeterminate
      (.node indeterminate (.node indeterminate (.leaf false_) (.leaf true_)) (.node indeterminate (.leaf true_) (.leaf true_)))
      (.node indeterminate (.node indeterminate (.leaf true_) (.leaf true_)) (.node indeterminate (.leaf true_) (.leaf false_))) := by
  decide +kernel

end Closure
end Verif.Grid
