import Verif.Paver.Model

/-!
# Facts about cells and pavings used for pavers
-/

namespace Verif.Paver

open Ariadne Ariadne.Logical Ariadne.BinaryTree Verif.ConstraintSolver Verif.FunctionSet
open Ariadne.Ext (fin)
open Ariadne.BinaryWord Ariadne.Logical.LV
open Verif.Grid (Cell Paving gridMap spaceBox cellSubset Splits closureOf pre below)

variable {m : ℕ} [NeZero m] {K : Type*} [Field K] [LinearOrder K] [IsStrictOrderedRing K]

/-- The closed box of a cell in the state space. -/
def cellSet (φ : Fin m → K → K) (c : Cell) : Set (Fin m → K) := (spaceBox φ c.extent c.word).closed

omit [IsStrictOrderedRing K] in
theorem closureOf_extends {B : Word → Grid.Box K m} (hB : Splits B) (w : Word) :
    closureOf B {P | Extends P w} = (B w).closed := by
  ext x
  constructor
  · rintro ⟨P, hP, hx⟩
    have := hx w.length
    rwa [Grid.pre_of_extends hP] at this
  · intro hx
    obtain ⟨Q, hQ⟩ := Grid.exists_path hB w x hx
    obtain ⟨P, h1, h2⟩ := Tree.exists_extends w Q
    refine ⟨P, h1, Grid.closed_pre hB P x w.length fun k => ?_⟩
    rw [Grid.pre_add, Grid.pre_of_extends h1, h2]
    exact hQ k

variable {φ : Fin m → K → K} (hφ : ∀ j, Monotone (φ j))
include hφ

theorem adjoinCell_closed {p q : Paving} (hp : p.WF) {c : Cell} (h : p.adjoinCell m c = some q) :
    q.WF ∧ q.closed φ = p.closed φ ∪ cellSet φ c := by
  obtain ⟨q', h1, h2, h3, h4⟩ := Grid.align_closed φ hφ p hp c.extent (Tree.addEnabledPath c.word) (fun t ht =>
    ⟨(C15_invariant t t c.word 0 ht ht).2.2.2.1, by rw [C15_addEnabledPath]; exact Set.subset_union_left⟩)
  rw [Paving.adjoinCell, h1] at h
  cases h
  have hB := Grid.spaceBox_splits φ hφ c.extent
  refine ⟨h2, ?_⟩
  rcases h4 with ⟨e, hs⟩ | ⟨u, -, hu, e⟩
  · rw [e]
    exact (Set.union_eq_left.2 ((Grid.closed_mono hB [] c.word).trans hs)).symm
  · rw [e, C15_addEnabledPath, Grid.closureOf_union, closureOf_extends hB, ← Set.union_assoc,
      Set.union_eq_left.2 hu]
    rfl

theorem cellSubset_closed {p : Paving} {c : Cell} (h : cellSubset m c p.sub = true) : cellSet φ c ⊆ p.closed φ := by
  have h1 := (Grid.C20_cell_subset (K := K) c p.sub).1 h
  rw [← Grid.cell_as_sub] at h1
  have h2 := (Grid.sub_subset_iff ⟨c, .leaf true_⟩ p.sub (max c.extent p.extent) (le_max_left _ _) (le_max_right _ _)).1 h1
  have h3 := Grid.closureOf_mono (spaceBox φ (max c.extent p.extent)) h2
  rw [Grid.leaf_true_points] at h3
  simp only [Cell.at, Paving.sub, List.append_nil] at h3
  rw [Grid.closureOf_reroot φ hφ (le_max_right _ _), ← Paving.closed_eq φ hφ, Grid.below_append,
    Grid.closureOf_reroot φ hφ (le_max_left _ _), Grid.below_univ, closureOf_extends (Grid.spaceBox_splits φ hφ _)] at h3
  exact h3

theorem recombine_closed {q : Paving} (hq : q.WF) :
    Paving.WF ⟨q.extent, q.tree.recombine⟩ ∧ Paving.closed φ ⟨q.extent, q.tree.recombine⟩ = q.closed φ := by
  refine ⟨(C15_invariant q.tree q.tree [] 0 hq hq).2.2.2.2.2.2.2.1, ?_⟩
  rw [Paving.closed_eq φ hφ, Paving.closed_eq φ hφ, C16_recombine_points]

/-- A cell is the union of its halves. -/
theorem cellSet_split (c : Cell) : cellSet φ c = cellSet φ (c.split false) ∪ cellSet φ (c.split true) := by
  have hB := Grid.spaceBox_splits φ hφ c.extent
  ext x
  constructor
  · intro hx
    obtain ⟨b, hb⟩ := Grid.closed_child hB c.word x hx
    cases b
    exacts [Or.inl hb, Or.inr hb]
  · rintro (h | h)
    · exact Grid.closed_mono hB c.word [false] h
    · exact Grid.closed_mono hB c.word [true] h

omit hφ

theorem mem_cellBox {c : Cell} {y : Fin m → K} : Mem (cellBox φ c) y ↔ y ∈ cellSet φ c := by
  simp only [Mem, cellBox, Bounds.Contains, IsLower, IsUpper, cellSet, Grid.Box.closed, Set.mem_setOf_eq]

theorem searchExtent_mono {test : ℤ × ℤ → Bool} {f f' e r : ℕ} {c : ℤ × ℤ} (hf : f ≤ f')
    (h : Grid.searchExtent test f e c = some r) : Grid.searchExtent test f' e c = some r := by
  induction f generalizing f' e c with
  | zero => simp [Grid.searchExtent] at h
  | succ f ih =>
    obtain ⟨g, rfl⟩ : ∃ g, f' = g + 1 := ⟨f' - 1, by omega⟩
    rw [Grid.searchExtent] at h ⊢
    split_ifs at h ⊢ with h1
    · exact h
    · exact ih (by omega) h

/-- The primary cell found contains the box. -/
theorem enclosing_sound [Archimedean K] {R : Rounding K} {o l : Fin m → K} (hl : ∀ j, 0 < l j) {fuel e : ℕ}
    {b : Grid.Box K m} (hb : ∀ j, R.Rep (b j).1 ∧ R.Rep (b j).2) (h : Grid.enclosingExtent R o l fuel b = some e) :
    b.closed ⊆ cellSet (gridMap R o l) ⟨e, []⟩ := by
  obtain ⟨n, e', h1, h2⟩ := Grid.C21_enclosing R o l hl b hb
  have h3 := h1 (max n fuel) (le_max_left _ _)
  rw [Grid.enclosingExtent, Grid.smallestEnclosing] at h h3
  rw [searchExtent_mono (le_max_right n fuel) h] at h3
  cases h3
  exact h2 e le_rfl

end Verif.Paver
