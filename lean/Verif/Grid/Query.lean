import Verif.Grid.PavingProps
import Verif.BinaryWord.Props
/-!
# C20: queries on cells and pavings

Models `subset` and `intersect` for cells and subpavings (`source/geometry/grid_paving.cpp`) and
proves that they decide inclusion and intersection of the sets of points.  The one exception, an empty
first argument of `subset` whose root cell is apart from that of the second, is shown.
-/
namespace Verif.Grid
open Ariadne.BinaryWord (Word isPrefix C14_isPrefix)
open Ariadne.BinaryTree
open Ariadne.BinaryTree.Tree
open Ariadne.Logical (LV)
open Ariadne.Logical.LV

/-! ## Model -/

/-- Models `subset(GridCell,GridTreeSubpaving)` (grid_paving.cpp:1684-1707). -/
def cellSubset (d : ℕ) (c : Cell) (s : Subpaving) : Bool :=
  if Cell.subset d c s.cell then
    s.tree.isEnabledAt ((subsetPaths d c s.cell).1.drop (subsetPaths d c s.cell).2.length)
  else false

/-- Models `locate_node` (grid_paving.cpp:1816-1829) and the loop in `intersect(GridCell,...)`
(1754-1762): the node at a path, or the leaf met before. -/
def locate : Tree → Word → Tree
  | .leaf v, _ => .leaf v
  | .node v l r, [] => .node v l r
  | .node _ l r, b :: w => if b then locate r w else locate l w

/-- Models `intersect(GridCell,GridTreeSubpaving)` (grid_paving.cpp:1709-1785). -/
def cellIntersect (d : ℕ) (c : Cell) (s : Subpaving) : Bool :=
  let c' : Cell := if s.cell.extent > c.extent then ⟨s.cell.extent, primaryPath d s.cell.extent c.extent ++ c.word⟩ else c
  let path := primaryPath d c'.extent s.cell.extent ++ s.cell.word
  if isPrefix c'.word path then s.tree.hasEnabled
  else if isPrefix path c'.word then (locate s.tree (c'.word.drop path.length)).hasEnabled
  else false

/-- Models `common_primary_cell_path` (grid_paving.cpp:1792-1812). -/
def commonPaths (d : ℕ) (a b : Cell) : Word × Word :=
  if b.extent > a.extent then (primaryPath d b.extent a.extent ++ a.word, b.word)
  else (a.word, primaryPath d a.extent b.extent ++ b.word)

/-- Models `subset(pSubTreeRootNode,pSuperTreeRootNode,path)` (grid_paving.cpp:1836-1865). -/
def subsetSub (t u : Tree) (path : Word) : Bool :=
  if t.hasEnabled then
    if u.hasEnabled then
      match locate u path with
      | .leaf v => v.definitely
      | .node v l r => t.subset (.node v l r)
    else false
  else true

/-- What follows the loop of the next function (grid_paving.cpp:1900-1931) when the extra leaves are
disabled; `rest` is the part of the path not followed. -/
def subsetFinish (t : Tree) (rest : Word) (u : Tree) : Bool :=
  match t with
  | .leaf v => if v.definitely then (if rest ≠ [] then false else (leaf v).subset u) else true
  | .node v l r => (node v l r).subset u

/-- Models `subset(pSuperTreeRootNode,path,pSubTreeRootNode)` (grid_paving.cpp:1872-1933). -/
def subsetSuper : Tree → Word → Tree → Bool
  | .node _ l r, b :: path, u =>
    if b then (if l.hasEnabled then false else subsetSuper r path u)
    else (if r.hasEnabled then false else subsetSuper l path u)
  | .leaf v, path, u => subsetFinish (.leaf v) path u
  | .node v l r, [], u => subsetFinish (.node v l r) [] u

/-- Models `subset(GridTreeSubpaving,GridTreeSubpaving)` (grid_paving.cpp:1935-1974). -/
def pavingSubset (d : ℕ) (s t : Subpaving) : Bool :=
  let p := commonPaths d s.cell t.cell
  if isPrefix p.1 p.2 then subsetSuper s.tree (p.2.drop p.1.length) t.tree
  else if isPrefix p.2 p.1 then subsetSub s.tree t.tree (p.1.drop p.2.length)
  else false

/-- Models `intersect(pSuperTreeRootNode,path,pSubTreeRootNode)` (grid_paving.cpp:1980-2001). -/
def intersectSuper (t : Tree) (path : Word) (u : Tree) : Bool :=
  if t.hasEnabled && u.hasEnabled then
    match locate t path with
    | .leaf v => v.definitely
    | .node v l r => (node v l r).intersect u
  else false

/-- Models `intersect(GridTreeSubpaving,GridTreeSubpaving)` (grid_paving.cpp:2003-2035). -/
def pavingIntersect (d : ℕ) (s t : Subpaving) : Bool :=
  let p := commonPaths d s.cell t.cell
  if isPrefix p.1 p.2 then intersectSuper s.tree (p.2.drop p.1.length) t.tree
  else if isPrefix p.2 p.1 then intersectSuper t.tree (p.1.drop p.2.length) s.tree
  else false

/-- Models `GridTreeSubpaving::operator==` (grid_paving.cpp:1030-1033). -/
def pavingEq (d : ℕ) (s t : Subpaving) : Bool := Cell.eq d s.cell t.cell && s.tree.eqNodes t.tree

/-- Models `is_empty` and `size` (grid_paving.cpp:1010-1012, 1077-1079). -/
def Subpaving.isEmpty (s : Subpaving) : Bool := s.tree.countEnabled == 0

/-! ## Addresses -/

theorem below_nonempty (w : Word) (A : Set Path) : (below w A).Nonempty ↔ A.Nonempty := by
  constructor
  · rintro ⟨p, -, hp⟩; exact ⟨_, hp⟩
  · rintro ⟨q, hq⟩
    obtain ⟨p, h1, h2⟩ := exists_extends w q
    exact ⟨p, h1, by rw [h2]; exact hq⟩

theorem below_subset_below (w : Word) (A B : Set Path) : below w A ⊆ below w B ↔ A ⊆ B := by
  constructor
  · intro h q hq
    obtain ⟨p, h1, h2⟩ := exists_extends w q
    have := h (show p ∈ below w A from ⟨h1, by rw [h2]; exact hq⟩)
    rw [← h2]; exact this.2
  · rintro h p ⟨h1, h2⟩; exact ⟨h1, h h2⟩

theorem below_inter_below (w : Word) (A B : Set Path) : below w A ∩ below w B = below w (A ∩ B) := by
  ext p; simp only [below, Set.mem_inter_iff, Set.mem_setOf_eq]; tauto

theorem below_univ (w : Word) : below w Set.univ = {p | Extends p w} := by
  ext p; simp [below]

theorem below_subset_node (b : Bool) (w : Word) (A : Set Path) (v : LV) (l r : Tree) :
    below (b :: w) A ⊆ (node v l r).points ↔ below w A ⊆ (if b then r else l).points := by
  constructor
  · intro h q hq
    have := h ((mem_below_cons b w A (cons b q)).2 ⟨rfl, by rw [drop_cons]; exact hq⟩)
    rw [mem_node, drop_cons, cons_zero] at this
    cases b <;> exact this
  · intro h p hp
    rw [mem_below_cons] at hp
    rw [mem_node]
    have := h hp.2
    rw [hp.1]
    cases b <;> simpa using this

theorem node_subset_below (b : Bool) (w : Word) (A : Set Path) (v : LV) (l r : Tree) :
    (node v l r).points ⊆ below (b :: w) A ↔
      (if b then l else r).points = ∅ ∧ (if b then r else l).points ⊆ below w A := by
  constructor
  · intro h
    constructor
    · apply Set.eq_empty_of_forall_notMem
      intro q hq
      have := h ((mem_node v l r (cons (!b) q)).2 (by rw [drop_cons, cons_zero]; cases b <;> exact hq))
      rw [mem_below_cons] at this
      have h0 : (!b) = b := this.1
      cases b <;> simp at h0
    · intro q hq
      have := h ((mem_node v l r (cons b q)).2 (by rw [drop_cons, cons_zero]; cases b <;> exact hq))
      rw [mem_below_cons, drop_cons] at this
      exact this.2
  · rintro ⟨h1, h2⟩ p hp
    rw [mem_node] at hp
    rw [mem_below_cons]
    cases hb : p 0 <;> cases b <;> simp_all
    · exact h2 hp
    · exact h2 hp

theorem node_inter_below (b : Bool) (w : Word) (A : Set Path) (v : LV) (l r : Tree) :
    ((node v l r).points ∩ below (b :: w) A).Nonempty ↔ ((if b then r else l).points ∩ below w A).Nonempty := by
  constructor
  · rintro ⟨p, hp, hq⟩
    rw [mem_node] at hp
    rw [mem_below_cons] at hq
    rw [hq.1] at hp
    exact ⟨_, by cases b <;> exact hp, hq.2⟩
  · rintro ⟨q, hq, hA⟩
    exact ⟨cons b q, (mem_node v l r _).2 (by rw [drop_cons, cons_zero]; cases b <;> exact hq),
      (mem_below_cons _ _ _ _).2 ⟨rfl, by rw [drop_cons]; exact hA⟩⟩

theorem hasEnabled_false (t : Tree) : t.hasEnabled = false ↔ t.points = ∅ := by
  rw [← Set.not_nonempty_iff_eq_empty, ← C15_hasEnabled]; simp

theorem locate_hasEnabled (t : Tree) (w : Word) :
    (locate t w).hasEnabled = true ↔ (t.points ∩ {p | Extends p w}).Nonempty := by
  rw [← below_univ]
  induction t generalizing w with
  | leaf v =>
    rw [locate, C15_hasEnabled]
    constructor
    · rintro ⟨p, hp⟩
      obtain ⟨q, hq⟩ := (below_nonempty w Set.univ).2 ⟨p, trivial⟩
      exact ⟨q, by rw [mem_leaf] at hp ⊢; exact hp, hq⟩
    · rintro ⟨p, hp, -⟩; exact ⟨p, hp⟩
  | node v l r ihl ihr =>
    cases w with
    | nil => rw [locate, C15_hasEnabled, below_nil, Set.inter_univ]
    | cons b w =>
      rw [node_inter_below, locate]
      cases b
      · exact ihl w
      · exact ihr w

theorem subsetSub_spec (t u : Tree) (w : Word) :
    subsetSub t u w = true ↔ below w t.points ⊆ u.points := by
  unfold subsetSub
  split_ifs with h1 h2
  · clear h2
    have hne := (C15_hasEnabled t).1 h1
    induction u generalizing w with
    | leaf v =>
      rw [locate]
      simp only [definitely_iff]
      constructor
      · intro hv p _; exact (mem_leaf v p).2 hv
      · intro h
        obtain ⟨p, hp⟩ := (below_nonempty w _).2 hne
        exact (mem_leaf v p).1 (h hp)
    | node v l r ihl ihr =>
      cases w with
      | nil => rw [locate, below_nil]; exact C15_subset _ _
      | cons b w =>
        rw [below_subset_node, locate]
        cases b
        · exact ihl w
        · exact ihr w
  · rw [Bool.not_eq_true, hasEnabled_false] at h2
    have hne := (below_nonempty w _).2 ((C15_hasEnabled t).1 h1)
    rw [h2, Set.subset_empty_iff, ← Set.not_nonempty_iff_eq_empty]
    simp [hne]
  · rw [Bool.not_eq_true, hasEnabled_false] at h1
    have : below w t.points = ∅ := by
      rw [← Set.not_nonempty_iff_eq_empty, below_nonempty, h1]; simp
    simp [this]

theorem subsetSuper_spec (t : Tree) (w : Word) (u : Tree) :
    subsetSuper t w u = true ↔ t.points ⊆ below w u.points := by
  induction t generalizing w with
  | leaf v =>
    rw [subsetSuper, subsetFinish]
    split_ifs with h1 h2
    · rw [definitely_iff] at h1
      subst h1
      simp only [Bool.false_eq_true, false_iff]
      intro h
      cases w with
      | nil => exact h2 rfl
      | cons b w =>
        have := h ((mem_leaf true_ (fun _ => !b)).2 rfl)
        have h0 : (!b) = b := ((mem_below_cons _ _ _ _).1 this).1
        cases b <;> simp at h0
    · have : w = [] := not_not.1 h2
      subst this
      rw [below_nil]; exact C15_subset _ _
    · simp only [true_iff]
      intro p hp
      rw [mem_leaf] at hp
      exact absurd (definitely_iff.2 hp) h1
  | node v l r ihl ihr =>
    cases w with
    | nil => rw [subsetSuper, subsetFinish, below_nil]; exact C15_subset _ _
    | cons b w =>
      rw [node_subset_below, subsetSuper]
      cases b
      · simp only [Bool.false_eq_true, if_false]
        split_ifs with h
        · have hne := (C15_hasEnabled r).1 h
          simp [Set.nonempty_iff_ne_empty.1 hne]
        · rw [Bool.not_eq_true, hasEnabled_false] at h
          simp only [h, true_and]; exact ihl w
      · simp only [if_true]
        split_ifs with h
        · have hne := (C15_hasEnabled l).1 h
          simp [Set.nonempty_iff_ne_empty.1 hne]
        · rw [Bool.not_eq_true, hasEnabled_false] at h
          simp only [h, true_and]; exact ihr w

theorem intersectSuper_spec (t : Tree) (w : Word) (u : Tree) :
    intersectSuper t w u = true ↔ (t.points ∩ below w u.points).Nonempty := by
  unfold intersectSuper
  split_ifs with h
  · rw [Bool.and_eq_true] at h
    have hne := (C15_hasEnabled u).1 h.2
    clear h
    induction t generalizing w with
    | leaf v =>
      rw [locate]
      simp only [definitely_iff]
      constructor
      · intro hv
        obtain ⟨p, hp⟩ := (below_nonempty w _).2 hne
        exact ⟨p, (mem_leaf v p).2 hv, hp⟩
      · rintro ⟨p, hp, -⟩; exact (mem_leaf v p).1 hp
    | node v l r ihl ihr =>
      cases w with
      | nil => rw [locate, below_nil]; exact C15_intersect _ _
      | cons b w =>
        rw [node_inter_below, locate]
        cases b
        · exact ihl w
        · exact ihr w
  · simp only [Bool.false_eq_true, false_iff]
    rintro ⟨p, hp, hq⟩
    apply h
    rw [Bool.and_eq_true, C15_hasEnabled, C15_hasEnabled]
    exact ⟨⟨p, hp⟩, ⟨_, hq.2⟩⟩

/-! ## From addresses to points -/

variable {K : Type*} [Field K] [LinearOrder K] [IsStrictOrderedRing K] {d : ℕ} [NeZero d]

/-- A tree moved down a path. -/
def plant : Word → Tree → Tree
  | [], t => t
  | b :: w, t => if b then .node indeterminate (.leaf false_) (plant w t) else .node indeterminate (plant w t) (.leaf false_)

theorem plant_points (w : Word) (t : Tree) : (plant w t).points = below w t.points := by
  induction w with
  | nil => rw [plant, below_nil]
  | cons b w ih =>
    ext p
    rw [plant, mem_below_cons, ← ih]
    cases b <;> cases hp : p 0 <;> simp [mem_node, mem_leaf, hp]

theorem realise (N : ℕ) (t : Tree) :
    t.points.Nonempty ↔ ∃ x : Fin d → K, x ∈ primary K d N ∧ addr N x ∈ t.points := by
  constructor
  · rintro ⟨p, w, hw, -⟩
    obtain ⟨x, hx⟩ := Cell.points_nonempty (K := K) (d := d) ⟨N, w⟩
    rw [mem_cell_addr] at hx
    exact ⟨x, hx.1, w, hw, hx.2⟩
  · rintro ⟨x, -, h⟩; exact ⟨_, h⟩

theorem subset_iff (N : ℕ) (t u : Tree) :
    (∀ x : Fin d → K, x ∈ primary K d N → addr N x ∈ t.points → addr N x ∈ u.points) ↔ t.points ⊆ u.points := by
  constructor
  · intro h p hp
    by_contra hn
    obtain ⟨x, h1, h2⟩ := (realise (K := K) (d := d) N (t.remove u)).1 ⟨p, by rw [C15_remove]; exact ⟨hp, hn⟩⟩
    rw [C15_remove] at h2
    exact h2.2 (h x h1 h2.1)
  · intro h x _ hx; exact h hx

theorem inter_iff (N : ℕ) (t u : Tree) :
    (∃ x : Fin d → K, x ∈ primary K d N ∧ addr N x ∈ t.points ∧ addr N x ∈ u.points) ↔
      (t.points ∩ u.points).Nonempty := by
  rw [← C15_restrict, realise (K := K) (d := d) N]
  simp only [C15_restrict, Set.mem_inter_iff]

/-- Inclusion of subpavings, through addresses from a common primary cell. -/
theorem sub_subset_iff (s t : Subpaving) (N : ℕ) (hs : s.cell.extent ≤ N) (ht : t.cell.extent ≤ N) :
    s.points K d ⊆ t.points K d ↔
      below (s.cell.at d N) s.tree.points ⊆ below (t.cell.at d N) t.tree.points := by
  rw [← plant_points, ← plant_points, ← subset_iff (K := K) (d := d) N]
  simp only [plant_points]
  constructor
  · intro h x h1 h2
    exact (((mem_sub t N ht x).1 (h ((mem_sub s N hs x).2 ⟨h1, h2⟩)))).2
  · intro h x hx
    have := (mem_sub s N hs x).1 hx
    exact (mem_sub t N ht x).2 ⟨this.1, h x this.1 this.2⟩

theorem sub_inter_iff (s t : Subpaving) (N : ℕ) (hs : s.cell.extent ≤ N) (ht : t.cell.extent ≤ N) :
    (s.points K d ∩ t.points K d).Nonempty ↔
      (below (s.cell.at d N) s.tree.points ∩ below (t.cell.at d N) t.tree.points).Nonempty := by
  rw [← plant_points, ← plant_points, ← inter_iff (K := K) (d := d) N]
  simp only [plant_points]
  constructor
  · rintro ⟨x, h1, h2⟩
    have e1 := (mem_sub s N hs x).1 h1
    have e2 := (mem_sub t N ht x).1 h2
    exact ⟨x, e1.1, e1.2, e2.2⟩
  · rintro ⟨x, h1, h2, h3⟩
    exact ⟨x, (mem_sub s N hs x).2 ⟨h1, h2⟩, (mem_sub t N ht x).2 ⟨h1, h3⟩⟩

/-- A cell as a subpaving. -/
theorem cell_as_sub (c : Cell) : (⟨c, .leaf true_⟩ : Subpaving).points K d = c.points K d := by
  ext x
  constructor
  · rintro ⟨w, hw, hx⟩
    cases w with
    | nil => rw [List.append_nil] at hx; exact hx
    | cons b w => simp [leafAt] at hw
  · intro hx
    exact ⟨[], rfl, by rw [List.append_nil]; exact hx⟩

theorem leaf_true_points : (leaf true_).points = Set.univ := by ext p; simp [mem_leaf]

/-- Paths that are not prefixes of one another have no common extension. -/
theorem diverge {v w : Word} (h1 : ¬ v <+: w) (h2 : ¬ w <+: v) (A B : Set Path) :
    below v A ∩ below w B = ∅ := by
  apply Set.eq_empty_of_forall_notMem
  rintro p ⟨⟨hv, -⟩, ⟨hw, -⟩⟩
  rcases le_total v.length w.length with hl | hl
  · exact h1 (extends_total hv hw hl)
  · exact h2 (extends_total hw hv hl)

theorem isPrefix_iff (a b : Word) : isPrefix a b = true ↔ a <+: b := by
  rw [C14_isPrefix]; exact ⟨fun ⟨v, hv⟩ => ⟨v, hv.symm⟩, fun ⟨v, hv⟩ => ⟨v, hv.symm⟩⟩

theorem prefix_drop {a b : Word} (h : a <+: b) : a ++ b.drop a.length = b := by
  obtain ⟨v, rfl⟩ := h; simp

theorem commonPaths_at (a b : Cell) :
    (commonPaths d a b).1 = a.at d (max a.extent b.extent) ∧
    (commonPaths d a b).2 = b.at d (max a.extent b.extent) := by
  unfold commonPaths
  split_ifs with h
  · have : max a.extent b.extent = b.extent := by omega
    rw [this]; exact ⟨rfl, by rw [Cell.at, primaryPath_self, List.nil_append]⟩
  · have : max a.extent b.extent = a.extent := by omega
    rw [this]; exact ⟨by rw [Cell.at, primaryPath_self, List.nil_append], rfl⟩

/-! ## The theorems -/

/-- **Emptiness** is decided exactly. -/
theorem C20_is_empty (s : Subpaving) : s.isEmpty = true ↔ s.points K d = ∅ := by
  rw [Subpaving.isEmpty, beq_iff_eq, C17_count, List.length_eq_zero_iff]
  constructor
  · intro h
    apply Set.eq_empty_of_forall_notMem
    rintro x ⟨w, hw, -⟩
    have := ((C17_enumeration s.tree).1 w).2 hw
    rw [h] at this; simp at this
  · intro h
    rw [List.eq_nil_iff_forall_not_mem]
    intro w hw
    have hw' := ((C17_enumeration s.tree).1 w).1 hw
    obtain ⟨x, hx⟩ := Cell.points_nonempty (K := K) (d := d) ⟨s.cell.extent, s.cell.word ++ w⟩
    have : x ∈ s.points K d := ⟨w, hw', hx⟩
    rw [h] at this; exact this

/-- **A cell is a subset of a subpaving** is decided exactly. -/
theorem C20_cell_subset (c : Cell) (s : Subpaving) :
    cellSubset d c s = true ↔ c.points K d ⊆ s.points K d := by
  have hN1 := le_max_left c.extent s.cell.extent
  have hN2 := le_max_right c.extent s.cell.extent
  obtain ⟨p, hp1, hp2⟩ := subsetPaths_at (d := d) c s.cell _ hN1 hN2
  rw [← cell_as_sub, sub_subset_iff (⟨c, .leaf true_⟩) s _ hN1 hN2]
  simp only [hp1, hp2, below_append, below_subset_below, leaf_true_points]
  unfold cellSubset Cell.subset
  generalize (subsetPaths d c s.cell).1 = v
  generalize (subsetPaths d c s.cell).2 = w
  split_ifs with h
  · rw [isPrefix_iff] at h
    obtain ⟨r, rfl⟩ := h
    rw [List.drop_left, C15_isEnabledAt, below_append, below_subset_below, below_univ]
    rfl
  · simp only [Bool.false_eq_true, false_iff]
    rw [isPrefix_iff] at h
    intro hsub
    obtain ⟨q, hq⟩ := (below_nonempty v Set.univ).2 ⟨fun _ => false, trivial⟩
    have hq' := hsub hq
    rcases le_total w.length v.length with hl | hl
    · exact h (extends_total hq'.1 hq.1 hl)
    · obtain ⟨r, hr⟩ := extends_total hq.1 hq'.1 hl
      cases r with
      | nil => exact h (by rw [← hr, List.append_nil])
      | cons b r =>
        obtain ⟨z, hz1, hz2⟩ := exists_extends (v ++ [!b]) (fun _ => false)
        rw [extends_append] at hz1
        have h3 := (hsub (show z ∈ below v Set.univ from ⟨hz1.1, trivial⟩)).1
        rw [← hr, extends_append] at h3
        have e1 := hz1.2 0 (by simp)
        have e2 := h3.2 0 (by simp)
        simp only [List.getElem_cons_zero] at e1 e2
        rw [e1] at e2
        cases b <;> simp at e2

/-- **A cell meets a subpaving** is decided exactly. -/
theorem C20_cell_intersect (c : Cell) (s : Subpaving) :
    cellIntersect d c s = true ↔ (c.points K d ∩ s.points K d).Nonempty := by
  have hN1 := le_max_left c.extent s.cell.extent
  have hN2 := le_max_right c.extent s.cell.extent
  rw [← cell_as_sub, sub_inter_iff (⟨c, .leaf true_⟩) s _ hN1 hN2]
  have hpaths : ∃ c' : Cell, (if s.cell.extent > c.extent then
        (⟨s.cell.extent, primaryPath d s.cell.extent c.extent ++ c.word⟩ : Cell) else c) = c' ∧
      c'.word = c.at d (max c.extent s.cell.extent) ∧
      primaryPath d c'.extent s.cell.extent ++ s.cell.word = s.cell.at d (max c.extent s.cell.extent) := by
    split_ifs with h
    · rw [show max c.extent s.cell.extent = s.cell.extent by omega]
      exact ⟨_, rfl, rfl, rfl⟩
    · rw [show max c.extent s.cell.extent = c.extent by omega]
      exact ⟨_, rfl, by rw [Cell.at, primaryPath_self, List.nil_append], rfl⟩
  obtain ⟨c', hc, hw, hp⟩ := hpaths
  unfold cellIntersect
  simp only [hc, hw, hp, leaf_true_points]
  generalize c.at d (max c.extent s.cell.extent) = v
  generalize s.cell.at d (max c.extent s.cell.extent) = w
  split_ifs with h1 h2
  · rw [isPrefix_iff] at h1
    obtain ⟨r, rfl⟩ := h1
    rw [C15_hasEnabled, below_append, below_inter_below, below_nonempty, Set.univ_inter, below_nonempty]
  · rw [isPrefix_iff] at h2
    obtain ⟨r, rfl⟩ := h2
    rw [List.drop_left, locate_hasEnabled, below_append, below_inter_below, below_nonempty, below_univ, Set.inter_comm]
  · rw [isPrefix_iff] at h1 h2
    rw [diverge h1 h2]; simp

/-- **Inclusion of subpavings**: for a non-empty first argument the answer is exact; if it is `true`
it is right in any case. -/
theorem C20_subset_partial (s t : Subpaving) :
    (pavingSubset d s t = true → s.points K d ⊆ t.points K d) ∧
    ((s.points K d).Nonempty → (pavingSubset d s t = true ↔ s.points K d ⊆ t.points K d)) := by
  have hN1 := le_max_left s.cell.extent t.cell.extent
  have hN2 := le_max_right s.cell.extent t.cell.extent
  obtain ⟨e1, e2⟩ := commonPaths_at (d := d) s.cell t.cell
  have hne : (s.points K d).Nonempty ↔ (below (s.cell.at d (max s.cell.extent t.cell.extent)) s.tree.points).Nonempty := by
    have := sub_inter_iff (K := K) (d := d) s s _ hN1 hN1
    rwa [Set.inter_self, Set.inter_self] at this
  rw [hne, sub_subset_iff s t _ hN1 hN2]
  unfold pavingSubset
  simp only [e1, e2]
  generalize s.cell.at d (max s.cell.extent t.cell.extent) = v
  generalize t.cell.at d (max s.cell.extent t.cell.extent) = w
  split_ifs with h1 h2
  · rw [isPrefix_iff] at h1
    obtain ⟨r, rfl⟩ := h1
    rw [List.drop_left, subsetSuper_spec, below_append, below_subset_below]
    exact ⟨id, fun _ => Iff.rfl⟩
  · rw [isPrefix_iff] at h2
    obtain ⟨r, rfl⟩ := h2
    rw [List.drop_left, subsetSub_spec, below_append, below_subset_below]
    exact ⟨id, fun _ => Iff.rfl⟩
  · rw [isPrefix_iff] at h1 h2
    refine ⟨fun h => absurd h (by simp), fun hn => ?_⟩
    simp only [Bool.false_eq_true, false_iff]
    intro hsub
    obtain ⟨p, hp⟩ := hn
    have : p ∈ below v s.tree.points ∩ below w t.tree.points := ⟨hp, hsub hp⟩
    rw [diverge h1 h2] at this; exact this

/-- An empty subpaving is reported not to be a subset of another if their root cells are apart. -/
theorem C20_subset_wrong_for_empty : ∃ s t : Subpaving, s.tree.WF ∧ t.tree.WF ∧
    s.points ℚ 1 = ∅ ∧ pavingSubset 1 s t = false := by
  refine ⟨⟨⟨0, [false]⟩, .leaf false_⟩, ⟨⟨0, [true]⟩, .leaf true_⟩, Or.inr rfl, Or.inl rfl, ?_, by decide⟩
  rw [← C20_is_empty]; decide

/-- **Intersection of subpavings** is decided exactly. -/
theorem C20_intersect (s t : Subpaving) :
    pavingIntersect d s t = true ↔ (s.points K d ∩ t.points K d).Nonempty := by
  have hN1 := le_max_left s.cell.extent t.cell.extent
  have hN2 := le_max_right s.cell.extent t.cell.extent
  obtain ⟨e1, e2⟩ := commonPaths_at (d := d) s.cell t.cell
  rw [sub_inter_iff s t _ hN1 hN2]
  unfold pavingIntersect
  simp only [e1, e2]
  generalize s.cell.at d (max s.cell.extent t.cell.extent) = v
  generalize t.cell.at d (max s.cell.extent t.cell.extent) = w
  split_ifs with h1 h2
  · rw [isPrefix_iff] at h1
    obtain ⟨r, rfl⟩ := h1
    rw [List.drop_left, intersectSuper_spec, below_append, below_inter_below, below_nonempty]
  · rw [isPrefix_iff] at h2
    obtain ⟨r, rfl⟩ := h2
    rw [List.drop_left, intersectSuper_spec, below_append, below_inter_below, below_nonempty, Set.inter_comm]
  · rw [isPrefix_iff] at h1 h2
    rw [diverge h1 h2]; simp

/-- **Equality**: pavings that compare equal have the same points; for recombined trees with equal
root cells the comparison is exact. -/
theorem C20_equality (s t : Subpaving) (hs : s.tree.WF) (ht : t.tree.WF) :
    (pavingEq d s t = true → s.points K d = t.points K d) ∧
    (Cell.eq d s.cell t.cell = true → (pavingEq d ⟨s.cell, s.tree.recombine⟩ ⟨t.cell, t.tree.recombine⟩ = true ↔
      s.points K d = t.points K d)) := by
  have hN1 := le_max_left s.cell.extent t.cell.extent
  have hN2 := le_max_right s.cell.extent t.cell.extent
  have hcell : Cell.eq d s.cell t.cell = true →
      s.cell.at d (max s.cell.extent t.cell.extent) = t.cell.at d (max s.cell.extent t.cell.extent) := by
    intro h
    obtain ⟨p, h1, h2⟩ := alignedWords_at (d := d) s.cell t.cell _ hN1 hN2
    rw [Cell.eq, beq_iff_eq] at h
    rw [h1, h2, h]
  have hpts : Cell.eq d s.cell t.cell = true → (s.points K d = t.points K d ↔ s.tree.points = t.tree.points) := by
    intro h
    rw [Set.Subset.antisymm_iff, sub_subset_iff s t _ hN1 hN2, sub_subset_iff t s _ hN2 hN1, hcell h,
      below_subset_below, below_subset_below, ← Set.Subset.antisymm_iff]
  constructor
  · intro h
    rw [pavingEq, Bool.and_eq_true] at h
    rw [hpts h.1, (C17_equality _ _ hs ht).1 h.2]
  · intro h
    rw [hpts h, pavingEq, C16_recombine_canonical _ _ hs ht]
    simp only [h, Bool.true_and]
    exact C17_equality _ _ (C15_invariant s.tree s.tree [] 0 hs hs).2.2.2.2.2.2.2.1
      (C15_invariant t.tree t.tree [] 0 ht ht).2.2.2.2.2.2.2.1

example : pavingSubset 2 ⟨⟨0, [true]⟩, .leaf true_⟩ ⟨⟨2, []⟩, .node indeterminate (.leaf true_) (.leaf false_)⟩ = true ∧
    pavingIntersect 2 ⟨⟨0, [true]⟩, .leaf true_⟩ ⟨⟨2, []⟩, .node indeterminate (.leaf false_) (.leaf true_)⟩ = false ∧
    cellSubset 2 ⟨0, [true]⟩ ⟨⟨2, []⟩, .node indeterminate (.leaf true_) (.leaf false_)⟩ = true ∧
    cellIntersect 2 ⟨2, [true]⟩ ⟨⟨0, []⟩, .leaf true_⟩ = false := by decide

end Verif.Grid
