import Verif.Grid.Cell
import Verif.Grid.Paving
import Verif.BinaryTree.Props
/-!
# C19: updates of pavings

The specification is the set of points (in lattice coordinates) of a paving: the points of the cells
of its enabled leaves.
-/
namespace Verif.Grid
open Ariadne.BinaryWord (Word)
open Ariadne.BinaryTree
open Ariadne.BinaryTree.Tree
open Ariadne.Logical (LV)
open Ariadne.Logical.LV

variable {K : Type*} [Field K] [LinearOrder K] [IsStrictOrderedRing K] {d : ℕ} [NeZero d]

/-- The points of a subpaving: those of the cells of its enabled leaves. -/
def Subpaving.points (K : Type*) [Field K] [LinearOrder K] (d : ℕ) [NeZero d] (s : Subpaving) :
    Set (Fin d → K) :=
  {x | ∃ w, s.tree.leafAt w = some true_ ∧ x ∈ Cell.points K d ⟨s.cell.extent, s.cell.word ++ w⟩}

/-- The points of a paving. -/
def Paving.points (K : Type*) [Field K] [LinearOrder K] (d : ℕ) [NeZero d] (p : Paving) :
    Set (Fin d → K) :=
  {x | ∃ w, p.tree.leafAt w = some true_ ∧ x ∈ Cell.points K d ⟨p.extent, w⟩}

theorem Paving.sub_points (p : Paving) : p.sub.points K d = p.points K d := by
  ext x; simp [Paving.sub, Subpaving.points, Paving.points]

/-! ## Addresses of points -/

/-- The infinite address of a point in the primary cell of extent `e`. -/
def addr (e : ℕ) (x : Fin d → K) : Path := fun n => route x n 0 (primaryBox K d e)

/-- The points of the primary cell of extent `e`. -/
def primary (K : Type*) [Field K] [LinearOrder K] (d : ℕ) (e : ℕ) : Set (Fin d → K) :=
  (primaryBox K d e).points

theorem mem_cell_addr (e : ℕ) (w : Word) (x : Fin d → K) :
    x ∈ Cell.points K d ⟨e, w⟩ ↔ x ∈ primary K d e ∧ Extends (addr e x) w := mem_cell e w x

theorem path_ext {p q : Path} (h : ∀ w, Extends p w ↔ Extends q w) : p = q := by
  funext n
  have hq : Extends p ((List.range (n + 1)).map q) := by
    rw [h, extends_iff]; simp
  have := hq n (by simp)
  simpa using this

/-- Re-rooting an address. -/
theorem addr_reroot {e N : ℕ} (h : e ≤ N) (x : Fin d → K) :
    (x ∈ primary K d e ↔ x ∈ primary K d N ∧ Extends (addr N x) (primaryPath d N e)) ∧
    (x ∈ primary K d e → Path.drop (primaryPath d N e).length (addr N x) = addr e x) := by
  have key : ∀ w, x ∈ Cell.points K d ⟨e, w⟩ ↔ x ∈ Cell.points K d ⟨N, primaryPath d N e ++ w⟩ := by
    intro w
    have := Cell.at_points (K := K) (d := d) ⟨e, w⟩ N h
    rw [← this]; rfl
  have h1 : x ∈ primary K d e ↔ x ∈ primary K d N ∧ Extends (addr N x) (primaryPath d N e) := by
    have := key []
    rw [mem_cell_addr, mem_cell_addr, List.append_nil] at this
    rw [← this]
    exact ⟨fun h => ⟨h, extends_nil _⟩, fun h => h.1⟩
  refine ⟨h1, fun hx => path_ext fun w => ?_⟩
  have := key w
  rw [mem_cell_addr, mem_cell_addr, extends_append] at this
  have h2 := h1.1 hx
  constructor
  · intro hw; exact (this.2 ⟨h2.1, h2.2, hw⟩).2
  · intro hw; exact (this.1 ⟨hx, hw⟩).2.2

/-- Membership in a subpaving through addresses in any large enough primary cell. -/
theorem mem_sub (s : Subpaving) (N : ℕ) (h : s.cell.extent ≤ N) (x : Fin d → K) :
    x ∈ s.points K d ↔ x ∈ primary K d N ∧ Extends (addr N x) (s.cell.at d N) ∧
      Path.drop (s.cell.at d N).length (addr N x) ∈ s.tree.points := by
  constructor
  · rintro ⟨w, hw, hx⟩
    have := Cell.at_points (K := K) (d := d) ⟨s.cell.extent, s.cell.word ++ w⟩ N h
    rw [← this, mem_cell_addr, Cell.at, ← List.append_assoc, extends_append] at hx
    exact ⟨hx.1, hx.2.1, w, hw, hx.2.2⟩
  · rintro ⟨h1, h2, w, hw, h3⟩
    refine ⟨w, hw, ?_⟩
    have := Cell.at_points (K := K) (d := d) ⟨s.cell.extent, s.cell.word ++ w⟩ N h
    rw [← this, mem_cell_addr, Cell.at, ← List.append_assoc, extends_append]
    exact ⟨h1, h2, h3⟩

theorem mem_paving (p : Paving) (x : Fin d → K) :
    x ∈ p.points K d ↔ x ∈ primary K d p.extent ∧ addr p.extent x ∈ p.tree.points := by
  constructor
  · rintro ⟨w, hw, hx⟩
    rw [mem_cell_addr] at hx
    exact ⟨hx.1, w, hw, hx.2⟩
  · rintro ⟨h1, w, hw, h2⟩
    exact ⟨w, hw, (mem_cell_addr _ _ _).2 ⟨h1, h2⟩⟩

/-! ## Walking down a tree -/

/-- The sets of addresses below a path. -/
def below (path : Word) (S : Set Path) : Set Path := {p | Extends p path ∧ Path.drop path.length p ∈ S}

theorem below_nil (S : Set Path) : below [] S = S := by
  ext p
  have : Path.drop 0 p = p := by funext i; simp [Path.drop]
  simp [below, extends_nil, this]

theorem mem_below_cons (b : Bool) (path : Word) (S : Set Path) (p : Path) :
    p ∈ below (b :: path) S ↔ p 0 = b ∧ Path.drop 1 p ∈ below path S := by
  simp only [below, Set.mem_setOf_eq, extends_cons, List.length_cons, drop_drop, and_assoc, Nat.add_comm]

theorem below_append (v w : Word) (S : Set Path) : below (v ++ w) S = below v (below w S) := by
  ext p
  simp only [below, Set.mem_setOf_eq, extends_append, drop_drop, List.length_append, and_assoc]

theorem isEnabled_leaf {t : Tree} (ht : t.WF) (h : t.isEnabled = true) : t = .leaf true_ := by
  cases t with
  | leaf v => rw [isEnabled, flag, definitely_iff] at h; rw [h]
  | node v l r => rw [isEnabled, flag, definitely_iff, ht.1] at h; exact absurd h (by decide)

theorem isDisabled_leaf {t : Tree} (ht : t.WF) (h : t.isDisabled = true) : t = .leaf false_ := by
  cases t with
  | leaf v =>
    rcases ht with rfl | rfl
    · exact absurd h (by decide)
    · rfl
  | node v l r =>
    have hv := ht.1
    subst hv
    exact absurd h (by simp [isDisabled, flag, LV.possibly])

theorem walk_add (f : Tree → Tree) (S : Set Path)
    (hf : ∀ t : Tree, t.WF → (f t).WF ∧ (f t).points = t.points ∪ S) (path : Word) (t : Tree) (ht : t.WF) :
    (walk true false f path t).WF ∧ (walk true false f path t).points = t.points ∪ below path S := by
  induction path generalizing t with
  | nil => rw [walk, below_nil]; exact hf t ht
  | cons b path ih =>
    rw [walk.eq_def]
    simp only
    by_cases hs : ((t.isEnabled && true) || (t.isDisabled && false)) = true
    · rw [if_pos hs]
      have : t = .leaf true_ := isEnabled_leaf ht (by simpa using hs)
      subst this
      exact ⟨ht, by ext p; simp [mem_leaf]⟩
    · rw [if_neg hs]
      cases t with
      | leaf v =>
        have h1 := ih (.leaf v) ht
        cases b
        · refine ⟨⟨rfl, h1.1, ht⟩, ?_⟩
          ext p
          rw [Set.mem_union, mem_below_cons]
          cases hp : p 0 <;> simp [mem_node, hp, h1.2, mem_leaf]
        · refine ⟨⟨rfl, ht, h1.1⟩, ?_⟩
          ext p
          rw [Set.mem_union, mem_below_cons]
          cases hp : p 0 <;> simp [mem_node, hp, h1.2, mem_leaf]
      | node v l r =>
        cases b
        · have h1 := ih l ht.2.1
          refine ⟨⟨ht.1, h1.1, ht.2.2⟩, ?_⟩
          ext p
          rw [Set.mem_union, mem_below_cons]
          cases hp : p 0 <;> simp [mem_node, hp, h1.2]
        · have h1 := ih r ht.2.2
          refine ⟨⟨ht.1, ht.2.1, h1.1⟩, ?_⟩
          ext p
          rw [Set.mem_union, mem_below_cons]
          cases hp : p 0 <;> simp [mem_node, hp, h1.2]

theorem walk_sub (f : Tree → Tree) (S : Set Path)
    (hf : ∀ t : Tree, t.WF → (f t).WF ∧ (f t).points = t.points \ S) (path : Word) (t : Tree) (ht : t.WF) :
    (walk false true f path t).WF ∧ (walk false true f path t).points = t.points \ below path S := by
  induction path generalizing t with
  | nil => rw [walk, below_nil]; exact hf t ht
  | cons b path ih =>
    rw [walk.eq_def]
    simp only
    by_cases hs : ((t.isEnabled && false) || (t.isDisabled && true)) = true
    · rw [if_pos hs]
      have : t = .leaf false_ := isDisabled_leaf ht (by simpa using hs)
      subst this
      exact ⟨ht, by ext p; simp [mem_leaf]⟩
    · rw [if_neg hs]
      cases t with
      | leaf v =>
        have h1 := ih (.leaf v) ht
        cases b
        · refine ⟨⟨rfl, h1.1, ht⟩, ?_⟩
          ext p
          rw [Set.mem_diff, mem_below_cons]
          cases hp : p 0 <;> simp [mem_node, hp, h1.2, mem_leaf]
        · refine ⟨⟨rfl, ht, h1.1⟩, ?_⟩
          ext p
          rw [Set.mem_diff, mem_below_cons]
          cases hp : p 0 <;> simp [mem_node, hp, h1.2, mem_leaf]
      | node v l r =>
        cases b
        · have h1 := ih l ht.2.1
          refine ⟨⟨ht.1, h1.1, ht.2.2⟩, ?_⟩
          ext p
          rw [Set.mem_diff, mem_below_cons]
          cases hp : p 0 <;> simp [mem_node, hp, h1.2]
        · have h1 := ih r ht.2.2
          refine ⟨⟨ht.1, ht.2.1, h1.1⟩, ?_⟩
          ext p
          rw [Set.mem_diff, mem_below_cons]
          cases hp : p 0 <;> simp [mem_node, hp, h1.2]

theorem restrictWalk_points (u : Tree) (hu : u.WF) (path : Word) (t : Tree) (ht : t.WF) :
    (restrictWalk u path t).WF ∧ (restrictWalk u path t).points = t.points ∩ below path u.points := by
  induction path generalizing t with
  | nil =>
    rw [restrictWalk, below_nil]
    split_ifs with h1 h2
    · have := isEnabled_leaf ht h1
      subst this
      exact ⟨hu, by ext p; simp [mem_leaf]⟩
    · have := isDisabled_leaf ht h2
      subst this
      exact ⟨ht, by ext p; simp [mem_leaf]⟩
    · exact ⟨(C15_invariant t u [] 0 ht hu).1, C15_restrict t u⟩
  | cons b path ih =>
    cases t with
    | leaf v =>
      rw [restrictWalk]
      split_ifs with h1 h2
      · have := isDisabled_leaf ht h1
        rw [this]
        exact ⟨Or.inr rfl, by ext p; simp [mem_leaf]⟩
      · have h3 := ih (.leaf v) ht
        refine ⟨⟨rfl, Or.inr rfl, h3.1⟩, ?_⟩
        ext p
        rw [Set.mem_inter_iff, mem_below_cons]
        cases hp : p 0 <;> simp [mem_node, hp, h3.2, mem_leaf, h2]
      · have h3 := ih (.leaf v) ht
        refine ⟨⟨rfl, h3.1, Or.inr rfl⟩, ?_⟩
        ext p
        rw [Set.mem_inter_iff, mem_below_cons]
        cases hp : p 0 <;> simp [mem_node, hp, h3.2, mem_leaf, h2]
    | node v l r =>
      rw [restrictWalk]
      split_ifs with h2
      · have h3 := ih r ht.2.2
        refine ⟨⟨ht.1, Or.inr rfl, h3.1⟩, ?_⟩
        ext p
        rw [Set.mem_inter_iff, mem_below_cons]
        cases hp : p 0 <;> simp [mem_node, hp, h3.2, mem_leaf, h2]
      · have h3 := ih l ht.2.1
        refine ⟨⟨ht.1, h3.1, Or.inr rfl⟩, ?_⟩
        ext p
        rw [Set.mem_inter_iff, mem_below_cons]
        cases hp : p 0 <;> simp [mem_node, hp, h3.2, mem_leaf, h2]

theorem removeWalk_points (u : Tree) (hu : u.WF) (path : Word) (t : Tree) (ht : t.WF) :
    (removeWalk u path t).WF ∧ (removeWalk u path t).points = t.points \ below path u.points := by
  induction path generalizing t with
  | nil =>
    rw [removeWalk, below_nil]
    split_ifs with h2
    · have := isDisabled_leaf ht h2
      subst this
      exact ⟨ht, by ext p; simp [mem_leaf]⟩
    · exact ⟨(C15_invariant t u [] 0 ht hu).2.1, C15_remove t u⟩
  | cons b path ih =>
    cases t with
    | leaf v =>
      rw [removeWalk]
      split_ifs with h1 h2
      · have := isDisabled_leaf ht h1
        rw [this]
        exact ⟨Or.inr rfl, by ext p; simp [mem_leaf]⟩
      · have h3 := ih (.leaf v) ht
        refine ⟨⟨rfl, ht, h3.1⟩, ?_⟩
        ext p
        rw [Set.mem_diff, mem_below_cons]
        cases hp : p 0 <;> simp [mem_node, hp, h3.2, mem_leaf, h2]
      · have h3 := ih (.leaf v) ht
        refine ⟨⟨rfl, h3.1, ht⟩, ?_⟩
        ext p
        rw [Set.mem_diff, mem_below_cons]
        cases hp : p 0 <;> simp [mem_node, hp, h3.2, mem_leaf, h2]
    | node v l r =>
      rw [removeWalk]
      split_ifs with h2
      · have h3 := ih r ht.2.2
        refine ⟨⟨ht.1, ht.2.1, h3.1⟩, ?_⟩
        ext p
        rw [Set.mem_diff, mem_below_cons]
        cases hp : p 0 <;> simp [mem_node, hp, h3.2, h2]
      · have h3 := ih l ht.2.1
        refine ⟨⟨ht.1, h3.1, ht.2.2⟩, ?_⟩
        ext p
        rw [Set.mem_diff, mem_below_cons]
        cases hp : p 0 <;> simp [mem_node, hp, h3.2, h2]

theorem removePath_points (path : Word) (t : Tree) (ht : t.WF) :
    (removePath path t).WF ∧ (removePath path t).points = t.points \ {p | Extends p path} := by
  induction path generalizing t with
  | nil =>
    cases t with
    | leaf v =>
      rw [removePath]
      split_ifs with h
      · exact ⟨Or.inr rfl, by ext p; simp [mem_leaf, extends_nil]⟩
      · refine ⟨ht, ?_⟩
        have : v = false_ := by
          rcases ht with rfl | rfl
          · exact absurd rfl h
          · rfl
        subst this
        ext p; simp [mem_leaf]
    | node v l r => exact ⟨Or.inr rfl, by ext p; simp [removePath, mem_leaf, extends_nil]⟩
  | cons b path ih =>
    cases t with
    | leaf v =>
      rw [removePath]
      split_ifs with h1 h2
      · have h3 := ih (.leaf v) ht
        refine ⟨⟨rfl, ht, h3.1⟩, ?_⟩
        ext p
        rw [Set.mem_diff, Set.mem_setOf_eq, extends_cons]
        cases hp : p 0 <;> simp [mem_node, hp, h3.2, mem_leaf, h2]
      · have h3 := ih (.leaf v) ht
        refine ⟨⟨rfl, h3.1, ht⟩, ?_⟩
        ext p
        rw [Set.mem_diff, Set.mem_setOf_eq, extends_cons]
        cases hp : p 0 <;> simp [mem_node, hp, h3.2, mem_leaf, h2]
      · have : v ≠ true_ := by rwa [Bool.not_eq_true, definitely_false_iff] at h1
        exact ⟨ht, by ext p; simp [mem_leaf, this]⟩
    | node v l r =>
      rw [removePath]
      split_ifs with h2
      · have h3 := ih r ht.2.2
        refine ⟨⟨ht.1, ht.2.1, h3.1⟩, ?_⟩
        ext p
        rw [Set.mem_diff, Set.mem_setOf_eq, extends_cons]
        cases hp : p 0 <;> simp [mem_node, hp, h3.2, h2]
      · have h3 := ih l ht.2.1
        refine ⟨⟨ht.1, h3.1, ht.2.2⟩, ?_⟩
        ext p
        rw [Set.mem_diff, Set.mem_setOf_eq, extends_cons]
        cases hp : p 0 <;> simp [mem_node, hp, h3.2, h2]

theorem extentWalk_points (path : Word) (t : Tree) (ht : t.WF) :
    (extentWalk path t).WF ∧ (extentWalk path t).points = t.points ∩ {p | Extends p path} := by
  induction path generalizing t with
  | nil => exact ⟨ht, by ext p; simp [extentWalk, extends_nil]⟩
  | cons b path ih =>
    cases t with
    | leaf v =>
      rw [extentWalk]
      split_ifs with h1 h2
      · have h3 := ih (.leaf v) ht
        refine ⟨⟨rfl, Or.inr rfl, h3.1⟩, ?_⟩
        ext p
        rw [Set.mem_inter_iff, Set.mem_setOf_eq, extends_cons]
        cases hp : p 0 <;> simp [mem_node, hp, h3.2, mem_leaf, h2]
      · have h3 := ih (.leaf v) ht
        refine ⟨⟨rfl, h3.1, Or.inr rfl⟩, ?_⟩
        ext p
        rw [Set.mem_inter_iff, Set.mem_setOf_eq, extends_cons]
        cases hp : p 0 <;> simp [mem_node, hp, h3.2, mem_leaf, h2]
      · have : v ≠ true_ := by rwa [Bool.not_eq_true, definitely_false_iff] at h1
        exact ⟨ht, by ext p; simp [mem_leaf, this]⟩
    | node v l r =>
      rw [extentWalk]
      split_ifs with h2
      · have h3 := ih r ht.2.2
        refine ⟨⟨ht.1, Or.inr rfl, h3.1⟩, ?_⟩
        ext p
        rw [Set.mem_inter_iff, Set.mem_setOf_eq, extends_cons]
        cases hp : p 0 <;> simp [mem_node, hp, h3.2, mem_leaf, h2]
      · have h3 := ih l ht.2.1
        refine ⟨⟨ht.1, h3.1, Or.inr rfl⟩, ?_⟩
        ext p
        rw [Set.mem_inter_iff, Set.mem_setOf_eq, extends_cons]
        cases hp : p 0 <;> simp [mem_node, hp, h3.2, mem_leaf, h2]

/-! ## Re-rooting pavings -/

/-- The invariant of pavings. -/
def Paving.WF (p : Paving) : Prop := p.tree.WF

theorem primaryPath_ne_nil {e N : ℕ} (h : e < N) : primaryPath d N e ≠ [] := by
  intro hc
  have := primaryPath_length (d := d) N e h.le
  rw [hc, List.length_nil] at this
  have hd := NeZero.pos d
  rcases Nat.mul_eq_zero.1 this.symm with h1 | h1 <;> omega

/-- `up_to_primary_cell` re-roots a paving without changing its points. -/
theorem upTo_spec (p : Paving) (e : ℕ) (h : p.extent < e) (hp : p.WF) :
    ∃ q, p.upTo d e = some q ∧ q.extent = e ∧ q.WF ∧ q.points K d = p.points K d := by
  obtain ⟨s, hs, hpts⟩ := C15_prepend p.tree (primaryPath d e p.extent) (primaryPath_ne_nil h)
  refine ⟨⟨e, s⟩, by rw [Paving.upTo, hs]; rfl, rfl,
    (C15_invariant p.tree p.tree _ 0 hp hp).2.2.2.2.2.2.2.2 s hs, ?_⟩
  ext x
  rw [mem_paving, mem_paving]
  obtain ⟨h1, h2⟩ := addr_reroot (K := K) (d := d) h.le x
  simp only [hpts, Set.mem_setOf_eq]
  rw [h1]
  constructor
  · rintro ⟨a, b, c⟩
    exact ⟨⟨a, b⟩, by rw [← h2 (h1.2 ⟨a, b⟩)]; exact c⟩
  · rintro ⟨⟨a, b⟩, c⟩
    exact ⟨a, b, by rw [h2 (h1.2 ⟨a, b⟩)]; exact c⟩

/-- Points below a path of the primary cell `N`, as a set of points. -/
theorem mem_below_reroot {e N : ℕ} (h : e ≤ N) (S : Set Path) (x : Fin d → K) :
    (x ∈ primary K d N ∧ addr N x ∈ below (primaryPath d N e) S) ↔ (x ∈ primary K d e ∧ addr e x ∈ S) := by
  obtain ⟨h1, h2⟩ := addr_reroot (K := K) (d := d) h x
  rw [h1]
  simp only [below, Set.mem_setOf_eq]
  constructor
  · rintro ⟨a, b, c⟩; exact ⟨⟨a, b⟩, by rw [← h2 (h1.2 ⟨a, b⟩)]; exact c⟩
  · rintro ⟨⟨a, b⟩, c⟩; exact ⟨a, b, by rw [h2 (h1.2 ⟨a, b⟩)]; exact c⟩

theorem primary_mono {e N : ℕ} (h : e ≤ N) {x : Fin d → K} (hx : x ∈ primary K d e) : x ∈ primary K d N :=
  ((addr_reroot h x).1.1 hx).1

/-- Adding a set of addresses relative to extent `e`, through `align_with_cell`. -/
theorem align_add (p : Paving) (e : ℕ) (f : Tree → Tree) (S : Set Path) (hp : p.WF)
    (hf : ∀ t : Tree, t.WF → (f t).WF ∧ (f t).points = t.points ∪ S) :
    ∃ q, p.align d e true false f = some q ∧ q.extent = max p.extent e ∧ q.WF ∧
      q.points K d = p.points K d ∪ {x | x ∈ primary K d e ∧ addr e x ∈ S} := by
  unfold Paving.align
  split_ifs with h1 h2
  · obtain ⟨w1, w2⟩ := walk_add f S hf (primaryPath d p.extent e) p.tree hp
    refine ⟨_, rfl, by simp only; omega, w1, ?_⟩
    ext x
    rw [mem_paving, Set.mem_union, mem_paving, Set.mem_setOf_eq, ← mem_below_reroot (show e ≤ p.extent by omega)]
    simp only [w2, Set.mem_union]
    tauto
  · obtain ⟨q, hq, hqe, hqw, hqp⟩ := upTo_spec (K := K) (d := d) p e h2 hp
    obtain ⟨f1, f2⟩ := hf q.tree hqw
    refine ⟨⟨q.extent, f q.tree⟩, by rw [hq]; rfl, by simp only; omega, f1, ?_⟩
    ext x
    rw [← hqp, mem_paving, Set.mem_union, mem_paving, Set.mem_setOf_eq]
    simp only [f2, hqe, Set.mem_union]
    tauto
  · obtain ⟨f1, f2⟩ := hf p.tree hp
    have he : p.extent = e := by omega
    refine ⟨_, rfl, by simp only; omega, f1, ?_⟩
    ext x
    rw [mem_paving, Set.mem_union, mem_paving, Set.mem_setOf_eq]
    simp only [f2, he, Set.mem_union]
    tauto

/-- Removing a set of addresses relative to extent `e`, through `align_with_cell`. -/
theorem align_sub (p : Paving) (e : ℕ) (f : Tree → Tree) (S : Set Path) (hp : p.WF)
    (hf : ∀ t : Tree, t.WF → (f t).WF ∧ (f t).points = t.points \ S) :
    ∃ q, p.align d e false true f = some q ∧ q.extent = max p.extent e ∧ q.WF ∧
      q.points K d = p.points K d \ {x | x ∈ primary K d e ∧ addr e x ∈ S} := by
  unfold Paving.align
  split_ifs with h1 h2
  · obtain ⟨w1, w2⟩ := walk_sub f S hf (primaryPath d p.extent e) p.tree hp
    refine ⟨_, rfl, by simp only; omega, w1, ?_⟩
    ext x
    rw [mem_paving, Set.mem_diff, mem_paving, Set.mem_setOf_eq, ← mem_below_reroot (show e ≤ p.extent by omega)]
    simp only [w2, Set.mem_diff]
    tauto
  · obtain ⟨q, hq, hqe, hqw, hqp⟩ := upTo_spec (K := K) (d := d) p e h2 hp
    obtain ⟨f1, f2⟩ := hf q.tree hqw
    refine ⟨⟨q.extent, f q.tree⟩, by rw [hq]; rfl, by simp only; omega, f1, ?_⟩
    ext x
    rw [← hqp, mem_paving, Set.mem_diff, mem_paving, Set.mem_setOf_eq]
    simp only [f2, hqe, Set.mem_diff]
    tauto
  · obtain ⟨f1, f2⟩ := hf p.tree hp
    have he : p.extent = e := by omega
    refine ⟨_, rfl, by simp only; omega, f1, ?_⟩
    ext x
    rw [mem_paving, Set.mem_diff, mem_paving, Set.mem_setOf_eq]
    simp only [f2, he, Set.mem_diff]
    tauto

/-! ## The theorems -/

/-- A new paving is empty, or the unit cell. -/
theorem C19_init : (Paving.init false).points K d = ∅ ∧
    (Paving.init true).points K d = {x | ∀ j, 0 ≤ x j ∧ x j < 1} := by
  constructor
  · ext x; rw [mem_paving]; simp [Paving.init, mem_leaf, ofBool]
  · ext x; rw [mem_paving]
    simp only [Paving.init, mem_leaf, ofBool, if_true, and_true, primary, Box.points, primaryBox, primaryCorners,
      Set.mem_setOf_eq, Int.cast_zero, Int.cast_one]

/-- **Adjoining a cell** never fails, keeps the invariant and gives exactly the union, whatever the
extents. -/
theorem C19_adjoin_cell (p : Paving) (c : Cell) (hp : p.WF) :
    ∃ q, p.adjoinCell d c = some q ∧ q.WF ∧ q.points K d = p.points K d ∪ c.points K d := by
  obtain ⟨q, h1, -, h3, h4⟩ := align_add (K := K) (d := d) p c.extent (addEnabledPath c.word)
    {a | Extends a c.word} hp (fun t ht => ⟨(C15_invariant t t c.word 0 ht ht).2.2.2.1, C15_addEnabledPath t _⟩)
  refine ⟨q, h1, h3, ?_⟩
  rw [h4]
  congr 1
  ext x
  exact (mem_cell_addr c.extent c.word x).symm

example : Paving.adjoinCell 2 ⟨0, .leaf false_⟩ ⟨1, [true]⟩ = some ⟨1, .node indeterminate
    (.leaf false_) (.leaf true_)⟩ := by decide

theorem sub_points_addr (s : Subpaving) :
    s.points K d = {x | x ∈ primary K d s.cell.extent ∧ addr s.cell.extent x ∈ below s.cell.word s.tree.points} := by
  ext x
  rw [mem_sub s s.cell.extent (le_refl _), Cell.at, primaryPath_self, List.nil_append]
  rfl

/-- **Adjoining a (sub)paving** gives exactly the union. -/
theorem C19_adjoin (p : Paving) (s : Subpaving) (hp : p.WF) (hs : s.tree.WF) :
    ∃ q, p.adjoin d s = some q ∧ q.extent = max p.extent s.cell.extent ∧ q.WF ∧
      q.points K d = p.points K d ∪ s.points K d := by
  obtain ⟨q, h1, h2, h3, h4⟩ := align_add (K := K) (d := d) p s.cell.extent (addEnabledSubtree s.tree s.cell.word)
    (below s.cell.word s.tree.points) hp
    (fun t ht => ⟨(C15_invariant t s.tree s.cell.word 0 ht hs).2.2.2.2.1, C15_addEnabledSubtree t _ _ ht⟩)
  exact ⟨q, h1, h2, h3, by rw [h4, sub_points_addr]⟩

/-- **Removing a cell** gives exactly the difference. -/
theorem C19_remove_cell (p : Paving) (c : Cell) (hp : p.WF) :
    ∃ q, p.removeCell d c = some q ∧ q.WF ∧ q.points K d = p.points K d \ c.points K d := by
  obtain ⟨q, h1, -, h3, h4⟩ := align_sub (K := K) (d := d) p c.extent (removePath c.word)
    {a | Extends a c.word} hp (fun t ht => removePath_points c.word t ht)
  refine ⟨q, h1, h3, ?_⟩
  rw [h4]
  congr 1
  ext x
  exact (mem_cell_addr c.extent c.word x).symm

theorem below_at {s : Subpaving} {N : ℕ} (h : s.cell.extent ≤ N) (x : Fin d → K) :
    x ∈ s.points K d ↔ x ∈ primary K d N ∧
      addr N x ∈ below (primaryPath d N s.cell.extent ++ s.cell.word) s.tree.points := mem_sub s N h x

theorem restrictToLower_spec (p : Paving) (s : Subpaving) (hp : p.WF) (hs : s.tree.WF)
    (h : s.cell.extent ≤ p.extent) :
    (p.restrictToLower d s).WF ∧ (p.restrictToLower d s).points K d = p.points K d ∩ s.points K d := by
  obtain ⟨h1, h2⟩ := restrictWalk_points s.tree hs (primaryPath d p.extent s.cell.extent ++ s.cell.word) p.tree hp
  refine ⟨h1, ?_⟩
  ext x
  rw [Set.mem_inter_iff, mem_paving, mem_paving, below_at h]
  simp only [Paving.restrictToLower, h2, Set.mem_inter_iff]
  tauto

theorem removeFromLower_spec (p : Paving) (s : Subpaving) (hp : p.WF) (hs : s.tree.WF)
    (h : s.cell.extent ≤ p.extent) :
    (p.removeFromLower d s).WF ∧ (p.removeFromLower d s).points K d = p.points K d \ s.points K d := by
  obtain ⟨h1, h2⟩ := removeWalk_points s.tree hs (primaryPath d p.extent s.cell.extent ++ s.cell.word) p.tree hp
  refine ⟨h1, ?_⟩
  ext x
  rw [Set.mem_diff, mem_paving, mem_paving, below_at h]
  simp only [Paving.removeFromLower, h2, Set.mem_diff]
  tauto

/-- **Restriction** gives exactly the intersection, also with a paving of larger extent. -/
theorem C19_restrict (p : Paving) (s : Subpaving) (hp : p.WF) (hs : s.tree.WF) :
    ∃ q, p.restrict d s = some q ∧ q.WF ∧ q.points K d = p.points K d ∩ s.points K d := by
  unfold Paving.restrict
  split_ifs with h
  · obtain ⟨q, hq, hqe, hqw, hqp⟩ := upTo_spec (K := K) (d := d) p _ h hp
    obtain ⟨r1, r2⟩ := restrictToLower_spec (K := K) (d := d) q s hqw hs (by omega)
    exact ⟨_, by rw [hq]; rfl, r1, by rw [r2, hqp]⟩
  · obtain ⟨r1, r2⟩ := restrictToLower_spec (K := K) (d := d) p s hp hs (by omega)
    exact ⟨_, rfl, r1, r2⟩

/-- **Removal of a (sub)paving** gives exactly the difference, also with a paving of larger extent. -/
theorem C19_remove (p : Paving) (s : Subpaving) (hp : p.WF) (hs : s.tree.WF) :
    ∃ q, p.remove d s = some q ∧ q.WF ∧ q.points K d = p.points K d \ s.points K d := by
  unfold Paving.remove
  split_ifs with h
  · obtain ⟨q, hq, hqe, hqw, hqp⟩ := upTo_spec (K := K) (d := d) p _ h hp
    obtain ⟨r1, r2⟩ := removeFromLower_spec (K := K) (d := d) q s hqw hs (by omega)
    exact ⟨_, by rw [hq]; rfl, r1, by rw [r2, hqp]⟩
  · obtain ⟨r1, r2⟩ := removeFromLower_spec (K := K) (d := d) p s hp hs (by omega)
    exact ⟨_, rfl, r1, r2⟩

/-- **`restrict_to_extent`** keeps exactly the points in the primary cell of the given extent. -/
theorem C19_restrict_to_extent (p : Paving) (e : ℕ) (hp : p.WF) :
    (p.restrictToExtent d e).WF ∧
    (p.restrictToExtent d e).points K d = p.points K d ∩ Cell.points K d ⟨e, []⟩ := by
  unfold Paving.restrictToExtent
  have hprim : ∀ x : Fin d → K, x ∈ Cell.points K d ⟨e, []⟩ ↔ x ∈ primary K d e := by
    intro x; rw [mem_cell_addr]; exact ⟨fun h => h.1, fun h => ⟨h, extends_nil _⟩⟩
  split_ifs with h
  · obtain ⟨h1, h2⟩ := extentWalk_points (primaryPath d p.extent e) p.tree hp
    refine ⟨h1, ?_⟩
    ext x
    rw [Set.mem_inter_iff, mem_paving, mem_paving, hprim, (addr_reroot (show e ≤ p.extent by omega) x).1]
    simp only [h2, Set.mem_inter_iff, Set.mem_setOf_eq]
    tauto
  · refine ⟨hp, ?_⟩
    ext x
    rw [Set.mem_inter_iff, hprim]
    exact ⟨fun hx => ⟨hx, primary_mono (by omega) ((mem_paving p x).1 hx).1⟩, fun hx => hx.1⟩

theorem empty_points (e : ℕ) : (⟨e, .leaf false_⟩ : Paving).points K d = ∅ := by
  ext x; rw [mem_paving]; simp [mem_leaf]

/-- **`join`, `intersection` and `difference`** of subpavings are union, intersection and difference. -/
theorem C19_algebra (s t : Subpaving) (hs : s.tree.WF) (ht : t.tree.WF) :
    (∃ q, join d s t = some q ∧ q.WF ∧ q.points K d = s.points K d ∪ t.points K d) ∧
    (∃ q, intersection d s t = some q ∧ q.WF ∧ q.points K d = s.points K d ∩ t.points K d) ∧
    (∃ q, difference d s t = some q ∧ q.WF ∧ q.points K d = s.points K d \ t.points K d) := by
  obtain ⟨p, hp1, -, hp2, hp3⟩ := C19_adjoin (K := K) (d := d) ⟨max s.cell.extent t.cell.extent, .leaf false_⟩ s
    (Or.inr rfl) hs
  rw [empty_points, Set.empty_union] at hp3
  refine ⟨?_, ?_, ?_⟩
  · obtain ⟨q, h1, -, h2, h3⟩ := C19_adjoin (K := K) (d := d) p t hp2 ht
    exact ⟨q, by rw [join, hp1]; exact h1, h2, by rw [h3, hp3]⟩
  · obtain ⟨q, h1, h2, h3⟩ := C19_restrict (K := K) (d := d) p t hp2 ht
    exact ⟨q, by rw [intersection, hp1]; exact h1, h2, by rw [h3, hp3]⟩
  · obtain ⟨q, h1, h2, h3⟩ := C19_remove (K := K) (d := d) p t hp2 ht
    exact ⟨q, by rw [difference, hp1]; exact h1, h2, by rw [h3, hp3]⟩

/-! ## Histories -/

/-- A call changing a paving. -/
inductive Update where
  | adjoinCell (c : Cell)
  | adjoin (s : Subpaving)
  | removeCell (c : Cell)
  | remove (s : Subpaving)
  | restrict (s : Subpaving)
  | restrictToExtent (e : ℕ)
  | mince (depth : ℕ)
  | recombine
  | clear

/-- Models one call (`mince_to_tree_depth` and `recombine`, grid_paving.cpp:1018-1024, act on the
tree alone). -/
def Update.run (d : ℕ) (p : Paving) : Update → Option Paving
  | adjoinCell c => p.adjoinCell d c
  | adjoin s => p.adjoin d s
  | removeCell c => p.removeCell d c
  | remove s => p.remove d s
  | restrict s => p.restrict d s
  | restrictToExtent e => some (p.restrictToExtent d e)
  | mince n => some ⟨p.extent, p.tree.mince n⟩
  | recombine => some ⟨p.extent, p.tree.recombine⟩
  | clear => some (Paving.init false)

/-- A sequence of calls. -/
def runAll (d : ℕ) : Paving → List Update → Option Paving
  | p, [] => some p
  | p, u :: us => (u.run d p).bind fun q => runAll d q us

/-- What a call should do to the set of points. -/
def Update.effect (K : Type*) [Field K] [LinearOrder K] (d : ℕ) [NeZero d] (S : Set (Fin d → K)) :
    Update → Set (Fin d → K)
  | adjoinCell c => S ∪ c.points K d
  | adjoin s => S ∪ s.points K d
  | removeCell c => S \ c.points K d
  | remove s => S \ s.points K d
  | restrict s => S ∩ s.points K d
  | restrictToExtent e => S ∩ Cell.points K d ⟨e, []⟩
  | mince _ => S
  | recombine => S
  | clear => ∅

/-- The subpavings used as arguments satisfy the invariant. -/
def Update.Ok : Update → Prop
  | adjoin s => s.tree.WF
  | remove s => s.tree.WF
  | restrict s => s.tree.WF
  | _ => True

/-- **Histories**: after any sequence of updates of a paving, with operands rooted at any extents, the
points are those obtained by the corresponding set operations; no update fails. -/
theorem C19_history (p : Paving) (us : List Update) (hp : p.WF) (hu : ∀ u ∈ us, u.Ok) :
    ∃ q, runAll d p us = some q ∧ q.WF ∧ q.points K d = us.foldl (Update.effect K d) (p.points K d) := by
  induction us generalizing p with
  | nil => exact ⟨p, rfl, hp, rfl⟩
  | cons u us ih =>
    have hstep : ∃ q, u.run d p = some q ∧ q.WF ∧ q.points K d = Update.effect K d (p.points K d) u := by
      have hok := hu u List.mem_cons_self
      cases u with
      | adjoinCell c => exact C19_adjoin_cell p c hp
      | adjoin s =>
        obtain ⟨q, h1, -, h2, h3⟩ := C19_adjoin (K := K) (d := d) p s hp hok
        exact ⟨q, h1, h2, h3⟩
      | removeCell c => exact C19_remove_cell p c hp
      | remove s => exact C19_remove p s hp hok
      | restrict s => exact C19_restrict p s hp hok
      | restrictToExtent e =>
        exact ⟨_, rfl, (C19_restrict_to_extent (K := K) p e hp).1, (C19_restrict_to_extent p e hp).2⟩
      | mince n =>
        refine ⟨_, rfl, (C15_invariant p.tree p.tree [] n hp hp).2.2.2.2.2.2.1, ?_⟩
        ext x; rw [mem_paving]; simp only [C16_mince_points]; rw [← mem_paving]; rfl
      | recombine =>
        refine ⟨_, rfl, (C15_invariant p.tree p.tree [] 0 hp hp).2.2.2.2.2.2.2.1, ?_⟩
        ext x; rw [mem_paving]; simp only [C16_recombine_points]; rw [← mem_paving]; rfl
      | clear => exact ⟨_, rfl, Or.inr rfl, empty_points 0⟩
    obtain ⟨q, h1, h2, h3⟩ := hstep
    obtain ⟨r, h4, h5, h6⟩ := ih q h2 (fun v hv => hu v (List.mem_cons_of_mem _ hv))
    exact ⟨r, by rw [runAll, h1]; exact h4, h5, by rw [h6, h3]; rfl⟩

example : ∃ q, runAll 2 (Paving.init false) [.adjoinCell ⟨1, [true]⟩, .removeCell ⟨0, [false, true]⟩] = some q ∧
    q.tree.countEnabled = 3 := ⟨_, rfl, by decide⟩

/-! ## Copies and branches -/

/-- The two branches of a subpaving partition its points. -/
theorem C19_branch (s l r : Subpaving) (hl : s.branch false = some l) (hr : s.branch true = some r) :
    s.points K d = l.points K d ∪ r.points K d ∧ Disjoint (l.points K d) (r.points K d) := by
  obtain ⟨c, t⟩ := s
  cases t with
  | leaf v => simp [Subpaving.branch] at hl
  | node v tl tr =>
    simp only [Subpaving.branch, Option.some.injEq, Bool.false_eq_true, if_false, if_true] at hl hr
    subst hl; subst hr
    constructor
    · ext x
      rw [Set.mem_union, sub_points_addr, sub_points_addr, sub_points_addr]
      simp only [Set.mem_setOf_eq, Cell.split, below_append]
      simp only [below, Set.mem_setOf_eq, mem_node]
      cases hb : Path.drop c.word.length (addr c.extent x) 0 <;>
        simp [extends_cons, extends_nil, hb]
    · rw [Set.disjoint_left]
      intro x h1 h2
      rw [sub_points_addr] at h1 h2
      simp only [Set.mem_setOf_eq, Cell.split, below_append] at h1 h2
      simp only [below, Set.mem_setOf_eq, extends_cons] at h1 h2
      have e1 := h1.2.2.1.1
      rw [h2.2.2.1.1] at e1
      exact absurd e1 (by decide)

/-- **Copies** of a paving denote the same set. -/
theorem C19_clone_partial (p : Paving) : p.clone.points K d = p.points K d := rfl

/-- Cloning a *subpaving* loses it: the copy is the whole unit cell, here for an empty subpaving. -/
theorem C19_clone_wrong : ∃ s : Subpaving, s.tree.WF ∧ s.points ℚ 1 = ∅ ∧ (s.clone.points ℚ 1).Nonempty := by
  refine ⟨⟨⟨0, []⟩, .leaf false_⟩, Or.inr rfl, ?_, ⟨fun _ => 0, ?_⟩⟩
  · rw [show (⟨⟨0, []⟩, .leaf false_⟩ : Subpaving) = (⟨0, .leaf false_⟩ : Paving).sub from rfl,
      Paving.sub_points, empty_points]
  · rw [Subpaving.clone, C19_init.2]; intro j; norm_num

end Verif.Grid
