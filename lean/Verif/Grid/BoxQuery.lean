import Verif.Grid.Query
import Verif.Rounding.Props
/-!
# C20: queries of pavings against boxes

In the code the box of a cell in the state space is computed with rounding, so the cells are the
images of the lattice boxes under coordinate-wise monotone maps (strictly monotone if the arithmetic
is exact).  The set of a paving is here the union of the *closed* boxes of its cells.
-/
namespace Verif.Grid
open Ariadne.BinaryWord (Word)
open Ariadne.BinaryTree
open Ariadne.BinaryTree.Tree
open Ariadne.Logical (LV)
open Ariadne.Logical.LV

/-! ## Model -/

section Model
variable {K : Type*} [Field K] [LinearOrder K] {d : ℕ} [NeZero d]

/-- Models `lattice_box_to_space` (grid_paving.cpp:91-110) for coordinate maps `φ`. -/
def toSpace (φ : Fin d → K → K) (B : Box K d) : Box K d := fun j => (φ j (B j).1, φ j (B j).2)

/-- The coordinate maps of a grid: `origin + length * x`, both operations rounded to nearest
(grid_paving.cpp:104-105). -/
def gridMap [IsStrictOrderedRing K] (R : Ariadne.Rounding K) (o l : Fin d → K) : Fin d → K → K :=
  fun j x => R.near (o j + R.near (l j * x))

/-- Models `GridCell::compute_box` (grid_cell.hpp:499-502). -/
def spaceBox (φ : Fin d → K → K) (e : ℕ) (w : Word) : Box K d := toSpace φ (latticeBox K d e w)

/-- Models `overlap` of boxes (box.hpp:414-418, interval.inl.hpp:109-110). -/
def boxOverlap (A B : Box K d) : Bool :=
  (List.finRange d).all fun j => decide ((A j).1 < (B j).2) && decide ((A j).2 > (B j).1)

/-- Models `subset` of boxes (box.hpp:393-397, interval.inl.hpp:93-94). -/
def boxSubset (A B : Box K d) : Bool :=
  (List.finRange d).all fun j => decide ((A j).1 ≥ (B j).1) && decide ((A j).2 ≤ (B j).2)

/-- Models `disjoint` of boxes (box.hpp:372-376, interval.inl.hpp:99-100). -/
def boxDisjoint (A B : Box K d) : Bool :=
  (List.finRange d).any fun j => decide ((A j).1 > (B j).2) || decide ((A j).2 < (B j).1)

/-- Models `GridTreeSubpaving::_superset` (grid_paving.cpp:1395-1463).  Comparisons of exact floats
are two-valued, so the branches for indeterminate answers are unreachable and left out, here and below. -/
def supersetTree (B : Word → Box K d) (b : Box K d) : Tree → Word → Bool
  | .leaf v, w => if !boxOverlap (B w) b then true else if v.definitely then true else !boxOverlap (B w) b
  | .node _ l r, w => if !boxOverlap (B w) b then true
    else supersetTree B b l (w ++ [false]) && supersetTree B b r (w ++ [true])

/-- Models `GridTreeSubpaving::_subset` (grid_paving.cpp:1465-1534). -/
def subsetTree (B : Word → Box K d) (b : Box K d) : Tree → Word → Bool
  | .leaf v, w => if boxSubset (B w) b then true else !v.definitely
  | .node _ l r, w => if boxSubset (B w) b then true
    else subsetTree B b l (w ++ [false]) && subsetTree B b r (w ++ [true])

/-- Models `GridTreeSubpaving::_intersects` (grid_paving.cpp:1603-1668). -/
def intersectsTree (B : Word → Box K d) (b : Box K d) : Tree → Word → Bool
  | .leaf v, w => if boxOverlap (B w) b then v.definitely else false
  | .node _ l r, w => if boxOverlap (B w) b then
      intersectsTree B b l (w ++ [false]) || intersectsTree B b r (w ++ [true])
    else false

/-- Models `GridTreeSubpaving::_disjoint` (grid_paving.cpp:1536-1601), which recurses into
`_intersects`. -/
def disjointTree (B : Word → Box K d) (b : Box K d) : Tree → Word → Bool
  | .leaf v, w => !(if !boxDisjoint (B w) b then v.definitely else false)
  | .node _ l r, w => !(if !boxDisjoint (B w) b then
      intersectsTree B b l (w ++ [false]) || intersectsTree B b r (w ++ [true])
    else false)

/-- The boxes of the cells of the primary cell of a subpaving. -/
abbrev Subpaving.boxes (φ : Fin d → K → K) (s : Subpaving) : Word → Box K d := spaceBox φ s.cell.extent

/-- Models `superset(ExactBoxType)` (grid_paving.cpp:1282-1300). -/
def Subpaving.superset (φ : Fin d → K → K) (s : Subpaving) (b : Box K d) : Bool :=
  if !boxSubset b (s.boxes φ s.cell.word) then false else supersetTree (s.boxes φ) b s.tree s.cell.word

/-- Models `subset(ExactBoxType)` (grid_paving.cpp:1302-1313). -/
def Subpaving.subset (φ : Fin d → K → K) (s : Subpaving) (b : Box K d) : Bool :=
  subsetTree (s.boxes φ) b s.tree s.cell.word

/-- Models `disjoint(ExactBoxType)` (grid_paving.cpp:1315-1326). -/
def Subpaving.disjoint (φ : Fin d → K → K) (s : Subpaving) (b : Box K d) : Bool :=
  disjointTree (s.boxes φ) b s.tree s.cell.word

/-- Models `intersects(ExactBoxType)` (grid_paving.cpp:1328-1339). -/
def Subpaving.intersects (φ : Fin d → K → K) (s : Subpaving) (b : Box K d) : Bool :=
  intersectsTree (s.boxes φ) b s.tree s.cell.word

variable [IsStrictOrderedRing K]

/-- Models `widen` of boxes by the smallest positive number `ε` (box.hpp:561-567,
interval.inl.hpp:182-187). -/
def widenBox (R : Ariadne.Rounding K) (ε : K) (b : Box K d) : Box K d :=
  fun j => (R.down ((b j).1 - ε), R.up ((b j).2 + ε))

/-- Models `narrow` of boxes by the smallest positive number `ε` (box.hpp:585-591,
interval.inl.hpp:189-194). -/
def narrowBox (R : Ariadne.Rounding K) (ε : K) (b : Box K d) : Box K d :=
  fun j => (R.up ((b j).1 + ε), R.down ((b j).2 - ε))

/-- Models `covers(ExactBoxType)` (grid_paving.cpp:1341-1357). -/
def Subpaving.covers (R : Ariadne.Rounding K) (ε : K) (φ : Fin d → K → K) (s : Subpaving) (b : Box K d) : Bool :=
  if !boxSubset b (s.boxes φ s.cell.word) then false
  else supersetTree (s.boxes φ) (widenBox R ε b) s.tree s.cell.word

/-- Models `inside(ExactBoxType)` (grid_paving.cpp:1359-1370). -/
def Subpaving.inside (R : Ariadne.Rounding K) (ε : K) (φ : Fin d → K → K) (s : Subpaving) (b : Box K d) : Bool :=
  subsetTree (s.boxes φ) (narrowBox R ε b) s.tree s.cell.word

/-- Models `separated(ExactBoxType)` (grid_paving.cpp:1372-1380). -/
def Subpaving.separated (R : Ariadne.Rounding K) (ε : K) (φ : Fin d → K → K) (s : Subpaving) (b : Box K d) : Bool :=
  disjointTree (s.boxes φ) (widenBox R ε b) s.tree s.cell.word

/-- Models `overlaps(ExactBoxType)` (grid_paving.cpp:1382-1393). -/
def Subpaving.overlaps (R : Ariadne.Rounding K) (ε : K) (φ : Fin d → K → K) (s : Subpaving) (b : Box K d) : Bool :=
  intersectsTree (s.boxes φ) (narrowBox R ε b) s.tree s.cell.word

end Model

/-! ## Specification -/

variable {K : Type*} [Field K] [LinearOrder K] {d : ℕ} [NeZero d]

/-- The interior of a box. -/
def Box.interior (B : Box K d) : Set (Fin d → K) := {x | ∀ j, (B j).1 < x j ∧ x j < (B j).2}

/-- The set of a subpaving in the state space: the union of the closed boxes of its enabled cells. -/
def Subpaving.closed (φ : Fin d → K → K) (s : Subpaving) : Set (Fin d → K) :=
  {x | ∃ w, s.tree.leafAt w = some true_ ∧ x ∈ (spaceBox φ s.cell.extent (s.cell.word ++ w)).closed}

/-- A family of boxes in which every box is cut in two along one coordinate. -/
def Splits (B : Word → Box K d) : Prop := ∀ w, ∃ k m, (B w k).1 ≤ m ∧ m ≤ (B w k).2 ∧
  B (w ++ [false]) = Function.update (B w) k ((B w k).1, m) ∧
  B (w ++ [true]) = Function.update (B w) k (m, (B w k).2)

omit [Field K] [NeZero d] in
theorem boxOverlap_iff (A B : Box K d) : boxOverlap A B = true ↔ ∀ j, (A j).1 < (B j).2 ∧ (B j).1 < (A j).2 := by
  simp [boxOverlap]

omit [Field K] [NeZero d] in
theorem boxSubset_iff (A B : Box K d) : boxSubset A B = true ↔ ∀ j, (B j).1 ≤ (A j).1 ∧ (A j).2 ≤ (B j).2 := by
  simp [boxSubset]

omit [Field K] [NeZero d] in
theorem boxDisjoint_iff (A B : Box K d) : boxDisjoint A B = true ↔ ∃ j, (B j).2 < (A j).1 ∨ (A j).2 < (B j).1 := by
  simp [boxDisjoint]

/-! ## Boxes of cells -/

section
variable [IsStrictOrderedRing K]

theorem latticeBox_snoc (e : ℕ) (w : Word) (b : Bool) :
    latticeBox K d e (w ++ [b]) = Function.update (latticeBox K d e w) (Fin.ofNat d w.length)
      (halve b (latticeBox K d e w (Fin.ofNat d w.length))) := by
  rw [latticeBox, descend_append, Nat.zero_add]; rfl

/-- The boxes of the cells are cut in two, also after rounding. -/
theorem spaceBox_splits (φ : Fin d → K → K) (hφ : ∀ j, Monotone (φ j)) (e : ℕ) : Splits (spaceBox φ e) := by
  intro w
  have hs := latticeBox_snoc (K := K) (d := d) e w
  generalize Fin.ofNat d w.length = k at hs
  have hp := latticeBox_proper (K := K) (d := d) e w k
  refine ⟨k, φ k (((latticeBox K d e w k).1 + (latticeBox K d e w k).2) / 2),
    hφ k (by linarith), hφ k (by linarith), ?_, ?_⟩
  · funext j
    simp only [spaceBox, toSpace, hs]
    by_cases hj : j = k
    · subst hj; simp [halve]
    · simp [Function.update_of_ne hj, toSpace]
  · funext j
    simp only [spaceBox, toSpace, hs]
    by_cases hj : j = k
    · subst hj; simp [halve]
    · simp [Function.update_of_ne hj, toSpace]

theorem spaceBox_le (φ : Fin d → K → K) (hφ : ∀ j, Monotone (φ j)) (e : ℕ) (w : Word) (j : Fin d) :
    (spaceBox φ e w j).1 ≤ (spaceBox φ e w j).2 := hφ j (latticeBox_proper e w j).le

theorem spaceBox_lt (φ : Fin d → K → K) (hφ : ∀ j, StrictMono (φ j)) (e : ℕ) (w : Word) (j : Fin d) :
    (spaceBox φ e w j).1 < (spaceBox φ e w j).2 := hφ j (latticeBox_proper e w j)

/-- The coordinate maps of a grid are monotone. -/
theorem gridMap_mono (R : Ariadne.Rounding K) (o l : Fin d → K) (hl : ∀ j, 0 ≤ l j) (j : Fin d) :
    Monotone (gridMap R o l j) := by
  intro x y h
  have h1 := R.near_mono (mul_le_mul_of_nonneg_left h (hl j))
  exact R.near_mono (by linarith)
end

variable {B : Word → Box K d}

omit [NeZero d] in
theorem splits_child (hB : Splits B) (w : Word) (b : Bool) (j : Fin d) :
    (B w j).1 ≤ (B (w ++ [b]) j).1 ∧ (B (w ++ [b]) j).2 ≤ (B w j).2 := by
  obtain ⟨k, m, h1, h2, h3, h4⟩ := hB w
  cases b
  · rw [h3]
    by_cases hj : j = k
    · subst hj; simp [h2]
    · simp [Function.update_of_ne hj]
  · rw [h4]
    by_cases hj : j = k
    · subst hj; simp [h1]
    · simp [Function.update_of_ne hj]

omit [NeZero d] in
theorem splits_mono (hB : Splits B) (w v : Word) (j : Fin d) :
    (B w j).1 ≤ (B (w ++ v) j).1 ∧ (B (w ++ v) j).2 ≤ (B w j).2 := by
  induction v generalizing w with
  | nil => rw [List.append_nil]; exact ⟨le_refl _, le_refl _⟩
  | cons b v ih =>
    have h1 := splits_child hB w b j
    have h2 := ih (w ++ [b])
    rw [List.append_assoc, List.singleton_append] at h2
    exact ⟨h1.1.trans h2.1, h2.2.trans h1.2⟩

omit [NeZero d] in
theorem closed_mono (hB : Splits B) (w v : Word) : (B (w ++ v)).closed ⊆ (B w).closed := fun _ hx j =>
  ⟨(splits_mono hB w v j).1.trans (hx j).1, (hx j).2.trans (splits_mono hB w v j).2⟩

omit [NeZero d] in
theorem interior_mono (hB : Splits B) (w v : Word) : (B (w ++ v)).interior ⊆ (B w).interior := fun _ hx j =>
  ⟨(splits_mono hB w v j).1.trans_lt (hx j).1, (hx j).2.trans_le (splits_mono hB w v j).2⟩

omit [NeZero d] in
/-- A point of a closed box is in one of the two halves. -/
theorem closed_child (hB : Splits B) (w : Word) (x : Fin d → K) (hx : x ∈ (B w).closed) :
    ∃ b, x ∈ (B (w ++ [b])).closed := by
  obtain ⟨k, m, h1, h2, h3, h4⟩ := hB w
  rcases le_total (x k) m with h | h
  · refine ⟨false, fun j => ?_⟩
    rw [h3]
    by_cases hj : j = k
    · subst hj; simpa using ⟨(hx j).1, h⟩
    · rw [Function.update_of_ne hj]; exact hx j
  · refine ⟨true, fun j => ?_⟩
    rw [h4]
    by_cases hj : j = k
    · subst hj; simpa using ⟨h, (hx j).2⟩
    · rw [Function.update_of_ne hj]; exact hx j

omit [NeZero d] in
/-- A point of a closed box touching the box `b` is in a half that overlaps `b`. -/
theorem overlap_child (hB : Splits B) (w : Word) (b : Box K d) (hb : ∀ j, (b j).1 < (b j).2) (x : Fin d → K)
    (hx : x ∈ (B w).closed) (hxb : x ∈ b.closed) (ho : boxOverlap (B w) b = true) :
    ∃ c, x ∈ (B (w ++ [c])).closed ∧ boxOverlap (B (w ++ [c])) b = true := by
  obtain ⟨k, m, h1, h2, h3, h4⟩ := hB w
  rw [boxOverlap_iff] at ho
  have left : x k ≤ m → (b k).1 < m → x ∈ (B (w ++ [false])).closed ∧ boxOverlap (B (w ++ [false])) b = true := by
    intro h hm
    rw [h3, boxOverlap_iff]
    constructor
    · intro j
      by_cases hj : j = k
      · subst hj; simpa using ⟨(hx j).1, h⟩
      · rw [Function.update_of_ne hj]; exact hx j
    · intro j
      by_cases hj : j = k
      · subst hj; simpa using ⟨(ho j).1, hm⟩
      · rw [Function.update_of_ne hj]; exact ho j
  have right : m ≤ x k → m < (b k).2 → x ∈ (B (w ++ [true])).closed ∧ boxOverlap (B (w ++ [true])) b = true := by
    intro h hm
    rw [h4, boxOverlap_iff]
    constructor
    · intro j
      by_cases hj : j = k
      · subst hj; simpa using ⟨h, (hx j).2⟩
      · rw [Function.update_of_ne hj]; exact hx j
    · intro j
      by_cases hj : j = k
      · subst hj; simpa using ⟨hm, (ho j).2⟩
      · rw [Function.update_of_ne hj]; exact ho j
  rcases lt_trichotomy (x k) m with h | h | h
  · exact ⟨false, left h.le ((hxb k).1.trans_lt h)⟩
  · by_cases hm : (b k).1 < m
    · exact ⟨false, left h.le hm⟩
    · exact ⟨true, right h.ge ((not_lt.1 hm).trans_lt (hb k))⟩
  · exact ⟨true, right h.le (h.trans_le (hxb k).2)⟩

omit [NeZero d] in
/-- The interior of a cell is apart from other cells that are not part of it. -/
theorem interior_apart (hB : Splits B) (w : Word) (t : Tree) (v : Word) (hv : t.leafAt v ≠ none)
    (u : Word) (hu : t.leafAt u ≠ none) (hne : v ≠ u) (x : Fin d → K) (h1 : x ∈ (B (w ++ v)).interior)
    (h2 : x ∈ (B (w ++ u)).closed) : False := by
  induction t generalizing w v u with
  | leaf c =>
    cases v with
    | nil => cases u with
      | nil => exact hne rfl
      | cons _ _ => exact hu rfl
    | cons _ _ => exact hv rfl
  | node c l r ihl ihr =>
    cases v with
    | nil => exact hv rfl
    | cons a v =>
      cases u with
      | nil => exact hu rfl
      | cons b u =>
        by_cases hab : a = b
        · subst hab
          have hne' : v ≠ u := fun h => hne (by rw [h])
          rw [← List.singleton_append, ← List.append_assoc] at h1 h2
          cases a
          · exact ihl (w ++ [false]) v (by simpa [leafAt] using hv) u (by simpa [leafAt] using hu) hne' h1 h2
          · exact ihr (w ++ [true]) v (by simpa [leafAt] using hv) u (by simpa [leafAt] using hu) hne' h1 h2
        · rw [← List.singleton_append, ← List.append_assoc] at h1 h2
          have g1 := interior_mono hB _ _ h1
          have g2 := closed_mono hB _ _ h2
          obtain ⟨k, m, -, -, h3, h4⟩ := hB w
          have g1 := g1 k
          have g2 := g2 k
          cases a <;> cases b <;> first | exact hab rfl | skip
          · rw [h3] at g1; rw [h4] at g2; simp only [Function.update_self] at g1 g2
            exact absurd g1.2 (not_lt.2 g2.1)
          · rw [h4] at g1; rw [h3] at g2; simp only [Function.update_self] at g1 g2
            exact absurd g1.1 (not_lt.2 g2.2)

/-! ## The tree traversals -/

omit [NeZero d] in
theorem supersetTree_sound (hB : Splits B) (b : Box K d) (P : Box K d → Prop) (x : Fin d → K)
    (hover : ∀ w, P (B w) → boxOverlap (B w) b = true) (hstep : ∀ w, P (B w) → ∃ c, P (B (w ++ [c])))
    (hP : ∀ w, P (B w) → x ∈ (B w).closed) (t : Tree) (w : Word)
    (h : supersetTree B b t w = true) (hw : P (B w)) :
    ∃ v, t.leafAt v = some true_ ∧ x ∈ (B (w ++ v)).closed := by
  induction t generalizing w with
  | leaf c =>
    rw [supersetTree] at h
    simp only [hover w hw, Bool.not_true, Bool.false_eq_true, if_false] at h
    refine ⟨[], ?_, by rw [List.append_nil]; exact hP w hw⟩
    have : c = true_ := by
      by_contra hc
      rw [if_neg (fun hd => hc (definitely_iff.1 hd))] at h
      exact absurd h (by simp)
    rw [this]; rfl
  | node c l r ihl ihr =>
    rw [supersetTree] at h
    simp only [hover w hw, Bool.not_true, Bool.false_eq_true, if_false, Bool.and_eq_true] at h
    obtain ⟨k, hk⟩ := hstep w hw
    cases k
    · obtain ⟨v, hv1, hv2⟩ := ihl _ h.1 hk
      exact ⟨false :: v, hv1, by rw [List.append_assoc] at hv2; exact hv2⟩
    · obtain ⟨v, hv1, hv2⟩ := ihr _ h.2 hk
      exact ⟨true :: v, hv1, by rw [List.append_assoc] at hv2; exact hv2⟩

omit [NeZero d] in
theorem supersetTree_false (b : Box K d) (t : Tree) (w : Word) (h : supersetTree B b t w = false) :
    ∃ v c, t.leafAt v = some c ∧ c ≠ true_ ∧ boxOverlap (B (w ++ v)) b = true := by
  induction t generalizing w with
  | leaf c =>
    rw [supersetTree] at h
    split_ifs at h with h1 h2
    · refine ⟨[], c, rfl, fun hc => h2 (definitely_iff.2 hc), ?_⟩
      rw [List.append_nil]; simpa using h1
  | node c l r ihl ihr =>
    rw [supersetTree] at h
    split_ifs at h with h1
    rw [Bool.and_eq_false_iff] at h
    rcases h with h | h
    · obtain ⟨v, c, h1, h2, h3⟩ := ihl _ h
      exact ⟨false :: v, c, h1, h2, by rw [List.append_assoc] at h3; exact h3⟩
    · obtain ⟨v, c, h1, h2, h3⟩ := ihr _ h
      exact ⟨true :: v, c, h1, h2, by rw [List.append_assoc] at h3; exact h3⟩

omit [NeZero d] in
theorem subsetTree_spec (hB : Splits B) (b : Box K d) (t : Tree) (w : Word) :
    subsetTree B b t w = true ↔ ∀ v, t.leafAt v = some true_ → boxSubset (B (w ++ v)) b = true := by
  have hsub : ∀ w v, boxSubset (B w) b = true → boxSubset (B (w ++ v)) b = true := by
    intro w v h
    rw [boxSubset_iff] at h ⊢
    exact fun j => ⟨(h j).1.trans (splits_mono hB w v j).1, (splits_mono hB w v j).2.trans (h j).2⟩
  induction t generalizing w with
  | leaf c =>
    rw [subsetTree]
    split_ifs with h1
    · simp only [true_iff]; intro v _; exact hsub w v h1
    · rw [Bool.not_eq_true', definitely_false_iff]
      constructor
      · intro hc v hv
        cases v with
        | nil => exact absurd (Option.some.inj hv) hc
        | cons _ _ => exact absurd hv (by simp [leafAt])
      · rintro h rfl
        have := h [] rfl
        rw [List.append_nil] at this
        exact h1 this
  | node c l r ihl ihr =>
    rw [subsetTree]
    split_ifs with h1
    · simp only [true_iff]; intro v _; exact hsub w v h1
    · have e1 : subsetTree B b l (w ++ [false]) = true ↔
          ∀ v, l.leafAt v = some true_ → boxSubset (B (w ++ [false] ++ v)) b = true := ihl _
      have e2 : subsetTree B b r (w ++ [true]) = true ↔
          ∀ v, r.leafAt v = some true_ → boxSubset (B (w ++ [true] ++ v)) b = true := ihr _
      rw [Bool.and_eq_true, e1, e2]
      constructor
      · rintro ⟨hl, hr⟩ v hv
        cases v with
        | nil => exact absurd hv (by simp [leafAt])
        | cons a v =>
          rw [← List.singleton_append, ← List.append_assoc]
          cases a
          · exact hl v (by simpa [leafAt] using hv)
          · exact hr v (by simpa [leafAt] using hv)
      · intro h
        exact ⟨fun v hv => by rw [List.append_assoc]; exact h (false :: v) hv,
          fun v hv => by rw [List.append_assoc]; exact h (true :: v) hv⟩

omit [NeZero d] in
theorem intersectsTree_spec (hB : Splits B) (b : Box K d) (t : Tree) (w : Word) :
    intersectsTree B b t w = true ↔ ∃ v, t.leafAt v = some true_ ∧ boxOverlap (B (w ++ v)) b = true := by
  have hsub : ∀ w v, boxOverlap (B (w ++ v)) b = true → boxOverlap (B w) b = true := by
    intro w v h
    rw [boxOverlap_iff] at h ⊢
    exact fun j => ⟨(splits_mono hB w v j).1.trans_lt (h j).1, (h j).2.trans_le (splits_mono hB w v j).2⟩
  induction t generalizing w with
  | leaf c =>
    rw [intersectsTree]
    split_ifs with h1
    · rw [definitely_iff]
      constructor
      · rintro rfl; exact ⟨[], rfl, by rw [List.append_nil]; exact h1⟩
      · rintro ⟨v, hv, -⟩
        cases v with
        | nil => exact Option.some.inj hv
        | cons _ _ => exact absurd hv (by simp [leafAt])
    · simp only [Bool.false_eq_true, false_iff]
      rintro ⟨v, -, hv⟩; exact h1 (hsub w v hv)
  | node c l r ihl ihr =>
    rw [intersectsTree]
    split_ifs with h1
    · have e1 : intersectsTree B b l (w ++ [false]) = true ↔
          ∃ v, l.leafAt v = some true_ ∧ boxOverlap (B (w ++ [false] ++ v)) b = true := ihl _
      have e2 : intersectsTree B b r (w ++ [true]) = true ↔
          ∃ v, r.leafAt v = some true_ ∧ boxOverlap (B (w ++ [true] ++ v)) b = true := ihr _
      rw [Bool.or_eq_true, e1, e2]
      constructor
      · rintro (⟨v, h2, h3⟩ | ⟨v, h2, h3⟩)
        · exact ⟨false :: v, h2, by rw [List.append_assoc] at h3; exact h3⟩
        · exact ⟨true :: v, h2, by rw [List.append_assoc] at h3; exact h3⟩
      · rintro ⟨v, h2, h3⟩
        cases v with
        | nil => exact absurd h2 (by simp [leafAt])
        | cons a v =>
          rw [← List.singleton_append, ← List.append_assoc] at h3
          cases a
          · exact Or.inl ⟨v, by simpa [leafAt] using h2, h3⟩
          · exact Or.inr ⟨v, by simpa [leafAt] using h2, h3⟩
    · simp only [Bool.false_eq_true, false_iff]
      rintro ⟨v, -, hv⟩; exact h1 (hsub w v hv)

/-! ## The theorems -/

section
variable [IsStrictOrderedRing K]

omit [NeZero d] in
theorem overlap_common (A b : Box K d) (hA : ∀ j, (A j).1 ≤ (A j).2) (hb : ∀ j, (b j).1 < (b j).2) :
    boxOverlap A b = true ↔ (A.closed ∩ b.interior).Nonempty := by
  rw [boxOverlap_iff]
  constructor
  · intro h
    have : ∀ j, ∃ y, ((A j).1 ≤ y ∧ y ≤ (A j).2) ∧ ((b j).1 < y ∧ y < (b j).2) := by
      intro j
      by_cases h1 : (b j).1 < (A j).1
      · exact ⟨(A j).1, ⟨le_refl _, hA j⟩, h1, (h j).1⟩
      · refine ⟨min (A j).2 (((b j).1 + (b j).2) / 2), ⟨le_min (hA j) ?_, min_le_left _ _⟩, lt_min (h j).2 ?_, ?_⟩
        · linarith [hb j, not_lt.1 h1]
        · linarith [hb j]
        · exact (min_le_right _ _).trans_lt (by linarith [hb j])
    choose y hy1 hy2 using this
    exact ⟨y, hy1, hy2⟩
  · rintro ⟨x, h1, h2⟩ j
    exact ⟨(h1 j).1.trans_lt (h2 j).2, (h2 j).1.trans_le (h1 j).2⟩

omit [NeZero d] in
theorem overlap_interior (A b : Box K d) (hA : ∀ j, (A j).1 < (A j).2) (hb : ∀ j, (b j).1 < (b j).2)
    (h : boxOverlap A b = true) : (A.interior ∩ b.interior).Nonempty := by
  rw [boxOverlap_iff] at h
  have : ∀ j, ∃ y, ((A j).1 < y ∧ y < (A j).2) ∧ ((b j).1 < y ∧ y < (b j).2) := by
    intro j
    have h1 : max (A j).1 (b j).1 < min (A j).2 (b j).2 :=
      max_lt (lt_min (hA j) (h j).1) (lt_min (h j).2 (hb j))
    obtain ⟨y, hy1, hy2⟩ := exists_between h1
    exact ⟨y, ⟨(le_max_left _ _).trans_lt hy1, hy2.trans_le (min_le_left _ _)⟩,
      (le_max_right _ _).trans_lt hy1, hy2.trans_le (min_le_right _ _)⟩
  choose y hy1 hy2 using this
  exact ⟨y, hy1, hy2⟩

omit [NeZero d] in
theorem boxSubset_closed (A b : Box K d) (hA : ∀ j, (A j).1 ≤ (A j).2) :
    boxSubset A b = true ↔ A.closed ⊆ b.closed := by
  rw [boxSubset_iff]
  constructor
  · intro h x hx j; exact ⟨(h j).1.trans (hx j).1, (hx j).2.trans (h j).2⟩
  · intro h j
    exact ⟨(h (show (fun j => (A j).1) ∈ A.closed from fun j => ⟨le_refl _, hA j⟩) j).1,
      (h (show (fun j => (A j).2) ∈ A.closed from fun j => ⟨hA j, le_refl _⟩) j).2⟩

/-- **`superset(box)`** answers `true` only if every point of the box is in a cell of the paving, for
boxes with non-empty interior and any rounding of the cells. -/
theorem C20_box_superset (φ : Fin d → K → K) (hφ : ∀ j, Monotone (φ j)) (s : Subpaving) (b : Box K d)
    (hb : ∀ j, (b j).1 < (b j).2) (h : s.superset φ b = true) : b.closed ⊆ s.closed φ := by
  intro x hx
  unfold Subpaving.superset at h
  split_ifs at h with h1
  simp only [Bool.not_eq_true', Bool.not_eq_false] at h1
  have hsub := (boxSubset_iff _ _).1 h1
  have hB := spaceBox_splits φ hφ s.cell.extent
  refine supersetTree_sound hB b (fun C => x ∈ C.closed ∧ boxOverlap C b = true) x (fun _ h => h.2)
    (fun w h => overlap_child hB w b hb x h.1 hx h.2) (fun _ h => h.1) s.tree _ h ⟨?_, ?_⟩
  · exact fun j => ⟨(hsub j).1.trans (hx j).1, (hx j).2.trans (hsub j).2⟩
  · rw [boxOverlap_iff]
    exact fun j => ⟨(hsub j).1.trans_lt (hb j), (hb j).trans_le (hsub j).2⟩

/-- With exact cells the answer is exact for boxes with non-empty interior. -/
theorem C20_box_superset_exact (φ : Fin d → K → K) (hφ : ∀ j, StrictMono (φ j)) (s : Subpaving) (b : Box K d)
    (hb : ∀ j, (b j).1 < (b j).2) : s.superset φ b = true ↔ b.closed ⊆ s.closed φ := by
  refine ⟨C20_box_superset φ (fun j => (hφ j).monotone) s b hb, fun h => ?_⟩
  have hB := spaceBox_splits φ (fun j => (hφ j).monotone) s.cell.extent
  have hroot : boxSubset b (s.boxes φ s.cell.word) = true := by
    rw [boxSubset_closed _ _ (fun j => (hb j).le)]
    intro x hx
    obtain ⟨w, -, hw⟩ := h hx
    exact closed_mono hB _ _ hw
  unfold Subpaving.superset
  rw [hroot]
  simp only [Bool.not_true, Bool.false_eq_true, if_false]
  by_contra hc
  rw [Bool.not_eq_true] at hc
  obtain ⟨v, c, h1, h2, h3⟩ := supersetTree_false b s.tree _ hc
  obtain ⟨y, hy1, hy2⟩ := overlap_interior _ b (spaceBox_lt φ hφ s.cell.extent _) hb h3
  obtain ⟨u, hu1, hu2⟩ := h (show y ∈ b.closed from fun j => ⟨(hy2 j).1.le, (hy2 j).2.le⟩)
  refine interior_apart hB s.cell.word s.tree v (by rw [h1]; simp) u (by rw [hu1]; simp) ?_ y hy1 hu2
  rintro rfl
  rw [h1] at hu1
  exact h2 (Option.some.inj hu1)

/-- A degenerate box is reported covered by an empty paving if it lies in the boundary of the root. -/
theorem C20_box_superset_degenerate : ∃ (s : Subpaving) (b : Box ℚ 1), s.closed (fun (_ : Fin 1) (x : ℚ) => x) = ∅ ∧
    b.closed.Nonempty ∧ s.superset (fun _ x => x) b = true := by
  refine ⟨⟨⟨0, []⟩, .leaf false_⟩, fun _ => (0, 0), ?_, ⟨fun _ => 0, fun _ => ⟨le_refl _, le_refl _⟩⟩, by decide +kernel⟩
  apply Set.eq_empty_of_forall_notMem
  rintro x ⟨w, hw, -⟩
  cases w <;> simp [leafAt] at hw

/-- **`covers(box)`** answers `true` only if every point of the box is in a cell of the paving, also
for degenerate boxes. -/
theorem C20_box_covers (R : Ariadne.Rounding K) (ε : K) (hε : 0 < ε) (φ : Fin d → K → K)
    (hφ : ∀ j, Monotone (φ j)) (s : Subpaving) (b : Box K d)
    (h : s.covers R ε φ b = true) : b.closed ⊆ s.closed φ := by
  intro x hx
  unfold Subpaving.covers at h
  split_ifs at h with h1
  simp only [Bool.not_eq_true', Bool.not_eq_false] at h1
  have hsub := (boxSubset_iff _ _).1 h1
  have hB := spaceBox_splits φ hφ s.cell.extent
  refine supersetTree_sound hB (widenBox R ε b) (fun C => x ∈ C.closed) x ?_
    (fun w h => closed_child hB w x h) (fun _ h => h) s.tree _ h ?_
  · intro w hw
    rw [boxOverlap_iff]
    intro j
    have h1 := R.down_le ((b j).1 - ε)
    have h2 := R.le_up ((b j).2 + ε)
    have h3 := hx j
    have h4 := hw j
    refine ⟨?_, ?_⟩ <;> simp only [widenBox] <;> linarith
  · exact fun j => ⟨(hsub j).1.trans (hx j).1, (hx j).2.trans (hsub j).2⟩

/-- **`subset(box)`** decides whether all cells are in the box. -/
theorem C20_box_subset (φ : Fin d → K → K) (hφ : ∀ j, Monotone (φ j)) (s : Subpaving) (b : Box K d) :
    s.subset φ b = true ↔ s.closed φ ⊆ b.closed := by
  rw [Subpaving.subset, subsetTree_spec (spaceBox_splits φ hφ s.cell.extent)]
  constructor
  · rintro h x ⟨w, hw, hx⟩
    exact (boxSubset_closed _ _ (spaceBox_le φ hφ _ _)).1 (h w hw) hx
  · intro h v hv
    rw [boxSubset_closed _ _ (spaceBox_le φ hφ _ _)]
    exact fun x hx => h ⟨v, hv, hx⟩

/-- **`inside(box)`** answers `true` only if all cells are in the interior of the box. -/
theorem C20_box_inside (R : Ariadne.Rounding K) (ε : K) (hε : 0 < ε) (φ : Fin d → K → K)
    (hφ : ∀ j, Monotone (φ j)) (s : Subpaving) (b : Box K d)
    (h : s.inside R ε φ b = true) : s.closed φ ⊆ b.interior := by
  intro x hx j
  have := (C20_box_subset φ hφ s (narrowBox R ε b)).1 h hx j
  have h1 := R.le_up ((b j).1 + ε)
  have h2 := R.down_le ((b j).2 - ε)
  simp only [narrowBox] at this
  constructor <;> linarith

/-- **`intersects(box)`** decides whether a cell meets the interior of the box, for boxes with
non-empty interior. -/
theorem C20_box_intersects (φ : Fin d → K → K) (hφ : ∀ j, Monotone (φ j)) (s : Subpaving) (b : Box K d)
    (hb : ∀ j, (b j).1 < (b j).2) : s.intersects φ b = true ↔ (s.closed φ ∩ b.interior).Nonempty := by
  rw [Subpaving.intersects, intersectsTree_spec (spaceBox_splits φ hφ s.cell.extent)]
  constructor
  · rintro ⟨v, hv, ho⟩
    obtain ⟨x, hx1, hx2⟩ := (overlap_common _ b (spaceBox_le φ hφ _ _) hb).1 ho
    exact ⟨x, ⟨v, hv, hx1⟩, hx2⟩
  · rintro ⟨x, ⟨v, hv, hx1⟩, hx2⟩
    exact ⟨v, hv, (overlap_common _ b (spaceBox_le φ hφ _ _) hb).2 ⟨x, hx1, hx2⟩⟩

/-- **`overlaps(box)`** answers `true` only if a cell meets the interior of the box, for boxes with
non-empty interior. -/
theorem C20_box_overlaps_partial (R : Ariadne.Rounding K) (ε : K) (hε : 0 < ε) (φ : Fin d → K → K)
    (hφ : ∀ j, Monotone (φ j)) (s : Subpaving) (b : Box K d) (hb : ∀ j, (b j).1 < (b j).2)
    (h : s.overlaps R ε φ b = true) : (s.closed φ ∩ b.interior).Nonempty := by
  rw [Subpaving.overlaps, intersectsTree_spec (spaceBox_splits φ hφ s.cell.extent)] at h
  obtain ⟨v, hv, ho⟩ := h
  rw [boxOverlap_iff] at ho
  have ho' : boxOverlap (spaceBox φ s.cell.extent (s.cell.word ++ v)) b = true := by
    rw [boxOverlap_iff]
    intro j
    have h1 := R.le_up ((b j).1 + ε)
    have h2 := R.down_le ((b j).2 - ε)
    have h3 := ho j
    simp only [narrowBox] at h3
    constructor <;> linarith [h3.1, h3.2]
  obtain ⟨x, hx1, hx2⟩ := (overlap_common _ b (spaceBox_le φ hφ _ _) hb).1 ho'
  exact ⟨x, ⟨v, hv, hx1⟩, hx2⟩

/-- For a degenerate box, which has no interior, `overlaps` can answer `true`. -/
theorem C20_box_overlaps_degenerate (R : Ariadne.Rounding ℚ) (hR : R.up (1/2 + 1/8) ≤ 3/4 ∧ 1/4 ≤ R.down (1/2 - 1/8)) :
    ∃ (s : Subpaving) (b : Box ℚ 1), b.interior = ∅ ∧ s.overlaps R (1/8) (fun _ x => x) b = true := by
  refine ⟨⟨⟨0, []⟩, .leaf true_⟩, fun _ => (1/2, 1/2), ?_, ?_⟩
  · apply Set.eq_empty_of_forall_notMem
    intro x hx
    exact absurd ((hx 0).1.trans (hx 0).2) (lt_irrefl _)
  · rw [Subpaving.overlaps, intersectsTree_spec (spaceBox_splits (fun (_ : Fin 1) (x : ℚ) => x) (fun _ _ _ h => h) 0)]
    refine ⟨[], rfl, ?_⟩
    rw [boxOverlap_iff]
    intro j
    have e : spaceBox (d := 1) (fun _ (x : ℚ) => x) 0 [] j = (0, 1) := by
      simp [spaceBox, toSpace, latticeBox, descend, primaryBox, primaryCorners]
    have e' : (spaceBox (d := 1) (fun _ (x : ℚ) => x) 0 ([] ++ []) j) = (0, 1) := e
    rw [e']
    simp only [narrowBox]
    constructor
    · linarith [hR.2]
    · linarith [hR.1]

/-- **`separated(box)`** answers `true` only if no cell meets the box. -/
theorem C20_box_separated (R : Ariadne.Rounding K) (ε : K) (hε : 0 < ε) (φ : Fin d → K → K)
    (hφ : ∀ j, Monotone (φ j)) (s : Subpaving) (b : Box K d)
    (h : s.separated R ε φ b = true) : Disjoint (s.closed φ) b.closed := by
  rw [Set.disjoint_left]
  rintro x ⟨v, hv, hx⟩ hxb
  have hB := spaceBox_splits φ hφ s.cell.extent
  have hw : ∀ j, (widenBox R ε b j).1 < x j ∧ x j < (widenBox R ε b j).2 := by
    intro j
    have h1 := R.down_le ((b j).1 - ε)
    have h2 := R.le_up ((b j).2 + ε)
    have h3 := hxb j
    simp only [widenBox]
    constructor <;> linarith
  have hroot : boxDisjoint (spaceBox φ s.cell.extent s.cell.word) (widenBox R ε b) = false := by
    rw [← Bool.not_eq_true, boxDisjoint_iff]
    rintro ⟨j, hj⟩
    have hx' := closed_mono hB _ _ hx j
    rcases hj with hj | hj
    · exact absurd (hj.trans_le hx'.1) (not_lt.2 (hw j).2.le)
    · exact absurd (hx'.2.trans_lt hj) (not_lt.2 (hw j).1.le)
  have hov : boxOverlap (spaceBox φ s.cell.extent (s.cell.word ++ v)) (widenBox R ε b) = true := by
    rw [boxOverlap_iff]
    exact fun j => ⟨(hx j).1.trans_lt (hw j).2, (hw j).1.trans_le (hx j).2⟩
  have hint : intersectsTree (s.boxes φ) (widenBox R ε b) s.tree s.cell.word = true :=
    (intersectsTree_spec hB _ _ _).2 ⟨v, hv, hov⟩
  unfold Subpaving.separated at h
  obtain ⟨c, t⟩ := s
  cases t with
  | leaf a =>
    simp only [disjointTree, hroot] at h
    cases v with
    | nil =>
      have : a = true_ := Option.some.inj hv
      subst this
      simp [definitely] at h
    | cons _ _ => simp [leafAt] at hv
  | node a l r =>
    simp only [disjointTree, hroot] at h
    rw [intersectsTree] at hint
    split_ifs at hint
    simp only [Bool.not_false, if_true, Bool.not_eq_true'] at h
    rw [h] at hint
    exact absurd hint (by simp)

/-- **`disjoint(box)`** is exact for a paving consisting of its root cell. -/
theorem C20_box_disjoint_partial (φ : Fin d → K → K) (hφ : ∀ j, Monotone (φ j)) (c : Cell) (a : LV) (b : Box K d)
    (hb : ∀ j, (b j).1 ≤ (b j).2) :
    (⟨c, .leaf a⟩ : Subpaving).disjoint φ b = true ↔ Disjoint ((⟨c, .leaf a⟩ : Subpaving).closed φ) b.closed := by
  have hc : ∀ x, x ∈ (⟨c, .leaf a⟩ : Subpaving).closed φ ↔ a = true_ ∧ x ∈ (spaceBox φ c.extent c.word).closed := by
    intro x
    constructor
    · rintro ⟨v, hv, hx⟩
      cases v with
      | nil => rw [List.append_nil] at hx; exact ⟨Option.some.inj hv, hx⟩
      | cons _ _ => simp [leafAt] at hv
    · rintro ⟨rfl, hx⟩; exact ⟨[], rfl, by rw [List.append_nil]; exact hx⟩
  rw [Set.disjoint_left]
  simp only [hc]
  unfold Subpaving.disjoint disjointTree
  by_cases ha : a = true_
  · subst ha
    have key : boxDisjoint (spaceBox φ c.extent c.word) b = true ↔
        ∀ x, x ∈ (spaceBox φ c.extent c.word).closed → x ∉ b.closed := by
      rw [boxDisjoint_iff]
      constructor
      · rintro ⟨j, hj⟩ x hx hxb
        rcases hj with hj | hj
        · exact absurd ((hj.trans_le (hx j).1).trans_le (hxb j).2) (lt_irrefl _)
        · exact absurd (((hx j).2.trans_lt hj).trans_le (hxb j).1) (lt_irrefl _)
      · intro h
        by_contra hn
        push Not at hn
        refine h (fun j => max (spaceBox φ c.extent c.word j).1 (b j).1)
          (fun j => ⟨le_max_left _ _, max_le (spaceBox_le φ hφ _ _ j) (hn j).2⟩)
          (fun j => ⟨le_max_right _ _, max_le (hn j).1 (hb j)⟩)
    simp only [true_and]
    rw [← key]
    cases boxDisjoint (spaceBox φ c.extent c.word) b <;> simp [definitely]
  · have : a.definitely = false := by rw [definitely_false_iff]; exact ha
    simp [ha, this]

/-- If the root is divided, `disjoint` answers `true` for a box that touches a cell. -/
theorem C20_box_disjoint_wrong : ∃ (s : Subpaving) (b : Box ℚ 1), s.tree.WF ∧ s.disjoint (fun _ x => x) b = true ∧
    ¬ Disjoint (s.closed (fun (_ : Fin 1) (x : ℚ) => x)) b.closed := by
  refine ⟨⟨⟨0, []⟩, .node indeterminate (.leaf true_) (.leaf false_)⟩, fun _ => (1/2, 3/4),
    ⟨rfl, Or.inl rfl, Or.inr rfl⟩, by decide +kernel, ?_⟩
  rw [Set.not_disjoint_iff]
  refine ⟨fun _ => 1/2, ⟨[false], rfl, ?_⟩, fun _ => by norm_num⟩
  intro j
  have : j = 0 := Subsingleton.elim _ _
  subst this
  simp [spaceBox, toSpace, latticeBox, descend, primaryBox, primaryCorners, halve]

end

example : (⟨⟨0, []⟩, .node indeterminate (.leaf true_) (.leaf false_)⟩ : Subpaving).superset (fun _ (x : ℚ) => x)
    (fun _ : Fin 1 => (0, 1/4)) = true := by decide +kernel

end Verif.Grid
