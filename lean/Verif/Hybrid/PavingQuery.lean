import Verif.Hybrid.PavingProps
import Verif.Bounds.Sqrt

/-!
# C66: queries, iteration, approximations and histories of hybrid pavings
-/

namespace Verif.Hybrid

open Verif.Container Verif.Grid

variable {L : Type*} [LinearOrder L] {K : Type*} [Field K] [LinearOrder K] [IsStrictOrderedRing K]

/-- The set of each location in the state space: the union of the closed boxes of the cells. -/
def hClosed (G : HGrid L) (φ : Scale K G) (h : HPaving L) (l : L) : Set (Fin (G.dim l) → K) :=
  {x | ∃ p, (l, p) ∈ h ∧ x ∈ p.closed (φ l)}

theorem init_closed {d : ℕ} [NeZero d] (φ : Fin d → K → K) : (Paving.init false).closed φ = ∅ := by
  ext x
  simp only [Paving.closed, Subpaving.closed, Set.mem_setOf_eq, Set.mem_empty_iff_false, iff_false]
  rintro ⟨w, hw, -⟩
  cases w <;> simp [Paving.init, Paving.sub, Ariadne.BinaryTree.Tree.leafAt, Ariadne.Logical.LV.ofBool] at hw

omit [IsStrictOrderedRing K] in
theorem hClosed_eq {G : HGrid L} {φ : Scale K G} {h : HPaving L} (hs : SortedKeys h) {l : L} {p : Paving}
    (e : find l h = some p) : hClosed G φ h l = p.closed (φ l) := by
  ext x
  constructor
  · rintro ⟨p', hp', hx⟩
    rw [← find_iff hs, e] at hp'
    cases hp'
    exact hx
  · intro hx
    exact ⟨p, (find_iff hs).1 e, hx⟩

omit [IsStrictOrderedRing K] in
theorem hClosed_none {G : HGrid L} {φ : Scale K G} {h : HPaving L} (hs : SortedKeys h) {l : L}
    (e : find l h = none) : hClosed G φ h l = ∅ := by
  ext x
  simp only [hClosed, Set.mem_setOf_eq, Set.mem_empty_iff_false, iff_false]
  rintro ⟨p', hp', hx⟩
  rw [← find_iff hs, e] at hp'
  cases hp'

theorem hClosed_cur {G : HGrid L} {φ : Scale K G} {h : HPaving L} (hs : SortedKeys h) (l : L) :
    hClosed G φ h l = (cur h l).closed (φ l) := by
  cases e : find l h with
  | none => rw [hClosed_none hs e, cur, e, Option.getD_none, init_closed]
  | some p => rw [hClosed_eq hs e, cur, e, Option.getD_some]

/-- A paving is empty exactly if it has no points in the state space. -/
theorem closed_empty {d : ℕ} [NeZero d] (φ : Fin d → K → K) (hφ : ∀ j, Monotone (φ j)) (p : Paving) :
    p.sub.isEmpty = true ↔ p.closed φ = ∅ := by
  rw [Subpaving.isEmpty, beq_iff_eq, Ariadne.BinaryTree.C17_count, List.length_eq_zero_iff]
  constructor
  · intro h
    ext x
    simp only [Set.mem_empty_iff_false, iff_false]
    rintro ⟨w, hw, -⟩
    have := ((Ariadne.BinaryTree.C17_enumeration p.sub.tree).1 w).2 hw
    rw [h] at this
    simp at this
  · intro h
    by_contra hc
    obtain ⟨w, hw⟩ := List.exists_mem_of_ne_nil _ hc
    have hw' := ((Ariadne.BinaryTree.C17_enumeration p.sub.tree).1 w).1 hw
    have : (fun j => (spaceBox φ p.extent w j).1) ∈ p.closed φ :=
      ⟨w, hw', fun j => ⟨le_refl _, spaceBox_le φ hφ _ _ j⟩⟩
    rw [h] at this
    exact this

/-! ## Queries with boxes -/

/-- **`overlaps`** answers `true` only if a cell of the location of the box meets the interior of the box, for boxes with
non-empty interior. -/
theorem C66_overlaps_partial (G : HGrid L) (R : Ariadne.Rounding K) (ε : K) (hε : 0 < ε) (φ : Scale K G)
    (hφ : ∀ l j, Monotone (φ l j)) (q : L) (b : Grid.Box K (G.dim q)) (hb : ∀ j, (b j).1 < (b j).2) (h : HPaving L)
    (hw : HWF G h) (ht : hOverlaps G R ε φ q b h = true) : (hClosed G φ h q ∩ b.interior).Nonempty := by
  unfold hOverlaps at ht
  cases e : find q h with
  | none => rw [e] at ht; cases ht
  | some p =>
    rw [e] at ht
    rw [hClosed_eq hw.sorted e]
    exact C20_box_overlaps_partial R ε hε (φ q) (hφ q) p.sub b hb ht

/-- **`covers`** answers `true` only if every point of the box is in a cell of its location. -/
theorem C66_covers (G : HGrid L) (R : Ariadne.Rounding K) (ε : K) (hε : 0 < ε) (φ : Scale K G)
    (hφ : ∀ l j, Monotone (φ l j)) (q : L) (b : Grid.Box K (G.dim q)) (h : HPaving L)
    (hw : HWF G h) (ht : hCovers G R ε φ q b h = true) : b.closed ⊆ hClosed G φ h q := by
  unfold hCovers at ht
  cases e : find q h with
  | none => rw [e] at ht; cases ht
  | some p =>
    rw [e] at ht
    rw [hClosed_eq hw.sorted e]
    exact C20_box_covers R ε hε (φ q) (hφ q) p.sub b ht

/-- **`separated` is wrong** (hybrid_paving.cpp 199, `||` after `!=`): it answers `true` for every box of a location with
an entry, and dereferences `end()` for every box of a location without one. -/
theorem C66_separated_wrong (G : HGrid L) (R : Ariadne.Rounding K) (ε : K) (φ : Scale K G) (q : L)
    (b : Grid.Box K (G.dim q)) (h : HPaving L) :
    (hNontrivial q h = true → hSeparated G R ε φ q b h = some true) ∧
    (hNontrivial q h = false → hSeparated G R ε φ q b h = none) := by
  unfold hNontrivial hasKey hSeparated
  cases find q h <;> simp

/-- **`inside`** answers `true` only if all cells of the first location which is not empty are in the interior of its box.
Missing: the other locations (`C66_inside_wrong`). -/
theorem C66_inside_partial (G : HGrid L) (R : Ariadne.Rounding K) (ε : K) (hε : 0 < ε) (φ : Scale K G)
    (hφ : ∀ l j, Monotone (φ l j)) (bs : HBoxes K G) (h : HPaving L) (hw : HWF G h)
    (ht : hInside G R ε φ bs h = some true) :
    (∀ l, hClosed G φ h l = ∅) ∨ ∃ l b, (hClosed G φ h l).Nonempty ∧ (∀ l', l' < l → hClosed G φ h l' = ∅) ∧ bs l = some b ∧
      hClosed G φ h l ⊆ b.interior := by
  induction h with
  | nil => left; intro l; exact hClosed_none SortedKeys.nil rfl
  | cons e h ih =>
    obtain ⟨l, p⟩ := e
    have hw' : HWF G h := ⟨hw.sorted.tail, fun e he => hw.wf e (List.mem_cons_of_mem _ he),
      fun e he => hw.known e (List.mem_cons_of_mem _ he)⟩
    have hhead : hClosed G φ ((l, p) :: h) l = p.closed (φ l) := hClosed_eq hw.sorted (find_cons_self l p h)
    have hrest : ∀ l', l' ≠ l → hClosed G φ ((l, p) :: h) l' = hClosed G φ h l' := by
      intro l' hl
      rw [hClosed_cur hw.sorted, hClosed_cur hw'.sorted, cur, find_cons_ne hw.sorted hl, cur]
    have hlt : ∀ l', l' < l → hClosed G φ ((l, p) :: h) l' = ∅ := by
      intro l' hl
      apply hClosed_none hw.sorted
      apply find_none_of_lt
      intro e he
      rcases List.mem_cons.1 he with rfl | he
      · exact hl
      · exact hl.trans (hw.sorted.head_lt he)
    rw [hInside] at ht
    cases hp : p.sub.isEmpty with
    | false =>
      rw [hp] at ht
      simp only [Bool.not_false, if_true] at ht
      cases hb : bs l with
      | none => rw [hb] at ht; cases ht
      | some b =>
        rw [hb] at ht
        right
        refine ⟨l, b, ?_, hlt, hb, ?_⟩
        · rw [hhead, Set.nonempty_iff_ne_empty, Ne, ← closed_empty (φ l) (hφ l), hp]; simp
        · rw [hhead]
          exact C20_box_inside R ε hε (φ l) (hφ l) p.sub b (by simpa using ht)
    | true =>
      have he : hClosed G φ ((l, p) :: h) l = ∅ := by rw [hhead]; exact (closed_empty (φ l) (hφ l) p).1 hp
      rw [hp] at ht
      rcases ih hw' (by simpa using ht) with h1 | ⟨l₁, b, h1, h2, h3, h4⟩
      · left
        intro l'
        by_cases hl : l' = l
        · subst hl; exact he
        · rw [hrest l' hl]; exact h1 l'
      · right
        have hne : l₁ ≠ l := by
          rintro rfl
          obtain ⟨x, q, hq, -⟩ := h1
          exact lt_irrefl _ (hw.sorted.head_lt (q := (l₁, q)) hq)
        refine ⟨l₁, b, by rw [hrest l₁ hne]; exact h1, fun l' hl' => ?_, h3, by rw [hrest l₁ hne]; exact h4⟩
        by_cases hl : l' = l
        · subst hl; exact he
        · rw [hrest l' hl]; exact h2 l' hl'

/-! ## Bounding boxes -/

theorem extendBox_spec {d : ℕ} (bb c : Grid.Box K d) :
    (∀ j, (extendBox bb c j).1 ≤ (bb j).1 ∧ (bb j).2 ≤ (extendBox bb c j).2) ∧
    (∀ j, (extendBox bb c j).1 ≤ (c j).1 ∧ (c j).2 ≤ (extendBox bb c j).2) ∧
    ∀ a : Grid.Box K d, (∀ j, (a j).1 ≤ (bb j).1 ∧ (bb j).2 ≤ (a j).2) → (∀ j, (a j).1 ≤ (c j).1 ∧ (c j).2 ≤ (a j).2) →
      ∀ j, (a j).1 ≤ (extendBox bb c j).1 ∧ (extendBox bb c j).2 ≤ (a j).2 := by
  unfold extendBox
  refine ⟨fun j => ?_, fun j => ?_, fun a h1 h2 j => ?_⟩
  · constructor
    · dsimp only; split_ifs with h; exacts [h.le, le_refl _]
    · dsimp only; split_ifs with h; exacts [h.le, le_refl _]
  · constructor
    · dsimp only; split_ifs with h; exacts [le_refl _, not_lt.1 h]
    · dsimp only; split_ifs with h; exacts [le_refl _, not_lt.1 h]
  · constructor
    · dsimp only; split_ifs with h; exacts [(h2 j).1, (h1 j).1]
    · dsimp only; split_ifs with h; exacts [(h2 j).2, (h1 j).2]

theorem foldExtend_spec {d : ℕ} {α : Type*} (B : α → Grid.Box K d) (ws : List α) (bb : Grid.Box K d) :
    (∀ j, ((ws.foldl (fun bb v => extendBox bb (B v)) bb) j).1 ≤ (bb j).1 ∧
      (bb j).2 ≤ ((ws.foldl (fun bb v => extendBox bb (B v)) bb) j).2) ∧
    (∀ w ∈ ws, ∀ j, ((ws.foldl (fun bb v => extendBox bb (B v)) bb) j).1 ≤ (B w j).1 ∧
      (B w j).2 ≤ ((ws.foldl (fun bb v => extendBox bb (B v)) bb) j).2) ∧
    ∀ a : Grid.Box K d, (∀ j, (a j).1 ≤ (bb j).1 ∧ (bb j).2 ≤ (a j).2) →
      (∀ w ∈ ws, ∀ j, (a j).1 ≤ (B w j).1 ∧ (B w j).2 ≤ (a j).2) →
      ∀ j, (a j).1 ≤ ((ws.foldl (fun bb v => extendBox bb (B v)) bb) j).1 ∧
        ((ws.foldl (fun bb v => extendBox bb (B v)) bb) j).2 ≤ (a j).2 := by
  induction ws generalizing bb with
  | nil => exact ⟨fun j => ⟨le_refl _, le_refl _⟩, by simp, fun a h _ => h⟩
  | cons w ws ih =>
    obtain ⟨e1, e2, e3⟩ := extendBox_spec bb (B w)
    obtain ⟨i1, i2, i3⟩ := ih (extendBox bb (B w))
    simp only [List.foldl_cons]
    refine ⟨fun j => ⟨(i1 j).1.trans (e1 j).1, (e1 j).2.trans (i1 j).2⟩, ?_, ?_⟩
    · intro v hv j
      rcases List.mem_cons.1 hv with rfl | hv
      · exact ⟨(i1 j).1.trans (e2 j).1, (e2 j).2.trans (i1 j).2⟩
      · exact i2 v hv j
    · intro a h1 h2
      exact i3 a (e3 a h1 (h2 w List.mem_cons_self)) fun v hv => h2 v (List.mem_cons_of_mem _ hv)

/-- The bounding box of a paving which is not empty is the smallest box containing it. -/
theorem boundingBox_spec {d : ℕ} [NeZero d] (φ : Fin d → K → K) (hφ : ∀ j, Monotone (φ j)) (p : Paving)
    (hp : p.sub.isEmpty = false) : ∃ b, boundingBox φ p = some b ∧ p.closed φ ⊆ b.closed ∧
      ∀ a : Grid.Box K d, p.closed φ ⊆ a.closed → b.closed ⊆ a.closed := by
  have hen := (Ariadne.BinaryTree.C17_enumeration p.tree).1
  have hp' : p.tree.enabledLeaves ≠ [] := by
    intro hc
    rw [Subpaving.isEmpty, Ariadne.BinaryTree.C17_count] at hp
    simp [Paving.sub, hc] at hp
  unfold boundingBox
  cases hl : p.tree.enabledLeaves with
  | nil => exact absurd hl hp'
  | cons w ws =>
    obtain ⟨-, h2, h3⟩ := foldExtend_spec (fun v => spaceBox φ p.extent v) (w :: ws) (spaceBox φ p.extent w)
    refine ⟨_, rfl, ?_, ?_⟩
    · rintro x ⟨v, hv, hx⟩ j
      have hv' := (hen v).2 hv
      rw [hl] at hv'
      exact ⟨(h2 v hv' j).1.trans (hx j).1, (hx j).2.trans (h2 v hv' j).2⟩
    · intro a ha
      have hc : ∀ v ∈ w :: ws, ∀ j, (a j).1 ≤ (spaceBox φ p.extent v j).1 ∧ (spaceBox φ p.extent v j).2 ≤ (a j).2 := by
        intro v hv
        rw [← boxSubset_iff, boxSubset_closed _ _ (spaceBox_le φ hφ _ _)]
        intro x hx
        apply ha
        refine ⟨v, (hen v).1 ?_, hx⟩
        rw [hl]; exact hv
      have := h3 a (hc w List.mem_cons_self) hc
      intro x hx j
      exact ⟨(this j).1.trans (hx j).1, (hx j).2.trans (this j).2⟩

/-- **`bounding_box`** has an entry exactly for the locations which are not empty: the smallest box containing the cells. -/
theorem C66_bounding_box (G : HGrid L) (φ : Scale K G) (hφ : ∀ l j, Monotone (φ l j)) (h : HPaving L) (hw : HWF G h)
    (l : L) :
    (hBoundingBox G φ h l = none ↔ hClosed G φ h l = ∅) ∧
    ∀ b, hBoundingBox G φ h l = some b → hClosed G φ h l ⊆ b.closed ∧
      ∀ a : Grid.Box K (G.dim l), hClosed G φ h l ⊆ a.closed → b.closed ⊆ a.closed := by
  unfold hBoundingBox
  cases e : find l h with
  | none => simp [hClosed_none hw.sorted e]
  | some p =>
    simp only [hClosed_eq hw.sorted e]
    rw [← closed_empty (φ l) (hφ l)]
    cases hp : p.sub.isEmpty with
    | true => simp
    | false =>
      obtain ⟨b, h1, h2, h3⟩ := boundingBox_spec (φ l) (hφ l) p hp
      simp only [Bool.not_false, if_true, h1, Option.some.injEq, reduceCtorEq, Bool.false_eq_true, iff_self, true_and]
      rintro _ rfl
      exact ⟨h2, h3⟩

/-! ## Inclusion and intersection -/

/-- **`subset`**, when it returns, answers whether every location of the first is contained in that of the second; it
returns if the second has an entry for every location in which the first is not empty.  Missing: the other cases
(`C66_subset_fails`). -/
theorem C66_subset_partial (G : HGrid L) (g h : HPaving L) (hg : HWF G g) :
    (∀ b, hSubset G g h = some b → (b = true ↔ ∀ l, hPoints K G h l ⊆ hPoints K G g l)) ∧
    ((∀ l, (hPoints K G h l).Nonempty → hNontrivial l g = true) → ∃ b, hSubset G g h = some b) := by
  have hne : ∀ (l : L) (p : Paving), p.sub.isEmpty = false → (p.points K (G.dim l)).Nonempty := by
    intro l p hp
    rw [← Paving.sub_points, Set.nonempty_iff_ne_empty, Ne, ← C20_is_empty, hp]; simp
  have key : ∀ (l : L) (p s : Paving), p.sub.isEmpty = false → find l g = some s →
      (pavingSubset (G.dim l) p.sub s.sub = true ↔ p.points K (G.dim l) ⊆ hPoints K G g l) := by
    intro l p s hp hs
    rw [(C20_subset_partial (K := K) (d := G.dim l) p.sub s.sub).2 (by rw [Paving.sub_points]; exact hne l p hp),
      Paving.sub_points, Paving.sub_points, hPoints_eq hg.sorted, cur, hs, Option.getD_some]
  have hall : (∀ l, hPoints K G h l ⊆ hPoints K G g l) ↔
      ∀ e ∈ h, e.2.points K (G.dim e.1) ⊆ hPoints K G g e.1 := by
    constructor
    · rintro hl ⟨l, p⟩ he x hx
      exact hl l ⟨p, he, hx⟩
    · rintro he l x ⟨p, hp, hx⟩
      exact he (l, p) hp hx
  rw [hall]
  have hall2 : (∀ l, (hPoints K G h l).Nonempty → hNontrivial l g = true) →
      ∀ e ∈ h, (e.2.points K (G.dim e.1)).Nonempty → hNontrivial e.1 g = true := by
    rintro hl ⟨l, p⟩ he ⟨x, hx⟩
    exact hl l ⟨x, p, he, hx⟩
  suffices hs : (∀ b, hSubset G g h = some b → (b = true ↔ ∀ e ∈ h, e.2.points K (G.dim e.1) ⊆ hPoints K G g e.1)) ∧
      ((∀ e ∈ h, (e.2.points K (G.dim e.1)).Nonempty → hNontrivial e.1 g = true) → ∃ b, hSubset G g h = some b) from
    ⟨hs.1, fun h' => hs.2 (hall2 h')⟩
  clear hall hall2
  induction h with
  | nil => exact ⟨fun b hb => by cases hb; simp, fun _ => ⟨true, rfl⟩⟩
  | cons e h ih =>
    obtain ⟨l, p⟩ := e
    simp only [hSubset, List.forall_mem_cons]
    cases hp : p.sub.isEmpty with
    | true =>
      have : p.points K (G.dim l) = ∅ := by rw [← Paving.sub_points, ← C20_is_empty]; exact hp
      simp only [Bool.not_true, Bool.false_eq_true, if_false, this, Set.empty_subset, true_and,
        Set.not_nonempty_empty, false_implies]
      exact ih
    | false =>
      simp only [Bool.not_false, if_true]
      cases hs : find l g with
      | none =>
        refine ⟨(fun b hb => nomatch hb), fun hh => ?_⟩
        have := hh.1 (hne l p hp)
        rw [hNontrivial, hasKey, hs] at this
        cases this
      | some s =>
        have hk := key l p s hp hs
        rw [Option.bind_some]
        cases hps : pavingSubset (G.dim l) p.sub s.sub with
        | true =>
          rw [hps] at hk
          simp only [Bool.not_true, Bool.false_eq_true, if_false, hk.1 rfl, true_and]
          exact ⟨ih.1, fun hh => ih.2 hh.2⟩
        | false =>
          rw [hps] at hk
          simp only [Bool.not_false, if_true, Option.some.injEq]
          refine ⟨?_, fun _ => ⟨_, rfl⟩⟩
          rintro _ rfl
          simp only [Bool.false_eq_true, false_iff, not_and]
          exact fun hc => absurd (hk.2 hc) (by simp)

/-- **`intersect`**, when it returns, answers whether the two sets have a common point in some location; it returns if the
second has an entry for every location in which the first is not empty.  Missing: the other cases
(`C66_subset_fails`). -/
theorem C66_intersect_partial (G : HGrid L) (g h : HPaving L) (hg : HWF G g) :
    (∀ b, hIntersect G g h = some b → (b = true ↔ ∃ l, (hPoints K G h l ∩ hPoints K G g l).Nonempty)) ∧
    ((∀ l, (hPoints K G h l).Nonempty → hNontrivial l g = true) → ∃ b, hIntersect G g h = some b) := by
  have hne : ∀ (l : L) (p : Paving), p.sub.isEmpty = false → (p.points K (G.dim l)).Nonempty := by
    intro l p hp
    rw [← Paving.sub_points, Set.nonempty_iff_ne_empty, Ne, ← C20_is_empty, hp]; simp
  have key : ∀ (l : L) (p s : Paving), find l g = some s →
      (pavingIntersect (G.dim l) p.sub s.sub = true ↔ (p.points K (G.dim l) ∩ hPoints K G g l).Nonempty) := by
    intro l p s hs
    rw [C20_intersect (K := K) (d := G.dim l) p.sub s.sub,
      Paving.sub_points, Paving.sub_points, hPoints_eq hg.sorted, cur, hs, Option.getD_some]
  have hall : (∃ l, (hPoints K G h l ∩ hPoints K G g l).Nonempty) ↔
      ∃ e ∈ h, (e.2.points K (G.dim e.1) ∩ hPoints K G g e.1).Nonempty := by
    constructor
    · rintro ⟨l, x, ⟨p, hp, hx⟩, hx'⟩
      exact ⟨(l, p), hp, x, hx, hx'⟩
    · rintro ⟨⟨l, p⟩, he, x, hx, hx'⟩
      exact ⟨l, x, ⟨p, he, hx⟩, hx'⟩
  rw [hall]
  have hall2 : (∀ l, (hPoints K G h l).Nonempty → hNontrivial l g = true) →
      ∀ e ∈ h, (e.2.points K (G.dim e.1)).Nonempty → hNontrivial e.1 g = true := by
    rintro hl ⟨l, p⟩ he ⟨x, hx⟩
    exact hl l ⟨x, p, he, hx⟩
  suffices hs : (∀ b, hIntersect G g h = some b →
        (b = true ↔ ∃ e ∈ h, (e.2.points K (G.dim e.1) ∩ hPoints K G g e.1).Nonempty)) ∧
      ((∀ e ∈ h, (e.2.points K (G.dim e.1)).Nonempty → hNontrivial e.1 g = true) → ∃ b, hIntersect G g h = some b) from
    ⟨hs.1, fun h' => hs.2 (hall2 h')⟩
  clear hall hall2
  induction h with
  | nil => exact ⟨fun b hb => by cases hb; simp, fun _ => ⟨false, rfl⟩⟩
  | cons e h ih =>
    obtain ⟨l, p⟩ := e
    simp only [hIntersect, List.forall_mem_cons, List.exists_mem_cons_iff]
    cases hp : p.sub.isEmpty with
    | true =>
      have : p.points K (G.dim l) = ∅ := by rw [← Paving.sub_points, ← C20_is_empty]; exact hp
      simp only [Bool.not_true, Bool.false_eq_true, if_false, this, Set.empty_inter,
        Set.not_nonempty_empty, false_implies, false_or, true_and]
      exact ih
    | false =>
      simp only [Bool.not_false, if_true]
      cases hs : find l g with
      | none =>
        refine ⟨(fun b hb => nomatch hb), fun hh => ?_⟩
        have := hh.1 (hne l p hp)
        rw [hNontrivial, hasKey, hs] at this
        cases this
      | some s =>
        have hk := key l p s hs
        rw [Option.bind_some]
        cases hps : pavingIntersect (G.dim l) p.sub s.sub with
        | false =>
          rw [hps] at hk
          have hn : ¬ (p.points K (G.dim l) ∩ hPoints K G g l).Nonempty := fun hc => absurd (hk.2 hc) (by simp)
          simp only [Bool.false_eq_true, if_false, hn, false_or]
          exact ⟨ih.1, fun hh => ih.2 hh.2⟩
        | true =>
          rw [hps] at hk
          simp only [if_true, Option.some.injEq]
          refine ⟨?_, fun _ => ⟨_, rfl⟩⟩
          rintro _ rfl
          simp only [true_iff]
          exact Or.inl (hk.1 rfl)

/-! ## Iteration -/

/-- All cells that an iterator still has to visit. -/
def HIter.rest (s : HIter L) : List (L × Cell) := s.flatMap fun e => e.2.map fun c => (e.1, c)

theorem HIter.skip_spec (s : HIter L) : s.skip.rest = s.rest ∧
    (s.skip = [] ∨ ∃ l c cs t, s.skip = (l, c :: cs) :: t) := by
  induction s with
  | nil => exact ⟨rfl, Or.inl rfl⟩
  | cons e s ih =>
    obtain ⟨l, cs⟩ := e
    cases cs with
    | nil => exact ⟨by rw [HIter.skip, ih.1]; simp [HIter.rest], ih.2⟩
    | cons c cs => exact ⟨rfl, Or.inr ⟨l, c, cs, s, rfl⟩⟩

theorem HIter.run_spec (n : ℕ) (s : HIter L) (hn : s.rest.length ≤ n)
    (hs : s = [] ∨ ∃ l c cs t, s = (l, c :: cs) :: t) : HIter.run n s = s.rest := by
  induction n generalizing s with
  | zero => rw [HIter.run, List.length_eq_zero_iff.1 (Nat.le_zero.1 hn)]
  | succ n ih =>
    rcases hs with rfl | ⟨l, c, cs, t, rfl⟩
    · rfl
    · rw [HIter.run, HIter.get, HIter.next]
      obtain ⟨h1, h2⟩ := HIter.skip_spec ((l, cs) :: t)
      have e : HIter.rest ((l, c :: cs) :: t) = (l, c) :: HIter.rest ((l, cs) :: t) := by simp [HIter.rest]
      simp only
      rw [ih _ (by rw [h1]; rw [e] at hn; simpa using hn) h2, h1, e]

theorem hSize_eq (h : HPaving L) : hSize h = (h.map fun e => e.2.tree.countEnabled).sum := by
  have key : ∀ (h : HPaving L) (n : ℕ), h.foldl (fun r e => r + e.2.tree.countEnabled) n =
      n + (h.map fun e => e.2.tree.countEnabled).sum := by
    intro h
    induction h with
    | nil => simp
    | cons e h ih => intro n; simp [ih, add_assoc]
  rw [hSize, key, zero_add]

/-- **Iteration** visits every enabled cell of every location exactly once and in the order of the locations, and `size`
is the number of cells visited. -/
theorem C66_iteration (h : HPaving L) (hs : SortedKeys h) (n : ℕ) (hn : hSize h ≤ n) :
    (HIter.run n (HIter.begin h)).length = hSize h ∧ (HIter.run n (HIter.begin h)).Nodup ∧
    (HIter.run n (HIter.begin h)).Pairwise (fun a b => a.1 ≤ b.1) ∧
    ∀ l c, (l, c) ∈ HIter.run n (HIter.begin h) ↔
      ∃ p, (l, p) ∈ h ∧ c.extent = p.extent ∧ p.tree.leafAt c.word = some .true_ := by
  obtain ⟨h1, h2⟩ := HIter.skip_spec (h.map fun e => (e.1, cellsOf e.2))
  have hrest : HIter.rest (h.map fun e => (e.1, cellsOf e.2)) =
      h.flatMap fun e => (cellsOf e.2).map fun c => (e.1, c) := by
    simp [HIter.rest, List.flatMap_map]
  have hlen : (h.flatMap fun e => (cellsOf e.2).map fun c => (e.1, c)).length = hSize h := by
    rw [hSize_eq, List.length_flatMap]
    congr 1
    apply List.map_congr_left
    intro e _
    simp [cellsOf, Ariadne.BinaryTree.C17_count]
  have hrun : HIter.run n (HIter.begin h) = h.flatMap fun e => (cellsOf e.2).map fun c => (e.1, c) := by
    rw [HIter.begin, HIter.run_spec n _ (by rw [h1, hrest, hlen]; exact hn) h2, h1, hrest]
  rw [hrun]
  refine ⟨hlen, ?_, ?_, ?_⟩
  · rw [List.nodup_flatMap]
    constructor
    · intro e _
      refine List.Nodup.map (fun a b hab => (Prod.mk.inj hab).2) ?_
      exact List.Nodup.map (fun a b hab => (Cell.mk.inj hab).2) (Ariadne.BinaryTree.C17_enumeration e.2.tree).2
    · refine hs.imp ?_
      intro a b hab
      rw [Function.onFun, List.disjoint_left]
      rintro ⟨l, c⟩ ha hb
      simp only [List.mem_map, Prod.mk.injEq] at ha hb
      obtain ⟨_, -, e1, -⟩ := ha
      obtain ⟨_, -, e2, -⟩ := hb
      rw [e1, e2] at hab
      exact lt_irrefl _ hab
  · rw [List.pairwise_flatMap]
    constructor
    · intro e _
      rw [List.pairwise_map]
      exact List.pairwise_of_forall fun _ _ => le_refl _
    · refine hs.imp ?_
      rintro a b hab ⟨l, c⟩ hx ⟨l', c'⟩ hy
      simp only [List.mem_map, Prod.mk.injEq] at hx hy
      obtain ⟨_, -, rfl, -⟩ := hx
      obtain ⟨_, -, rfl, -⟩ := hy
      exact hab.le
  · intro l c
    simp only [List.mem_flatMap, List.mem_map, cellsOf, Prod.mk.injEq]
    constructor
    · rintro ⟨⟨l', p⟩, he, c', ⟨w, hw, rfl⟩, rfl, rfl⟩
      exact ⟨p, he, rfl, ((Ariadne.BinaryTree.C17_enumeration p.tree).1 w).1 hw⟩
    · rintro ⟨p, he, h3, h4⟩
      refine ⟨(l, p), he, c, ⟨c.word, ((Ariadne.BinaryTree.C17_enumeration p.tree).1 _).2 h4, ?_⟩, rfl, rfl⟩
      cases c
      simp only at h3 ⊢
      rw [h3]

/-! ## Approximations -/

omit [IsStrictOrderedRing K] in
theorem locs_sorted {locs : List L} (hl : Sorted locs) : SortedKeys (locs.map fun l => (l, ())) := List.pairwise_map.2 hl

omit [LinearOrder K] in
theorem find_locs {locs : List L} (hl : Sorted locs) (l : L) :
    find l (locs.map fun l => (l, ())) = if l ∈ locs then some () else none := by
  split_ifs with h
  · rw [find_iff (locs_sorted hl)]
    exact List.mem_map.2 ⟨l, h, rfl⟩
  · cases e : find l (locs.map fun l => (l, ())) with
    | none => rfl
    | some u =>
      rw [find_iff (locs_sorted hl)] at e
      obtain ⟨l', hl', e'⟩ := List.mem_map.1 e
      cases e'
      exact absurd hl' h

/-- The effect of a loop over locations. -/
theorem updateLocs_spec (G : HGrid L) (φ : Scale K G) (f : (l : L) → Unit → Paving → Option Paving) (locs : List L)
    (h : HPaving L) (hw : HWF G h) (hl : Sorted locs) (hk : ∀ l ∈ locs, G.known l = true)
    (P : (l : L) → Set (Fin (G.dim l) → K) → Set (Fin (G.dim l) → K) → Prop)
    (hf : ∀ l ∈ locs, ∀ p : Paving, p.WF → p = cur h l →
      ∃ r, f l () p = some r ∧ r.WF ∧ P l (p.closed (φ l)) (r.closed (φ l))) :
    ∃ h', updateAll G f (locs.map fun l => (l, ())) h = some h' ∧ HWF G h' ∧
      (∀ l ∈ locs, P l (hClosed G φ h l) (hClosed G φ h' l)) ∧
      ∀ l, l ∉ locs → hClosed G φ h' l = hClosed G φ h l := by
  obtain ⟨h', e1, w1, s1⟩ := updateAll_spec G f (locs.map fun l => (l, ())) h hw (locs_sorted hl)
    (fun e he => by obtain ⟨l, h1, rfl⟩ := List.mem_map.1 he; exact hk l h1)
    (fun e he => by
      obtain ⟨l, h1, rfl⟩ := List.mem_map.1 he
      obtain ⟨r, h2, h3, -⟩ := hf l h1 _ (hw.cur l) rfl
      exact ⟨r, h2, h3⟩)
  refine ⟨h', e1, w1, fun l h1 => ?_, fun l h1 => ?_⟩
  · obtain ⟨r, h2, h3, h4⟩ := hf l h1 _ (hw.cur l) rfl
    obtain ⟨r', h5, h6⟩ := (s1 l).2 () (by rw [find_locs hl, if_pos h1])
    rw [h2] at h5
    cases h5
    have hr : cur h' l = r := by rw [cur, h6, Option.getD_some]
    rw [hClosed_cur hw.sorted, hClosed_cur w1.sorted, hr]
    exact h4
  · rw [hClosed_cur hw.sorted, hClosed_cur w1.sorted, cur, (s1 l).1 (by rw [find_locs hl, if_neg h1]), cur]

theorem exists_bound (locs : List L) (N : L → ℕ) : ∃ n, ∀ l ∈ locs, N l ≤ n := by
  induction locs with
  | nil => exact ⟨0, by simp⟩
  | cons a locs ih =>
    obtain ⟨n, hn⟩ := ih
    refine ⟨max (N a) n, ?_⟩
    intro l hl
    rcases List.mem_cons.1 hl with rfl | hl
    · exact le_max_left _ _
    · exact (hn l hl).trans (le_max_right _ _)

/-- **Outer approximations**: for sets with a sound `separated` and a bounding box in each location, every location grows,
each location of the set then contains the set, and the others are unchanged. -/
theorem C66_outer [Archimedean K] (G : HGrid L) (R : Ariadne.Rounding K) (o len : (l : L) → Fin (G.dim l) → K)
    (hlen : ∀ l j, 0 < len l j) (h : HPaving L) (hw : HWF G h) (locs : List L) (hl : Sorted locs)
    (hk : ∀ l ∈ locs, G.known l = true) (S : (l : L) → Set (Fin (G.dim l) → K)) (bb : (l : L) → Grid.Box K (G.dim l))
    (hbb : ∀ l j, R.Rep (bb l j).1 ∧ R.Rep (bb l j).2) (hS : ∀ l, S l ⊆ (bb l).closed)
    (sep cov : (l : L) → Grid.Box K (G.dim l) → Bool)
    (hsep : ∀ l, ∀ b : Grid.Box K (G.dim l), (∀ j, (b j).1 ≤ (b j).2) → sep l b = true → S l ∩ b.closed = ∅) (k : ℕ) :
    ∃ n, ∀ fuel, n ≤ fuel → ∃ h', hAdjoinOuter G R o len fuel bb sep cov k locs h = some h' ∧ HWF G h' ∧
      (∀ l ∈ locs, hClosed G (fun l => gridMap R (o l) (len l)) h l ⊆ hClosed G (fun l => gridMap R (o l) (len l)) h' l ∧
        S l ⊆ hClosed G (fun l => gridMap R (o l) (len l)) h' l) ∧
      ∀ l, l ∉ locs →
        hClosed G (fun l => gridMap R (o l) (len l)) h' l = hClosed G (fun l => gridMap R (o l) (len l)) h l := by
  have hN := fun l => C21_outer R (o l) (len l) (hlen l) (cur h l) (hw.cur l) (S l) (bb l) (hbb l) (hS l) (sep l) (cov l)
    (hsep l) k
  choose N hN using hN
  obtain ⟨n, hn⟩ := exists_bound locs N
  refine ⟨n, fun fuel hfuel => ?_⟩
  refine updateLocs_spec G (fun l => gridMap R (o l) (len l)) _ locs h hw hl hk (fun l A B => A ⊆ B ∧ S l ⊆ B) ?_
  rintro l hl' p - rfl
  obtain ⟨q, M, h1, h2, h3, h4, -⟩ := hN l fuel ((hn l hl').trans hfuel)
  exact ⟨q, h1, h2, h3, h4⟩

/-- **Inner approximations**: for sets with a sound `covers`, every location grows, by points of the set only. -/
theorem C66_inner (G : HGrid L) (φ : Scale K G) (hφ : ∀ l j, Monotone (φ l j)) (e : L → ℕ) (h : HPaving L)
    (hw : HWF G h) (locs : List L) (hl : Sorted locs) (hk : ∀ l ∈ locs, G.known l = true)
    (S : (l : L) → Set (Fin (G.dim l) → K)) (sep : (l : L) → Option (Grid.Box K (G.dim l) → Bool))
    (cov : (l : L) → Grid.Box K (G.dim l) → Bool) (hcov : ∀ l b, cov l b = true → b.closed ⊆ S l) (k : ℕ) :
    ∃ h', hAdjoinInner G φ e sep cov k locs h = some h' ∧ HWF G h' ∧
      (∀ l ∈ locs, hClosed G φ h l ⊆ hClosed G φ h' l ∧ hClosed G φ h' l ⊆ hClosed G φ h l ∪ S l) ∧
      ∀ l, l ∉ locs → hClosed G φ h' l = hClosed G φ h l := by
  refine updateLocs_spec G φ _ locs h hw hl hk (fun l A B => A ⊆ B ∧ B ⊆ A ∪ S l) ?_
  rintro l hl' p hp -
  obtain ⟨q, h1, h2, h3, h4⟩ := C21_inner (φ l) (hφ l) p hp (e l) (S l) (sep l) (cov l) (hcov l) k
  exact ⟨q, h1, h2, h3, h4⟩

/-- **Lower approximations**: for sets with a sound `overlaps`, every location grows, and every new point is in a cell
which is in the set, or meets it and has side `1/2^k` in lattice coordinates. -/
theorem C66_lower (G : HGrid L) (φ : Scale K G) (hφ : ∀ l j, Monotone (φ l j)) (e : ℕ) (h : HPaving L)
    (hw : HWF G h) (locs : List L) (hl : Sorted locs) (hk : ∀ l ∈ locs, G.known l = true)
    (S : (l : L) → Set (Fin (G.dim l) → K)) (cov : (l : L) → Option (Grid.Box K (G.dim l) → Bool))
    (ov : (l : L) → Grid.Box K (G.dim l) → Bool)
    (hov : ∀ l, ∀ b : Grid.Box K (G.dim l), (∀ j, (b j).1 ≤ (b j).2) → ov l b = true → (S l ∩ b.closed).Nonempty)
    (hcov : ∀ l, ∀ c ∈ cov l, ∀ b, c b = true → b.closed ⊆ S l) (k : ℕ) :
    ∃ h', hAdjoinLower G φ e cov ov k locs h = some h' ∧ HWF G h' ∧
      (∀ l ∈ locs, hClosed G φ h l ⊆ hClosed G φ h' l ∧ ∀ x ∈ hClosed G φ h' l, x ∈ hClosed G φ h l ∨
        ∃ w, x ∈ (spaceBox (φ l) e w).closed ∧ ((spaceBox (φ l) e w).closed ⊆ S l ∨
          ((S l ∩ (spaceBox (φ l) e w).closed).Nonempty ∧
            ∀ j, (latticeBox K (G.dim l) e w j).2 - (latticeBox K (G.dim l) e w j).1 = 1 / 2 ^ k))) ∧
      ∀ l, l ∉ locs → hClosed G φ h' l = hClosed G φ h l := by
  refine updateLocs_spec G φ _ locs h hw hl hk (fun l A B => A ⊆ B ∧ ∀ x ∈ B, x ∈ A ∨
        ∃ w, x ∈ (spaceBox (φ l) e w).closed ∧ ((spaceBox (φ l) e w).closed ⊆ S l ∨
          ((S l ∩ (spaceBox (φ l) e w).closed).Nonempty ∧
            ∀ j, (latticeBox K (G.dim l) e w j).2 - (latticeBox K (G.dim l) e w j).1 = 1 / 2 ^ k))) ?_
  rintro l hl' p hp -
  obtain ⟨q, h1, h2, h3, h4⟩ := C21_lower (φ l) (hφ l) p hp e (S l) (cov l) (ov l) (hov l) (hcov l) k
  exact ⟨q, h1, h2, h3, h4⟩

/-! ## Histories -/

/-- A call changing a hybrid paving. -/
inductive HOp (L : Type*) where
  | adjoinCell (q : L) (c : Cell)
  | adjoinCells (xs : List (L × Cell))
  | adjoin (g : HPaving L)
  | remove (g : HPaving L)
  | restrict (g : HPaving L)
  | restrictToExtent (e : ℕ)
  | mince (n : ℕ)
  | recombine
  | clear
  | get (q : L)

/-- One call. -/
def HOp.run (G : HGrid L) (h : HPaving L) : HOp L → Option (HPaving L)
  | adjoinCell q c => hAdjoinCell G q c h
  | adjoinCells xs => hAdjoinCells G xs h
  | adjoin g => hAdjoin G g h
  | remove g => hRemove G g h
  | restrict g => hRestrict G g h
  | restrictToExtent e => some (hRestrictToExtent G e h)
  | mince n => some (hMince G n h)
  | recombine => some (hRecombine h)
  | clear => some (hClear h)
  | get q => (hGet G q h).map Prod.snd

/-- A sequence of calls. -/
def hRunAll (G : HGrid L) : HPaving L → List (HOp L) → Option (HPaving L)
  | h, [] => some h
  | h, u :: us => (u.run G h).bind fun h' => hRunAll G h' us

/-- What a call does to the sets of points. -/
def HOp.effect (K : Type*) [Field K] [LinearOrder K] [IsStrictOrderedRing K] (G : HGrid L)
    (S : (l : L) → Set (Fin (G.dim l) → K)) : HOp L → (l : L) → Set (Fin (G.dim l) → K)
  | adjoinCell q c => fun l => S l ∪ {x | l = q ∧ x ∈ c.points K (G.dim l)}
  | adjoinCells xs => fun l => S l ∪ {x | ∃ c, (l, c) ∈ xs ∧ x ∈ c.points K (G.dim l)}
  | adjoin g => fun l => S l ∪ hPoints K G g l
  | remove g => fun l => S l \ hPoints K G g l
  | restrict g => fun l => S l ∩ {x | (∃ p, (l, p) ∈ g) → x ∈ hPoints K G g l}
  | restrictToExtent e => fun l => S l ∩ Cell.points K (G.dim l) ⟨e, []⟩
  | mince _ => S
  | recombine => S
  | clear => fun _ => ∅
  | get _ => S

/-- The locations given are in the grid, the pavings given satisfy the invariant. -/
def HOp.Ok (G : HGrid L) : HOp L → Prop
  | adjoinCell q _ => G.known q = true
  | adjoinCells xs => ∀ e ∈ xs, G.known e.1 = true
  | adjoin g => HWF G g
  | remove g => HWF G g
  | restrict g => HWF G g
  | get q => G.known q = true
  | _ => True

/-- **Histories**: after any sequence of calls the points of every location are those given by the set operations; no call
fails.  The effect of `restrict` is that of the code, see `C66_restrict_partial`. -/
theorem C66_history (G : HGrid L) (h : HPaving L) (us : List (HOp L)) (hw : HWF G h) (hu : ∀ u ∈ us, u.Ok G) :
    ∃ h', hRunAll G h us = some h' ∧ HWF G h' ∧
      hPoints K G h' = us.foldl (HOp.effect K G) (hPoints K G h) := by
  induction us generalizing h with
  | nil => exact ⟨h, rfl, hw, rfl⟩
  | cons u us ih =>
    have hstep : ∃ h', u.run G h = some h' ∧ HWF G h' ∧ hPoints K G h' = HOp.effect K G (hPoints K G h) u := by
      have hok := hu u List.mem_cons_self
      cases u with
      | adjoinCell q c =>
        obtain ⟨h', h1, h2, h3, h4⟩ := (C66_adjoin_cell (K := K) G q c h hw).1 hok
        refine ⟨h', h1, h2, ?_⟩
        funext l
        simp only [HOp.effect]
        by_cases hl : l = q
        · subst hl; rw [h3]; simp
        · rw [h4 l hl]; simp [hl]
      | adjoinCells xs =>
        obtain ⟨h', h1, h2, h3⟩ := C66_adjoin_cells (K := K) G xs h hw hok
        exact ⟨h', h1, h2, funext h3⟩
      | adjoin g =>
        obtain ⟨h', h1, h2, h3⟩ := C66_adjoin (K := K) G g h hw hok
        exact ⟨h', h1, h2, funext h3⟩
      | remove g =>
        obtain ⟨h', h1, h2, h3⟩ := C66_remove (K := K) G g h hw hok
        exact ⟨h', h1, h2, funext h3⟩
      | restrict g =>
        obtain ⟨h', h1, h2, h3⟩ := C66_restrict_partial (K := K) G g h hw hok
        refine ⟨h', h1, h2, funext fun l => ?_⟩
        have hok' : HWF G g := hok
        have hk : hNontrivial l g = true ↔ ∃ p, (l, p) ∈ g := hasKey_iff hok'.sorted
        simp only [HOp.effect]
        rw [← hk]
        cases e : hNontrivial l g with
        | true => rw [(h3 l).1 e]; simp
        | false => rw [(h3 l).2 e]; simp
      | restrictToExtent e => exact ⟨_, rfl, (C66_local (K := K) G h hw e).2.1.1, funext (C66_local G h hw e).2.1.2⟩
      | mince n => exact ⟨_, rfl, (C66_local (K := K) G h hw n).2.2.1.1, funext (C66_local G h hw n).2.2.1.2⟩
      | recombine => exact ⟨_, rfl, (C66_local (K := K) G h hw 0).2.2.2.1, funext (C66_local G h hw 0).2.2.2.2⟩
      | clear => exact ⟨_, rfl, (C66_local (K := K) G h hw 0).1.1, funext (C66_local G h hw 0).1.2⟩
      | get q =>
        obtain ⟨p, h', h1, h2, -, h3, -⟩ := (C66_lookup (K := K) G q h hw).1 hok
        exact ⟨h', by rw [HOp.run, h1]; rfl, h2, funext h3⟩
    obtain ⟨h1, e1, w1, s1⟩ := hstep
    obtain ⟨h2, e2, w2, s2⟩ := ih h1 w1 fun u hu' => hu u (List.mem_cons_of_mem _ hu')
    exact ⟨h2, by rw [hRunAll, e1]; exact e2, w2, by rw [s2, s1]; rfl⟩

end Verif.Hybrid
