import Verif.Hybrid.Paving

/-!
# C66: hybrid pavings are pavings location by location

The specification is a set of points for every location.
-/

namespace Verif.Hybrid

open Verif.Container Verif.Grid

variable {L : Type*} [LinearOrder L]

/-- The paving of a location; a location without an entry is empty. -/
def cur (h : HPaving L) (l : L) : Paving := (find l h).getD (Paving.init false)

/-- The invariant: a map, with well-formed pavings in locations of the grid. -/
structure HWF (G : HGrid L) (h : HPaving L) : Prop where
  sorted : SortedKeys h
  wf : ∀ e ∈ h, e.2.WF
  known : ∀ e ∈ h, G.known e.1 = true

theorem HWF.cur {G : HGrid L} {h : HPaving L} (hw : HWF G h) (l : L) : (Hybrid.cur h l).WF := by
  unfold Hybrid.cur
  cases e : find l h with
  | none => exact Or.inr rfl
  | some p => exact hw.wf _ ((find_iff hw.sorted).1 e)

/-- The points in each location. -/
def hPoints (K : Type*) [Field K] [LinearOrder K] [IsStrictOrderedRing K] (G : HGrid L) (h : HPaving L) (l : L) :
    Set (Fin (G.dim l) → K) :=
  {x | ∃ p, (l, p) ∈ h ∧ x ∈ p.points K (G.dim l)}

section
variable {K : Type*} [Field K] [LinearOrder K] [IsStrictOrderedRing K]

theorem hPoints_eq {G : HGrid L} {h : HPaving L} (hs : SortedKeys h) (l : L) :
    hPoints K G h l = (cur h l).points K (G.dim l) := by
  ext x
  simp only [hPoints, Set.mem_setOf_eq, cur]
  cases e : find l h with
  | none =>
    rw [Option.getD_none, C19_init.1]
    simp only [Set.mem_empty_iff_false, iff_false]
    rintro ⟨p, hp, -⟩
    rw [← find_iff hs, e] at hp
    cases hp
  | some p =>
    rw [Option.getD_some]
    constructor
    · rintro ⟨p', hp', hx⟩
      rw [← find_iff hs, e] at hp'
      cases hp'
      exact hx
    · intro hx
      exact ⟨p, (find_iff hs).1 e, hx⟩
end

/-! ## The loops -/

theorem updateAt_spec (G : HGrid L) (q : L) (f : Paving → Option Paving) (h : HPaving L) (hw : HWF G h)
    (hq : G.known q = true) {r : Paving} (hf : f (cur h q) = some r) (hr : r.WF) :
    ∃ h', updateAt G q f h = some h' ∧ HWF G h' ∧
      (∀ l, find l h' = if l = q then some r else find l h) := by
  unfold cur at hf
  unfold updateAt
  have hmk : ∀ m : HPaving L, HWF G m → HWF G (mset q r m) := by
    intro m hm
    refine ⟨hm.sorted.mset, ?_, ?_⟩
    · rintro ⟨l, p⟩ he
      rw [← find_iff hm.sorted.mset, find_mset hm.sorted] at he
      split_ifs at he with hl
      · cases he; exact hr
      · exact hm.wf _ ((find_iff hm.sorted).1 he)
    · rintro ⟨l, p⟩ he
      rw [← find_iff hm.sorted.mset, find_mset hm.sorted] at he
      split_ifs at he with hl
      · rw [hl]; exact hq
      · exact hm.known _ ((find_iff hm.sorted).1 he)
  cases e : find q h with
  | some p =>
    rw [e, Option.getD_some] at hf
    exact ⟨_, by simp [hf], hmk h hw, fun l => find_mset hw.sorted⟩
  | none =>
    rw [e, Option.getD_none] at hf
    have hm : HWF G (minsert q (Paving.init false) h) := by
      refine ⟨hw.sorted.minsert, ?_, ?_⟩
      · rintro ⟨l, p⟩ he
        rw [← find_iff hw.sorted.minsert, find_minsert hw.sorted] at he
        split_ifs at he with hl
        · rw [e] at he
          cases he; exact Or.inr rfl
        · exact hw.wf _ ((find_iff hw.sorted).1 he)
      · rintro ⟨l, p⟩ he
        rw [← find_iff hw.sorted.minsert, find_minsert hw.sorted] at he
        split_ifs at he with hl
        · rw [hl]; exact hq
        · exact hw.known _ ((find_iff hw.sorted).1 he)
    refine ⟨_, by simp [hf, hq], hmk _ hm, fun l => ?_⟩
    rw [find_mset hm.sorted, find_minsert hw.sorted]
    split_ifs <;> rfl

theorem updateAll_spec {α : Type*} (G : HGrid L) (f : (l : L) → α → Paving → Option Paving) (xs : List (L × α))
    (h : HPaving L) (hw : HWF G h) (hxs : SortedKeys xs) (hk : ∀ e ∈ xs, G.known e.1 = true)
    (hf : ∀ e ∈ xs, ∃ r, f e.1 e.2 (cur h e.1) = some r ∧ r.WF) :
    ∃ h', updateAll G f xs h = some h' ∧ HWF G h' ∧ ∀ l, (find l xs = none → find l h' = find l h) ∧
      ∀ a, find l xs = some a → ∃ r, f l a (cur h l) = some r ∧ find l h' = some r := by
  induction xs generalizing h with
  | nil => exact ⟨h, rfl, hw, fun l => ⟨fun _ => rfl, fun a ha => nomatch ha⟩⟩
  | cons e xs ih =>
    obtain ⟨q, a⟩ := e
    obtain ⟨r, hr, hrw⟩ := hf (q, a) List.mem_cons_self
    obtain ⟨h1, e1, w1, s1⟩ := updateAt_spec G q (f q a) h hw (hk (q, a) List.mem_cons_self) hr hrw
    obtain ⟨h2, e2, w2, s2⟩ := ih h1 w1 hxs.tail (fun e he => hk e (List.mem_cons_of_mem _ he))
      (fun e he => by
        have hc : cur h1 e.1 = cur h e.1 := by
          rw [cur, cur, s1 e.1, if_neg (ne_of_gt (hxs.head_lt he))]
        rw [hc]
        exact hf e (List.mem_cons_of_mem _ he))
    refine ⟨h2, by rw [updateAll, e1]; exact e2, w2, fun l => ?_⟩
    by_cases hl : l = q
    · subst hl
      have hn : find l xs = none := find_none_of_lt fun p hp => hxs.head_lt hp
      rw [find_cons_self, (s2 l).1 hn, s1 l, if_pos rfl]
      refine ⟨(fun h => nomatch h), fun b hb => ?_⟩
      cases hb
      exact ⟨r, hr, rfl⟩
    · rw [find_cons_ne hxs hl]
      have hc : cur h1 l = cur h l := by rw [cur, cur, s1 l, if_neg hl]
      have := s2 l
      rwa [hc, s1 l, if_neg hl] at this

theorem mapAll_find (f : L → Paving → Paving) (h : HPaving L) (l : L) : find l (mapAll f h) = (find l h).map (f l) := by
  induction h with
  | nil => rfl
  | cons e h ih =>
    simp only [mapAll, List.map_cons, find] at ih ⊢
    split_ifs with h1 h2
    · rfl
    · exact ih
    · rw [le_antisymm (not_lt.1 h2) (not_lt.1 h1)]; rfl

theorem mapAll_wf {G : HGrid L} {f : L → Paving → Paving} {h : HPaving L} (hw : HWF G h)
    (hf : ∀ l p, p.WF → (f l p).WF) : HWF G (mapAll f h) := by
  refine ⟨?_, ?_, ?_⟩
  · exact List.pairwise_map.2 hw.sorted
  · intro e he
    obtain ⟨e', he', rfl⟩ := List.mem_map.1 he
    exact hf _ _ (hw.wf _ he')
  · intro e he
    obtain ⟨e', he', rfl⟩ := List.mem_map.1 he
    exact hw.known e' he'

variable {K : Type*} [Field K] [LinearOrder K] [IsStrictOrderedRing K]

theorem mapAll_points {G : HGrid L} {f : L → Paving → Paving} {h : HPaving L} (hw : HWF G h)
    (hf : ∀ l p, p.WF → (f l p).WF) (l : L) (op : Set (Fin (G.dim l) → K) → Set (Fin (G.dim l) → K)) (ho : op ∅ = ∅)
    (hop : ∀ p, p.WF → (f l p).points K (G.dim l) = op (p.points K (G.dim l))) :
    hPoints K G (mapAll f h) l = op (hPoints K G h l) := by
  rw [hPoints_eq (mapAll_wf hw hf).sorted, hPoints_eq hw.sorted, ← hop _ (hw.cur l)]
  unfold cur
  rw [mapAll_find]
  cases e : find l h with
  | some p => rfl
  | none =>
    have h1 := hop (Paving.init false) (Or.inr rfl)
    rw [C19_init.1, ho] at h1
    simp only [Option.map_none, Option.getD_none, h1, C19_init.1]

/-- The effect of a loop over another paving. -/
theorem updateAll_points (G : HGrid L) (f : (l : L) → Paving → Paving → Option Paving) (g h : HPaving L)
    (hw : HWF G h) (hg : HWF G g)
    (op : (l : L) → Set (Fin (G.dim l) → K) → Set (Fin (G.dim l) → K) → Set (Fin (G.dim l) → K))
    (hf : ∀ l (s p : Paving), p.WF → s.WF → ∃ r, f l s p = some r ∧ r.WF ∧
      r.points K (G.dim l) = op l (p.points K (G.dim l)) (s.points K (G.dim l))) :
    ∃ h', updateAll G f g h = some h' ∧ HWF G h' ∧
      ∀ l, (hNontrivial l h' = true ↔ hNontrivial l h = true ∨ hNontrivial l g = true) ∧
      (hNontrivial l g = true → hPoints K G h' l = op l (hPoints K G h l) (hPoints K G g l)) ∧
      (hNontrivial l g = false → hPoints K G h' l = hPoints K G h l) := by
  obtain ⟨h', e1, w1, s1⟩ := updateAll_spec G f g h hw hg.sorted hg.known fun e he => by
    obtain ⟨r, h1, h2, -⟩ := hf e.1 e.2 _ (hw.cur e.1) (hg.wf e he)
    exact ⟨r, h1, h2⟩
  refine ⟨h', e1, w1, fun l => ?_⟩
  rw [hPoints_eq w1.sorted, hPoints_eq hw.sorted, hPoints_eq hg.sorted]
  simp only [hNontrivial, hasKey]
  cases e : find l g with
  | none =>
    have := (s1 l).1 e
    simp [cur, this]
  | some s =>
    obtain ⟨r, h1, h2⟩ := (s1 l).2 s e
    have hs := hg.wf _ ((find_iff hg.sorted).1 e)
    obtain ⟨r', h3, -, h4⟩ := hf l s (cur h l) (hw.cur l) hs
    rw [h1] at h3
    cases h3
    simp only [h2, Option.isSome_some, or_true, true_iff, true_and, forall_const, Bool.true_eq_false, false_implies,
      and_true]
    rw [cur, h2, Option.getD_some, h4]
    simp [cur, e]

/-! ## The operations -/

theorem hwf_nil (G : HGrid L) : HWF G [] := ⟨SortedKeys.nil, by simp, by simp⟩

/-- A new hybrid paving is empty in every location. -/
theorem C66_init (G : HGrid L) (l : L) : HWF G [] ∧ hPoints K G [] l = ∅ :=
  ⟨hwf_nil G, by ext x; simp [hPoints]⟩

/-- **Adjoining a cell** in a location of the grid changes that location only, to the union with the cell; in a location
which is not in the grid it fails. -/
theorem C66_adjoin_cell (G : HGrid L) (q : L) (c : Cell) (h : HPaving L) (hw : HWF G h) :
    (G.known q = true → ∃ h', hAdjoinCell G q c h = some h' ∧ HWF G h' ∧
      hPoints K G h' q = hPoints K G h q ∪ c.points K (G.dim q) ∧ ∀ l, l ≠ q → hPoints K G h' l = hPoints K G h l) ∧
    (G.known q = false → hAdjoinCell G q c h = none) := by
  constructor
  · intro hq
    obtain ⟨r, h1, h2, h3⟩ := C19_adjoin_cell (K := K) (d := G.dim q) (cur h q) c (hw.cur q)
    obtain ⟨h', e1, w1, s1⟩ := updateAt_spec G q (fun p => p.adjoinCell (G.dim q) c) h hw hq h1 h2
    refine ⟨h', e1, w1, ?_, fun l hl => ?_⟩
    · rw [hPoints_eq w1.sorted, hPoints_eq hw.sorted, ← h3, cur, s1 q, if_pos rfl, Option.getD_some]
    · rw [hPoints_eq w1.sorted, hPoints_eq hw.sorted, cur, s1 l, if_neg hl, cur]
  · intro hq
    unfold hAdjoinCell updateAt
    cases e : find q h with
    | none => simp [hq]
    | some p =>
      have := hw.known _ ((find_iff hw.sorted).1 e)
      rw [hq] at this
      cases this

/-- **Adjoining a list of cells** gives the union, in each location, with the cells of that location. -/
theorem C66_adjoin_cells (G : HGrid L) (xs : List (L × Cell)) (h : HPaving L) (hw : HWF G h)
    (hk : ∀ e ∈ xs, G.known e.1 = true) :
    ∃ h', hAdjoinCells G xs h = some h' ∧ HWF G h' ∧
      ∀ l, hPoints K G h' l = hPoints K G h l ∪ {x | ∃ c, (l, c) ∈ xs ∧ x ∈ c.points K (G.dim l)} := by
  induction xs generalizing h with
  | nil => exact ⟨h, rfl, hw, fun l => by simp⟩
  | cons e xs ih =>
    obtain ⟨q, c⟩ := e
    obtain ⟨h1, e1, w1, s1, t1⟩ := (C66_adjoin_cell (K := K) G q c h hw).1 (hk (q, c) List.mem_cons_self)
    obtain ⟨h2, e2, w2, s2⟩ := ih h1 w1 fun e he => hk e (List.mem_cons_of_mem _ he)
    refine ⟨h2, by rw [hAdjoinCells, e1]; exact e2, w2, fun l => ?_⟩
    rw [s2 l]
    ext x
    by_cases hl : l = q
    · subst hl
      rw [s1]
      simp only [Set.mem_union, Set.mem_setOf_eq, List.mem_cons, Prod.mk.injEq, true_and]
      constructor
      · rintro ((h | h) | ⟨c', h, h'⟩)
        exacts [Or.inl h, Or.inr ⟨c, Or.inl rfl, h⟩, Or.inr ⟨c', Or.inr h, h'⟩]
      · rintro (h | ⟨c', rfl | h, h'⟩)
        exacts [Or.inl (Or.inl h), Or.inl (Or.inr h'), Or.inr ⟨c', h, h'⟩]
    · rw [t1 l hl]
      simp [hl]

/-- **Adjoining a hybrid paving** gives the union in every location. -/
theorem C66_adjoin (G : HGrid L) (g h : HPaving L) (hw : HWF G h) (hg : HWF G g) :
    ∃ h', hAdjoin G g h = some h' ∧ HWF G h' ∧ ∀ l, hPoints K G h' l = hPoints K G h l ∪ hPoints K G g l := by
  obtain ⟨h', e1, w1, s1⟩ := updateAll_points (K := K) G (fun l s p => p.adjoin (G.dim l) s.sub) g h hw hg
    (fun _ A B => A ∪ B) (fun l s p hp hs => by
      obtain ⟨r, h1, -, h2, h3⟩ := C19_adjoin (K := K) (d := G.dim l) p s.sub hp hs
      exact ⟨r, h1, h2, by rw [h3, Paving.sub_points]⟩)
  refine ⟨h', e1, w1, fun l => ?_⟩
  obtain ⟨-, h1, h2⟩ := s1 l
  cases e : hNontrivial l g with
  | true => exact h1 e
  | false =>
    rw [h2 e, hPoints_eq hg.sorted]
    simp only [hNontrivial, hasKey, Option.isSome_eq_false_iff, Option.isNone_iff_eq_none] at e
    rw [cur, e, Option.getD_none, C19_init.1, Set.union_empty]

/-- **Removing a hybrid paving** gives the difference in every location. -/
theorem C66_remove (G : HGrid L) (g h : HPaving L) (hw : HWF G h) (hg : HWF G g) :
    ∃ h', hRemove G g h = some h' ∧ HWF G h' ∧ ∀ l, hPoints K G h' l = hPoints K G h l \ hPoints K G g l := by
  obtain ⟨h', e1, w1, s1⟩ := updateAll_points (K := K) G (fun l s p => p.remove (G.dim l) s.sub) g h hw hg
    (fun _ A B => A \ B) (fun l s p hp hs => by
      obtain ⟨r, h1, h2, h3⟩ := C19_remove (K := K) (d := G.dim l) p s.sub hp hs
      exact ⟨r, h1, h2, by rw [h3, Paving.sub_points]⟩)
  refine ⟨h', e1, w1, fun l => ?_⟩
  obtain ⟨-, h1, h2⟩ := s1 l
  cases e : hNontrivial l g with
  | true => exact h1 e
  | false =>
    rw [h2 e, hPoints_eq hg.sorted]
    simp only [hNontrivial, hasKey, Option.isSome_eq_false_iff, Option.isNone_iff_eq_none] at e
    rw [cur, e, Option.getD_none, C19_init.1, Set.diff_empty]

/-- **Restriction to a hybrid paving** gives the intersection in the locations in which the argument has an entry, and
changes nothing elsewhere.  Missing: the intersection, which is empty in the other locations (`C66_restrict_wrong`). -/
theorem C66_restrict_partial (G : HGrid L) (g h : HPaving L) (hw : HWF G h) (hg : HWF G g) :
    ∃ h', hRestrict G g h = some h' ∧ HWF G h' ∧ ∀ l,
      (hNontrivial l g = true → hPoints K G h' l = hPoints K G h l ∩ hPoints K G g l) ∧
      (hNontrivial l g = false → hPoints K G h' l = hPoints K G h l) := by
  obtain ⟨h', e1, w1, s1⟩ := updateAll_points (K := K) G (fun l s p => p.restrict (G.dim l) s.sub) g h hw hg
    (fun _ A B => A ∩ B) (fun l s p hp hs => by
      obtain ⟨r, h1, h2, h3⟩ := C19_restrict (K := K) (d := G.dim l) p s.sub hp hs
      exact ⟨r, h1, h2, by rw [h3, Paving.sub_points]⟩)
  exact ⟨h', e1, w1, fun l => (s1 l).2⟩

/-- **`clear`, `restrict_to_extent`, `mince`, `recombine`** act on every location. -/
theorem C66_local (G : HGrid L) (h : HPaving L) (hw : HWF G h) (n : ℕ) :
    (HWF G (hClear h) ∧ ∀ l, hPoints K G (hClear h) l = ∅) ∧
    (HWF G (hRestrictToExtent G n h) ∧
      ∀ l, hPoints K G (hRestrictToExtent G n h) l = hPoints K G h l ∩ Cell.points K (G.dim l) ⟨n, []⟩) ∧
    (HWF G (hMince G n h) ∧ ∀ l, hPoints K G (hMince G n h) l = hPoints K G h l) ∧
    (HWF G (hRecombine h) ∧ ∀ l, hPoints K G (hRecombine h) l = hPoints K G h l) := by
  have hm : ∀ (l : L) (p : Paving) (k : ℕ), p.WF → (⟨p.extent, p.tree.mince k⟩ : Paving).WF ∧
      (⟨p.extent, p.tree.mince k⟩ : Paving).points K (G.dim l) = p.points K (G.dim l) := by
    intro l p k hp
    refine ⟨(Ariadne.BinaryTree.C15_invariant p.tree p.tree [] k hp hp).2.2.2.2.2.2.1, ?_⟩
    ext x; rw [mem_paving]; simp only [Ariadne.BinaryTree.C16_mince_points]; rw [← mem_paving]
  have hr : ∀ (l : L) (p : Paving), p.WF → (⟨p.extent, p.tree.recombine⟩ : Paving).WF ∧
      (⟨p.extent, p.tree.recombine⟩ : Paving).points K (G.dim l) = p.points K (G.dim l) := by
    intro l p hp
    refine ⟨(Ariadne.BinaryTree.C15_invariant p.tree p.tree [] 0 hp hp).2.2.2.2.2.2.2.1, ?_⟩
    ext x; rw [mem_paving]; simp only [Ariadne.BinaryTree.C16_recombine_points]; rw [← mem_paving]
  refine ⟨⟨mapAll_wf (f := fun _ _ => Paving.init false) hw fun _ _ _ => Or.inr rfl, ?_⟩, ⟨mapAll_wf hw ?_, ?_⟩, ⟨mapAll_wf hw ?_, ?_⟩,
    ⟨mapAll_wf hw fun l p hp => (hr l p hp).1, ?_⟩⟩
  · intro l
    exact mapAll_points (f := fun _ _ => Paving.init false) hw (fun _ _ _ => Or.inr rfl) l (fun _ => ∅) rfl (fun p hp => C19_init.1)
  · exact fun l p hp => (C19_restrict_to_extent (K := ℚ) (d := G.dim l) p n hp).1
  · intro l
    exact mapAll_points hw (fun l p hp => (C19_restrict_to_extent (K := K) (d := G.dim l) p n hp).1) l
      (fun A => A ∩ Cell.points K (G.dim l) ⟨n, []⟩) (by simp)
      (fun p hp => (C19_restrict_to_extent (K := K) (d := G.dim l) p n hp).2)
  · exact fun l p hp => (hm l p _ hp).1
  · intro l
    exact mapAll_points hw (fun l p hp => (hm l p _ hp).1) l id rfl (fun p hp => (hm l p _ hp).2)
  · intro l
    exact mapAll_points hw (fun l p hp => (hr l p hp).1) l id rfl (fun p hp => (hr l p hp).2)

/-- After `mince(n)` every cell has side at most `1/2^n` in lattice coordinates: its word has at least
`(extent+n)*dimension` bits. -/
theorem C66_mince_fine (G : HGrid L) (h : HPaving L) (hw : HWF G h) (n : ℕ) (l : L) (p : Paving)
    (hp : (l, p) ∈ hMince G n h) (w : List Bool) (hwd : p.tree.leafAt w = some .true_) :
    (p.extent + n) * G.dim l ≤ w.length := by
  obtain ⟨⟨l', p'⟩, he, heq⟩ := List.mem_map.1 hp
  cases heq
  exact Ariadne.BinaryTree.C16_mince_depth p'.tree _ (hw.wf _ he) w hwd

/-- **`is_empty`** holds exactly if every location is empty. -/
theorem C66_is_empty (G : HGrid L) (h : HPaving L) : hIsEmpty h = true ↔ ∀ l, hPoints K G h l = ∅ := by
  have key : hIsEmpty h = true ↔ ∀ e ∈ h, e.2.sub.isEmpty = true := by
    induction h with
    | nil => simp [hIsEmpty]
    | cons e h ih =>
      simp only [hIsEmpty, List.forall_mem_cons]
      cases e.2.sub.isEmpty <;> simp [ih]
  rw [key]
  constructor
  · intro he l
    ext x
    simp only [hPoints, Set.mem_setOf_eq, Set.mem_empty_iff_false, iff_false]
    rintro ⟨p, hp, hx⟩
    have := (C20_is_empty (K := K) (d := G.dim l) p.sub).1 (he _ hp)
    rw [Paving.sub_points] at this
    rw [this] at hx
    exact hx
  · rintro hl ⟨l, p⟩ he
    rw [C20_is_empty (K := K) (d := G.dim l), Paving.sub_points]
    ext x
    simp only [Set.mem_empty_iff_false, iff_false]
    intro hx
    have : x ∈ hPoints K G h l := ⟨p, he, hx⟩
    rw [hl l] at this
    exact this

/-- **The constant `operator[]`** returns the paving of a location of the grid and does not change the points of any
location.  It does change the paving: the location gets an entry. -/
theorem C66_lookup (G : HGrid L) (q : L) (h : HPaving L) (hw : HWF G h) :
    (G.known q = true → ∃ p h', hGet G q h = some (p, h') ∧ HWF G h' ∧ p.points K (G.dim q) = hPoints K G h q ∧
      (∀ l, hPoints K G h' l = hPoints K G h l) ∧
      (∀ l, hNontrivial l h' = true ↔ hNontrivial l h = true ∨ l = q)) ∧
    (G.known q = false → hGet G q h = none) := by
  constructor
  · intro hq
    unfold hGet
    rw [if_pos hq]
    cases e : find q h with
    | some p =>
      refine ⟨p, h, rfl, hw, ?_, fun _ => rfl, fun l => ⟨Or.inl, ?_⟩⟩
      · rw [hPoints_eq hw.sorted, cur, e, Option.getD_some]
      · rintro (h1 | rfl)
        · exact h1
        · rw [hNontrivial, hasKey, e]; rfl
    | none =>
      have hid : updateAt G q some h = some (mset q (Paving.init false) (minsert q (Paving.init false) h)) := by
        simp [updateAt, e, hq]
      have hc : cur h q = Paving.init false := by rw [cur, e]; rfl
      obtain ⟨h', e1, w1, s1⟩ := updateAt_spec G q some h hw hq (r := Paving.init false) (by rw [hc]) (Or.inr rfl)
      rw [hid] at e1
      have hsame : mset q (Paving.init false) (minsert q (Paving.init false) h) = minsert q (Paving.init false) h := by
        refine SortedKeys.ext hw.sorted.minsert.mset hw.sorted.minsert fun k => ?_
        rw [find_mset hw.sorted.minsert, find_minsert hw.sorted]
        split_ifs
        · simp [e]
        · rfl
      rw [hsame] at e1
      cases e1
      refine ⟨_, _, rfl, w1, ?_, fun l => ?_, fun l => ?_⟩
      · rw [hPoints_eq hw.sorted, hc]
      · rw [hPoints_eq w1.sorted, hPoints_eq hw.sorted, cur, s1 l]
        split_ifs with hl
        · subst hl; rw [hc]; rfl
        · rfl
      · simp only [hNontrivial, hasKey, s1 l]
        split_ifs with hl
        · simp [hl]
        · simp [hl]
  · intro hq
    simp [hGet, hq]

end Verif.Hybrid
