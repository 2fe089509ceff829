import Verif.BinaryTree.Lemmas
import Verif.BinaryWord.Model
/-!
# Properties C15-C17: binary trees
-/
namespace Ariadne.BinaryTree
open Ariadne.Logical (LV)
open Ariadne.Logical.LV
open Tree

/-- A non-trivial tree used to show that hypotheses can be met:
enabled at 00 and 1, disabled at 01. -/
def sample : Tree := .node indeterminate (.node indeterminate (.leaf true_) (.leaf false_)) (.leaf true_)

/-! ## C15 set algebra -/

/-- C15: `has_enabled` decides non-emptiness. -/
theorem C15_hasEnabled (t : Tree) : t.hasEnabled = true ↔ t.points.Nonempty := mem_hasEnabled t

/-- C15: `all_enabled` decides fullness. -/
theorem C15_allEnabled (t : Tree) : t.allEnabled = true ↔ t.points = Set.univ := by
  rw [mem_allEnabled, Set.eq_univ_iff_forall]

/-- C15: `is_enabled(path)` decides whether the whole cell at `path` belongs to the set. -/
theorem C15_isEnabledAt (t : Tree) (path : List Bool) :
    t.isEnabledAt path = true ↔ ∀ p, Extends p path → p ∈ t.points := by
  induction t generalizing path with
  | leaf v =>
    simp only [isEnabledAt, mem_leaf, definitely_iff]
    refine ⟨fun h _ _ => h, fun h => ?_⟩
    obtain ⟨p, hp, _⟩ := exists_extends path (fun _ => false)
    exact h p hp
  | node v l r ihl ihr =>
    cases path with
    | nil =>
      simp only [isEnabledAt, mem_allEnabled]
      exact ⟨fun h p _ => h p, fun h p => h p (extends_nil p)⟩
    | cons b path =>
      rw [forall_path]
      cases b <;>
        simp [isEnabledAt, ihl, ihr, mem_node, extends_cons]

/-- C15: `restrict` computes the intersection. -/
theorem C15_restrict (t u : Tree) : (t.restrict u).points = t.points ∩ u.points := by
  ext p
  rw [Set.mem_inter_iff]
  induction t generalizing u p with
  | leaf v =>
    cases u with
    | leaf w =>
      simp only [restrict, mem_leaf]
      cases v <;> cases w <;> simp [and_, code]
    | node w l r =>
      simp only [restrict]
      split
      next h => simp [mem_leaf, definitely_iff.1 h]
      next h => simp only [mem_leaf]; rw [definitely_iff] at h; simp [h]
  | node v l r ihl ihr =>
    cases u with
    | leaf w =>
      simp only [restrict]
      split
      next h => simp [mem_leaf, definitely_iff.1 h]
      next h => rw [definitely_iff] at h; simp [mem_leaf, h]
    | node w l' r' =>
      simp only [restrict, mem_node]
      split
      · exact ihr _ _
      · exact ihl _ _

/-- C15: `remove` computes the difference. -/
theorem C15_remove (t u : Tree) : (t.remove u).points = t.points \ u.points := by
  ext p
  rw [Set.mem_sdiff]
  induction u generalizing t p with
  | leaf w =>
    cases t with
    | leaf v =>
      simp only [remove]
      cases v <;> cases w <;> simp [mem_leaf, definitely]
    | node v l r =>
      simp only [remove]
      split
      next h => simp [mem_leaf, definitely_iff.1 h]
      next h => rw [definitely_iff] at h; simp [mem_leaf, h]
  | node w l' r' ihl ihr =>
    cases t with
    | leaf v =>
      simp only [remove]
      split
      next h =>
        rw [definitely_iff] at h
        subst h
        simp only [mem_node]
        split
        · rw [ihr]; simp [mem_leaf]
        · rw [ihl]; simp [mem_leaf]
      next h => rw [definitely_iff] at h; simp [mem_leaf, h]
    | node v l r =>
      simp only [remove, mem_node]
      split
      · exact ihr _ _
      · exact ihl _ _

/-- C15: `add_enabled(tree)` computes the union. -/
theorem C15_addEnabled (t u : Tree) : (t.addEnabled u).points = t.points ∪ u.points := by
  ext p
  rw [Set.mem_union]
  induction t generalizing u p with
  | leaf v =>
    cases u with
    | leaf w =>
      simp only [addEnabled]
      cases v <;> cases w <;> simp [mem_leaf, definitely]
    | node w l r =>
      simp only [addEnabled]
      split
      next h => simp [mem_leaf, definitely_iff.1 h]
      next h => rw [definitely_iff] at h; simp [mem_leaf, mem_node, h]
  | node v l r ihl ihr =>
    cases u with
    | leaf w =>
      simp only [addEnabled]
      split
      next h => simp [mem_leaf, definitely_iff.1 h]
      next h => rw [definitely_iff] at h; simp [mem_leaf, h]
    | node w l' r' =>
      simp only [addEnabled, mem_node]
      split
      · exact ihr _ _
      · exact ihl _ _

/-- C15: `add_enabled(path)` adds exactly the cell at `path`. -/
theorem C15_addEnabledPath (t : Tree) (path : List Bool) :
    (t.addEnabledPath path).points = t.points ∪ {p | Extends p path} := by
  ext p
  rw [Set.mem_union, Set.mem_setOf_eq]
  induction path generalizing t p with
  | nil => simp [addEnabledPath, mem_leaf, extends_nil]
  | cons b path ih =>
    cases t with
    | leaf v =>
      simp only [addEnabledPath]
      split
      next h => simp [mem_leaf, definitely_iff.1 h]
      next h =>
        cases b <;> cases hp : p 0 <;>
          simp [mem_node, hp, extends_cons, ih, mem_leaf]
    | node v l r =>
      simp only [addEnabledPath]
      cases b <;> cases hp : p 0 <;> simp [mem_node, hp, extends_cons, ih]

/-- C15: `add_enabled(subtree,path)` adds exactly the subtree's set inside the cell at `path`
(for trees satisfying the documented invariant). -/
theorem C15_addEnabledSubtree (t sub : Tree) (path : List Bool) (ht : t.WF) :
    (addEnabledSubtree sub path t).points =
      t.points ∪ {p | Extends p path ∧ p.drop path.length ∈ sub.points} := by
  ext p
  rw [Set.mem_union, Set.mem_setOf_eq]
  induction path generalizing t p with
  | nil =>
    have hd : p.drop 0 = p := by funext i; simp [Path.drop]
    simp only [addEnabledSubtree, extends_nil, true_and, List.length_nil, hd]
    split
    next h =>
      cases t with
      | leaf v => simp [isEnabled, flag, definitely_iff] at h; simp [mem_leaf, h]
      | node v l r => simp [isEnabled, flag, definitely_iff, ht.1] at h
    next h => rw [C15_addEnabled, Set.mem_union]
  | cons b path ih =>
    have hd : p.drop (path.length + 1) = (p.drop 1).drop path.length := by
      rw [drop_drop, Nat.add_comm]
    simp only [List.length_cons, extends_cons, hd]
    cases t with
    | leaf v =>
      simp only [addEnabledSubtree]
      split
      next h => simp [isEnabled, flag, definitely_iff] at h; simp [mem_leaf, h]
      next h =>
        cases b <;> cases hp : p 0 <;> simp [mem_node, hp, ih _ ht, mem_leaf]
    | node v l r =>
      have hne : (node v l r).isEnabled = false := by
        simp [isEnabled, flag, definitely_false_iff, ht.1]
      simp only [addEnabledSubtree, hne]
      cases b <;> cases hp : p 0 <;>
        simp [mem_node, hp, ih _ ht.2.1, ih _ ht.2.2]

/-- C15: `prepend_tree` places the set of a tree inside the cell at a (non-empty) path. -/
theorem C15_prepend (t : Tree) (path : List Bool) (hne : path ≠ []) :
    ∃ s, Tree.prepend path t = some s ∧
      s.points = {p | Extends p path ∧ p.drop path.length ∈ t.points} := by
  induction path with
  | nil => exact absurd rfl hne
  | cons b path ih =>
    cases path with
    | nil =>
      refine ⟨_, rfl, ?_⟩
      ext p
      cases b <;> cases hp : p 0 <;>
        simp [mem_node, hp, extends_cons, extends_nil, mem_leaf]
    | cons c path =>
      obtain ⟨s, hs, hpts⟩ := ih (by simp)
      refine ⟨_, by rw [Tree.prepend, hs]; rfl, ?_⟩
      ext p
      have hd : p.drop (path.length + 1 + 1) = (p.drop 1).drop (path.length + 1) := by
        rw [drop_drop, Nat.add_comm]
      have hm : ∀ q, q ∈ s.points ↔ Extends q (c :: path) ∧ q.drop (path.length + 1) ∈ t.points := by
        intro q; rw [hpts]; rfl
      simp only [List.length_cons, Set.mem_setOf_eq, hd]
      rw [extends_cons p b]
      cases b <;> cases hp : p 0 <;> simp [mem_node, hp, mem_leaf, hm]

/-- C15: `intersect` decides whether the sets have a common point. -/
theorem C15_intersect (t u : Tree) : t.intersect u = true ↔ (t.points ∩ u.points).Nonempty := by
  simp only [Set.Nonempty, Set.mem_inter_iff]
  induction t generalizing u with
  | leaf v =>
    cases u with
    | leaf w =>
      simp only [Tree.intersect, mem_leaf, Bool.and_eq_true, definitely_iff]
      exact ⟨fun h => ⟨fun _ => false, h⟩, fun ⟨_, h⟩ => h⟩
    | node w l r =>
      simp only [Tree.intersect, Bool.and_eq_true, definitely_iff, mem_hasEnabled, mem_leaf]
      exact ⟨fun ⟨h, p, hp⟩ => ⟨p, h, hp⟩, fun ⟨p, h, hp⟩ => ⟨h, p, hp⟩⟩
  | node v l r ihl ihr =>
    cases u with
    | leaf w =>
      simp only [Tree.intersect, Bool.and_eq_true, definitely_iff, mem_hasEnabled, mem_leaf]
      exact ⟨fun ⟨h, p, hp⟩ => ⟨p, hp, h⟩, fun ⟨p, hp, h⟩ => ⟨h, p, hp⟩⟩
    | node w l' r' =>
      rw [exists_path]
      simp [Tree.intersect, ihl, ihr, mem_node]

/-- C15: `subset` decides inclusion. -/
theorem C15_subset (t u : Tree) : t.subset u = true ↔ t.points ⊆ u.points := by
  simp only [Set.subset_def]
  induction t generalizing u with
  | leaf v =>
    cases u with
    | leaf w =>
      simp only [Tree.subset, mem_leaf, Bool.or_eq_true, Bool.not_eq_true', definitely_false_iff,
        definitely_iff]
      refine ⟨fun h _ hv => h.resolve_left (fun hn => hn hv), fun h => ?_⟩
      by_cases hv : v = true_
      · exact Or.inr (h (fun _ => false) hv)
      · exact Or.inl hv
    | node w l r =>
      simp only [Tree.subset, mem_leaf, Bool.or_eq_true, Bool.not_eq_true', definitely_false_iff,
        mem_allEnabled]
      refine ⟨fun h p hv => h.resolve_left (fun hn => hn hv) p, fun h => ?_⟩
      by_cases hv : v = true_
      · exact Or.inr (fun p => h p hv)
      · exact Or.inl hv
  | node v l r ihl ihr =>
    cases u with
    | leaf w =>
      simp only [Tree.subset, mem_leaf, Bool.or_eq_true, Bool.not_eq_true', definitely_iff]
      have := mem_hasEnabled (node v l r)
      constructor
      · rintro (h | h) p hp
        · exact h
        · rw [this.2 ⟨p, hp⟩] at h; cases h
      · intro h
        cases hh : (node v l r).hasEnabled with
        | false => exact Or.inr rfl
        | true => obtain ⟨p, hp⟩ := this.1 hh; exact Or.inl (h p hp)
    | node w l' r' =>
      rw [forall_path]
      simp [Tree.subset, ihl, ihr, mem_node]

/-- C15: every update keeps the documented representation invariant. -/
theorem C15_invariant (t u : Tree) (path : List Bool) (n : Nat) (ht : t.WF) (hu : u.WF) :
    (t.restrict u).WF ∧ (t.remove u).WF ∧ (t.addEnabled u).WF ∧ (t.addEnabledPath path).WF ∧
    (addEnabledSubtree u path t).WF ∧ t.split.WF ∧ (t.mince n).WF ∧ t.recombine.WF ∧
    (∀ s, Tree.prepend path t = some s → s.WF) := by
  have hadd : ∀ t u : Tree, t.WF → u.WF → (t.addEnabled u).WF := by
    intro t
    induction t with
    | leaf v =>
      intro u ht hu
      cases u with
      | leaf w => simp only [addEnabled]; split <;> [exact ht; (split <;> [exact Or.inl rfl; exact ht])]
      | node w l r => simp only [addEnabled]; split <;> [exact ht; exact ⟨rfl, hu.2⟩]
    | node v l r ihl ihr =>
      intro u ht hu
      cases u with
      | leaf w => simp only [addEnabled]; split <;> [exact Or.inl rfl; exact ht]
      | node w l' r' => exact ⟨ht.1, ihl _ ht.2.1 hu.2.1, ihr _ ht.2.2 hu.2.2⟩
  refine ⟨?_, ?_, hadd t u ht hu, ?_, ?_, ?_, ?_, ?_, ?_⟩
  · induction t generalizing u with
    | leaf v =>
      cases u with
      | leaf w =>
        simp only [restrict, WF] at ht hu ⊢
        rcases ht with rfl | rfl <;> rcases hu with rfl | rfl <;> decide
      | node w l r => simp only [restrict]; split <;> [exact hu; exact ht]
    | node v l r ihl ihr =>
      cases u with
      | leaf w => simp only [restrict]; split <;> [exact ht; exact Or.inr rfl]
      | node w l' r' => exact ⟨ht.1, ihl _ ht.2.1 hu.2.1, ihr _ ht.2.2 hu.2.2⟩
  · induction u generalizing t with
    | leaf w =>
      cases t with
      | leaf v => simp only [remove]; split <;> [exact Or.inr rfl; exact ht]
      | node v l r => simp only [remove]; split <;> [exact Or.inr rfl; exact ht]
    | node w l' r' ihl ihr =>
      cases t with
      | leaf v => simp only [remove]; split <;> [exact ⟨rfl, ihl _ ht hu.2.1, ihr _ ht hu.2.2⟩; exact ht]
      | node v l r => exact ⟨ht.1, ihl _ ht.2.1 hu.2.1, ihr _ ht.2.2 hu.2.2⟩
  · induction path generalizing t with
    | nil => exact Or.inl rfl
    | cons b path ih =>
      cases t with
      | leaf v =>
        simp only [addEnabledPath]
        split
        · exact ht
        · split <;> [exact ⟨rfl, ht, ih _ ht⟩; exact ⟨rfl, ih _ ht, ht⟩]
      | node v l r =>
        simp only [addEnabledPath]
        split <;> [exact ⟨ht.1, ht.2.1, ih _ ht.2.2⟩; exact ⟨ht.1, ih _ ht.2.1, ht.2.2⟩]
  · induction path generalizing t with
    | nil => simp only [addEnabledSubtree]; split <;> [exact ht; exact hadd _ _ ht hu]
    | cons b path ih =>
      cases t with
      | leaf v =>
        simp only [addEnabledSubtree]
        split
        · exact ht
        · split <;> [exact ⟨rfl, ht, ih _ ht⟩; exact ⟨rfl, ih _ ht, ht⟩]
      | node v l r =>
        simp only [addEnabledSubtree]
        split
        · exact ht
        · split <;> [exact ⟨ht.1, ht.2.1, ih _ ht.2.2⟩; exact ⟨ht.1, ih _ ht.2.1, ht.2.2⟩]
  · cases t with
    | leaf v => exact ⟨rfl, ht, ht⟩
    | node v l r => exact ht
  · induction n generalizing t with
    | zero => exact ht
    | succ n ih =>
      simp only [mince]
      split
      · exact ht
      · cases t with
        | leaf v => exact ⟨rfl, ih _ ht, ih _ ht⟩
        | node v l r => exact ⟨ht.1, ih _ ht.2.1, ih _ ht.2.2⟩
  · induction t with
    | leaf v => exact ht
    | node v l r ihl ihr =>
      have hl := ihl ht.2.1
      have hr := ihr ht.2.2
      simp only [recombine]
      split
      next a b ha hb =>
        rw [ha] at hl; rw [hb] at hr
        split <;> [exact hl; exact ⟨ht.1, hl, hr⟩]
      next => exact ⟨ht.1, hl, hr⟩
  · induction path with
    | nil => simp [Tree.prepend]
    | cons b path ih =>
      cases path with
      | nil =>
        intro s hs
        simp only [Tree.prepend, Option.some.injEq] at hs
        subst hs
        split <;> [exact ⟨rfl, Or.inr rfl, ht⟩; exact ⟨rfl, ht, Or.inr rfl⟩]
      | cons c path =>
        intro s hs
        simp only [Tree.prepend, Option.map_eq_some_iff] at hs
        obtain ⟨s', hs', rfl⟩ := hs
        split <;> [exact ⟨rfl, Or.inr rfl, ih _ hs'⟩; exact ⟨rfl, ih _ hs', Or.inr rfl⟩]

/-- Non-vacuity of the C15 hypotheses: a well-formed tree with a non-trivial set. -/
example : sample.WF ∧ sample.hasEnabled = true ∧ sample.allEnabled = false ∧
    sample.isEnabledAt [false, true, true] = false ∧ sample.isEnabledAt [true, true] = true ∧
    sample.intersect (.node indeterminate (.leaf false_) (.leaf true_)) = true ∧
    sample.subset (.leaf true_) = true := by
  refine ⟨?_, by decide⟩
  simp [sample, WF]

/-! ## C16 mince, split, recombine -/

/-- C16: `split` preserves the set. -/
theorem C16_split (t : Tree) : t.split.points = t.points := by
  ext p
  cases t with
  | leaf v => simp [split, mem_node, mem_leaf]
  | node v l r => rfl

/-- C16: `mince` preserves the set. -/
theorem C16_mince_points (t : Tree) (d : Nat) : (t.mince d).points = t.points := by
  ext p
  induction d generalizing t p with
  | zero => rfl
  | succ d ih =>
    simp only [mince]
    split
    · rfl
    · cases t with
      | leaf v => simp [mem_node, ih, mem_leaf]
      | node v l r => simp [mem_node, ih]

/-- C16: after `mince(d)` every enabled leaf lies at depth at least `d`. -/
theorem C16_mince_depth (t : Tree) (d : Nat) (ht : t.WF) (w : List Bool)
    (hw : (t.mince d).leafAt w = some true_) : d ≤ w.length := by
  induction d generalizing t w with
  | zero => omega
  | succ d ih =>
    simp only [mince] at hw
    split at hw
    next hdis =>
      cases t with
      | leaf v =>
        cases w <;> simp [leafAt] at hw
        subst hw; simp [isDisabled, flag, possibly] at hdis
      | node v l r => simp [isDisabled, flag, ht.1, possibly] at hdis
    next hdis =>
      cases t with
      | leaf v =>
        cases w with
        | nil => simp [leafAt] at hw
        | cons b w =>
          cases b <;> simp [leafAt] at hw <;> have := ih _ ht w hw <;> simp <;> omega
      | node v l r =>
        cases w with
        | nil => simp [leafAt] at hw
        | cons b w =>
          cases b <;> simp [leafAt] at hw
          · have := ih _ ht.2.1 w hw; simp; omega
          · have := ih _ ht.2.2 w hw; simp; omega

/-- C16: `recombine` preserves the set. -/
theorem C16_recombine_points (t : Tree) : t.recombine.points = t.points := by
  ext p
  induction t generalizing p with
  | leaf v => rfl
  | node v l r ihl ihr =>
    have key : p ∈ (node v l.recombine r.recombine).points ↔ p ∈ (node v l r).points := by
      simp [mem_node, ihl, ihr]
    rw [← key]
    simp only [recombine]
    split
    next a b ha hb =>
      rw [ha, hb]
      split
      next h =>
        rw [definitely_iff] at h
        simp only [mem_leaf, mem_node]
        cases a <;> cases b <;> simp [eq_, not_] at h ⊢
      next => rfl
    next => rfl

/-- No two sibling leaves carry the same definite flag. -/
def NoEqualSiblings : Tree → Prop
  | .leaf _ => True
  | .node _ l r => NoEqualSiblings l ∧ NoEqualSiblings r ∧
      ∀ v, (v = true_ ∨ v = false_) → ¬ (l = .leaf v ∧ r = .leaf v)

/-- C16: after `recombine` no two sibling leaves are both enabled or both disabled. -/
theorem C16_recombine_minimal (t : Tree) : NoEqualSiblings t.recombine := by
  induction t with
  | leaf v => trivial
  | node v l r ihl ihr =>
    simp only [recombine]
    split
    next a b ha hb =>
      split
      next => trivial
      next h =>
        refine ⟨trivial, trivial, ?_⟩
        rintro v (rfl | rfl) ⟨h1, h2⟩ <;> cases h1 <;> cases h2 <;> exact h (by decide)
    next hno =>
      exact ⟨ihl, ihr, fun v _ ⟨h1, h2⟩ => hno v v h1 h2⟩

theorem full_of_minimal {t : Tree} (ht : t.WF) (hm : NoEqualSiblings t) :
    (t.points = Set.univ → t = .leaf true_) ∧ (t.points = ∅ → t = .leaf false_) := by
  induction t with
  | leaf v =>
    constructor
    · intro h
      have := (mem_leaf v (fun _ => false)).1 (h ▸ Set.mem_univ _)
      rw [this]
    · intro h
      rcases ht with rfl | rfl
      · have : (fun _ => false : Path) ∈ (∅ : Set Path) := h ▸ (mem_leaf true_ _).2 rfl
        exact absurd this (Set.notMem_empty _)
      · rfl
  | node v l r ihl ihr =>
    have il := ihl ht.2.1 hm.1
    have ir := ihr ht.2.2 hm.2.1
    constructor
    · intro h
      have hl : l.points = Set.univ := Set.eq_univ_of_forall fun p => by
        have : Tree.cons false p ∈ (node v l r).points := h ▸ Set.mem_univ _
        simpa [mem_node] using this
      have hr : r.points = Set.univ := Set.eq_univ_of_forall fun p => by
        have : Tree.cons true p ∈ (node v l r).points := h ▸ Set.mem_univ _
        simpa [mem_node] using this
      exact absurd ⟨il.1 hl, ir.1 hr⟩ (hm.2.2 true_ (Or.inl rfl))
    · intro h
      have hl : l.points = ∅ := Set.eq_empty_of_forall_notMem fun p hp => by
        have : Tree.cons false p ∈ (node v l r).points := by simpa [mem_node] using hp
        rw [h] at this; exact this
      have hr : r.points = ∅ := Set.eq_empty_of_forall_notMem fun p hp => by
        have : Tree.cons true p ∈ (node v l r).points := by simpa [mem_node] using hp
        rw [h] at this; exact this
      exact absurd ⟨il.2 hl, ir.2 hr⟩ (hm.2.2 false_ (Or.inr rfl))

/-- C16: recombined trees are canonical: two trees denote the same set iff `recombine` turns them
into the same tree. -/
theorem C16_recombine_canonical (t u : Tree) (ht : t.WF) (hu : u.WF) :
    t.points = u.points ↔ t.recombine = u.recombine := by
  constructor
  · intro h
    rw [← C16_recombine_points t, ← C16_recombine_points u] at h
    have wt := (C15_invariant t t [] 0 ht ht).2.2.2.2.2.2.2.1
    have wu := (C15_invariant u u [] 0 hu hu).2.2.2.2.2.2.2.1
    have mt := C16_recombine_minimal t
    have mu := C16_recombine_minimal u
    revert h wt wu mt mu
    generalize t.recombine = s
    generalize u.recombine = s'
    clear ht hu t u
    induction s generalizing s' with
    | leaf v =>
      intro h wt wu mt mu
      have := full_of_minimal wu mu
      rcases wt with rfl | rfl
      · refine (this.1 ?_).symm
        rw [← h]; exact Set.eq_univ_of_forall fun p => (mem_leaf _ p).2 rfl
      · refine (this.2 ?_).symm
        rw [← h]; exact Set.eq_empty_of_forall_notMem fun p hp => by
          have := (mem_leaf _ p).1 hp; cases this
    | node v l r ihl ihr =>
      intro h wt wu mt mu
      cases s' with
      | leaf w =>
        have := full_of_minimal wt mt
        rcases wu with rfl | rfl
        · refine this.1 ?_
          rw [h]; exact Set.eq_univ_of_forall fun p => (mem_leaf _ p).2 rfl
        · refine this.2 ?_
          rw [h]; exact Set.eq_empty_of_forall_notMem fun p hp => by
            have := (mem_leaf _ p).1 hp; cases this
      | node w l' r' =>
        have hl : l.points = l'.points := by
          ext p
          have : Tree.cons false p ∈ (node v l r).points ↔ Tree.cons false p ∈ (node w l' r').points := by rw [h]
          simpa [mem_node] using this
        have hr : r.points = r'.points := by
          ext p
          have : Tree.cons true p ∈ (node v l r).points ↔ Tree.cons true p ∈ (node w l' r').points := by rw [h]
          simpa [mem_node] using this
        rw [wt.1, wu.1, ihl _ hl wt.2.1 wu.2.1 mt.1 mu.1, ihr _ hr wt.2.2 wu.2.2 mt.2.1 mu.2.1]
  · intro h
    rw [← C16_recombine_points t, h, C16_recombine_points u]

/-- Non-vacuity: mincing then recombining a concrete tree. -/
example : sample.mince 2 ≠ sample ∧ (sample.mince 2).recombine = sample := by decide

/-! ## C17 serialisation, counting, equality -/

theorem restoreNode_toWords (t : Tree) (flag : LV) (ht : t.WF) (rest rest' tr cells : List Bool)
    (htr : tr = t.toWords.1 ++ rest) (hcells : cells = t.toWords.2 ++ rest') :
    ∃ h, restoreNode flag tr cells = some ⟨(t, rest, rest'), h⟩ := by
  induction t generalizing rest rest' tr cells with
  | leaf v =>
    subst htr; subst hcells
    rcases ht with rfl | rfl <;> simp [toWords, definitely, restoreNode, ofBool]
  | node v l r ihl ihr =>
    obtain ⟨h1, hl⟩ := ihl ht.2.1 (r.toWords.1 ++ rest) (r.toWords.2 ++ rest') _ _
      (List.append_assoc _ _ _) (List.append_assoc _ _ _)
    obtain ⟨h2, hr⟩ := ihr ht.2.2 rest rest' _ _ rfl rfl
    subst htr; subst hcells
    simp only [toWords, List.cons_append, restoreNode, hl, hr, ht.1]
    exact ⟨by simp; omega, trivial⟩

/-- C17: rebuilding a tree from its two bit arrays gives back the tree. -/
theorem C17_roundtrip (t : Tree) (ht : t.WF) : ofWords t.toWords.1 t.toWords.2 = some t := by
  obtain ⟨hx, h⟩ := restoreNode_toWords t false_ ht [] [] t.toWords.1 t.toWords.2 (by simp) (by simp)
  have hl : t.toWords.1.length > 0 ∧ t.toWords.2.length > 0 := by
    clear h hx ht
    induction t with
    | leaf v => simp [toWords]
    | node v l r ihl ihr =>
      have := ihl.2
      simp only [toWords, List.length_cons, List.length_append]; omega
  simp only [ofWords, hl, and_self, if_true, h, Option.map_some]

/-- C17: distinct (well-formed) trees have distinct serialisations. -/
theorem C17_serialisation_injective (t u : Tree) (ht : t.WF) (hu : u.WF) (h : t.toWords = u.toWords) :
    t = u := by
  have h1 := C17_roundtrip t ht
  rw [h, C17_roundtrip u hu] at h1
  exact (Option.some.inj h1).symm

/-- C17: restoring never reads outside the arrays when there are at least as many leaf flags as
leaf marks in the structure array. -/
theorem C17_restore_defined (tr cells : List Bool) (h : tr.count false ≤ cells.length) :
    (ofWords tr cells).isSome = true := by
  have key : ∀ (n : Nat) (tr cells : List Bool) (fl : LV), tr.length ≤ n → tr.count false ≤ cells.length →
      ∃ p, restoreNode fl tr cells = some p ∧ p.1.2.1.count false ≤ p.1.2.2.length := by
    intro n
    induction n with
    | zero =>
      intro tr cells fl hn _
      obtain rfl : tr = [] := List.length_eq_zero_iff.1 (by omega)
      exact ⟨_, by rw [restoreNode], by simp⟩
    | succ n ih =>
      intro tr cells fl hn hc
      cases tr with
      | nil => exact ⟨_, by rw [restoreNode], by simp⟩
      | cons b tr =>
        cases b with
        | false =>
          cases cells with
          | nil => simp at hc
          | cons c cs => exact ⟨_, by rw [restoreNode], by simpa using hc⟩
        | true =>
          obtain ⟨⟨p, hp1⟩, hp, hpc⟩ := ih tr cells fl (by simpa using hn) (by simpa using hc)
          obtain ⟨⟨q, hq1⟩, hq, hqc⟩ := ih p.2.1 p.2.2 fl (by simp at hn hp1; omega) hpc
          refine ⟨⟨(node indeterminate p.1 q.1, q.2.1, q.2.2), ?_⟩, ?_, hqc⟩
          · simp at hp1 hq1 ⊢; omega
          · rw [restoreNode]
            simp only [hp, hq]
  simp only [ofWords]
  split
  · obtain ⟨p, hp, _⟩ := key _ tr cells false_ (Nat.le_refl _) h
    simp [hp]
  · rfl

/-- C17: the enumeration of enabled leaves lists each enabled leaf exactly once. -/
theorem C17_enumeration (t : Tree) :
    (∀ w, w ∈ t.enabledLeaves ↔ t.leafAt w = some true_) ∧ t.enabledLeaves.Nodup := by
  induction t with
  | leaf v =>
    constructor
    · intro w
      cases w <;> simp only [enabledLeaves, leafAt] <;> split <;> simp_all
    · simp only [enabledLeaves]; split <;> simp
  | node v l r ihl ihr =>
    constructor
    · intro w
      cases w with
      | nil => simp [enabledLeaves, leafAt]
      | cons b w =>
        cases b <;> simp [enabledLeaves, leafAt, ihl.1, ihr.1]
    · simp only [enabledLeaves]
      rw [List.nodup_append]
      refine ⟨?_, ?_, ?_⟩
      · exact (List.pairwise_map.2 (ihl.2.imp (fun h e => h (by simpa using e))))
      · exact (List.pairwise_map.2 (ihr.2.imp (fun h e => h (by simpa using e))))
      · intro a ha b hb
        simp only [List.mem_map] at ha hb
        obtain ⟨x, _, rfl⟩ := ha
        obtain ⟨y, _, rfl⟩ := hb
        simp

/-- C17: enabled leaves are enumerated in increasing order of binary words. -/
theorem C17_enumeration_sorted (t : Tree) :
    t.enabledLeaves.Pairwise (fun v w => BinaryWord.lt v w = true) := by
  induction t with
  | leaf v => simp only [enabledLeaves]; split <;> simp
  | node v l r ihl ihr =>
    simp only [enabledLeaves]
    rw [List.pairwise_append]
    refine ⟨List.pairwise_map.2 (ihl.imp (fun h => by simpa [BinaryWord.lt] using h)),
      List.pairwise_map.2 (ihr.imp (fun h => by simpa [BinaryWord.lt] using h)), ?_⟩
    intro a ha b hb
    simp only [List.mem_map] at ha hb
    obtain ⟨x, _, rfl⟩ := ha
    obtain ⟨y, _, rfl⟩ := hb
    simp [BinaryWord.lt]

/-- C17: `count_enabled_leaf_nodes` is the number of enabled leaves. -/
theorem C17_count (t : Tree) : t.countEnabled = t.enabledLeaves.length := by
  induction t with
  | leaf v => cases v <;> simp [countEnabled, enabledLeaves, definitely]
  | node v l r ihl ihr => simp [countEnabled, enabledLeaves, ihl, ihr]

/-- C17: `depth` is the largest depth of a leaf. -/
theorem C17_depth (t : Tree) :
    (∀ w v, t.leafAt w = some v → w.length ≤ t.depth) ∧ ∃ w v, t.leafAt w = some v ∧ w.length = t.depth := by
  induction t with
  | leaf v =>
    refine ⟨fun w v h => ?_, [], v, rfl, rfl⟩
    cases w <;> simp [leafAt] at h ⊢
  | node v l r ihl ihr =>
    constructor
    · intro w v' h
      cases w with
      | nil => simp [leafAt] at h
      | cons b w =>
        cases b <;> simp only [leafAt] at h
        · have := ihl.1 w v' (by simpa using h); simp [depth]; omega
        · have := ihr.1 w v' (by simpa using h); simp [depth]; omega
    · by_cases hlr : r.depth ≤ l.depth
      · obtain ⟨w, v', h, hd⟩ := ihl.2
        exact ⟨false :: w, v', by simpa [leafAt] using h, by simp [depth]; omega⟩
      · obtain ⟨w, v', h, hd⟩ := ihr.2
        exact ⟨true :: w, v', by simpa [leafAt] using h, by simp [depth]; omega⟩

/-- C17: `==` decides equality of (well-formed) trees. -/
theorem C17_equality (t u : Tree) (ht : t.WF) (hu : u.WF) : t.eqNodes u = true ↔ t = u := by
  induction t generalizing u with
  | leaf v =>
    cases u with
    | leaf w => rcases ht with rfl | rfl <;> rcases hu with rfl | rfl <;> decide
    | node w l r => simp [eqNodes]
  | node v l r ihl ihr =>
    cases u with
    | leaf w => simp [eqNodes]
    | node w l' r' =>
      have h1 := ihl _ ht.2.1 hu.2.1
      have h2 := ihr _ ht.2.2 hu.2.2
      rw [ht.1, hu.1]
      simp [eqNodes, h1, h2, isIndeterminate]

/-- Non-vacuity: serialisation of the sample tree. -/
example : sample.WF ∧ sample.toWords = ([true, true, false, false, false], [true, false, true]) ∧
    sample.enabledLeaves = [[false, false], [true]] ∧ sample.depth = 2 := by
  refine ⟨?_, by decide⟩
  simp [sample, WF]

end Ariadne.BinaryTree
