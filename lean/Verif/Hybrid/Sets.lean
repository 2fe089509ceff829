import Verif.Hybrid.Location
import Mathlib.Data.Set.Lattice
import Mathlib.Algebra.Order.Monoid.Unbundled.Basic
import Mathlib.Algebra.BigOperators.Group.List.Basic

/-!
# C67: hybrid sets

Model of hybrid sets given in one location (`HybridBasicSet`, `HybridBoxSet`), in several locations (`HybridBoxes`,
`HybridConstraintSet`, `HybridBoundedConstraintSet`) and as lists (`HybridListSet`).  Simplifications: the continuous sets
are elements of a type `α`, the boxes elements of a type `β`, both sets of states of a type `X` (values of the named
variables), so that `euclidean_set(space)`, which only orders the variables, is the identity; the answers of the tests are
those of `definitely`, a Boolean.
-/

namespace Verif.Hybrid

open Verif.Container

variable {κ ν : Type*} [LinearOrder κ] [LinearOrder ν] {α β X S : Type*}

/-- The tests of continuous sets of type `α` against boxes of type `β`. -/
structure Tests (α β : Type*) where
  inside : α → β → Bool
  separated : α → β → Bool
  overlaps : α → β → Bool
  covers : α → β → Bool
  isEmpty : α → Bool
  boxIsEmpty : β → Bool

/-- Models `HybridBasicSet` and `HybridBox` (hybrid_set.hpp 63-127, 200-239): a set in a location. -/
structure Basic (κ ν α : Type*) [LinearOrder κ] where
  loc : Loc κ ν
  set : α

/-- Models the maps `HybridBoxes`, `HybridConstraintSet::_sets`, `HybridBoundedConstraintSet::_sets`. -/
abbrev HMap (κ ν α : Type*) [LinearOrder κ] := List (Loc κ ν × α)

/-! ### Sets in one location -/

/-- Models `HybridBasicSet::inside(HybridBoxes)` (hybrid_set.hpp 91-94). -/
def Basic.insideBoxes (T : Tests α β) (s : Basic κ ν α) (bs : HMap κ ν β) : Bool :=
  match find s.loc bs with
  | some b => T.inside s.set b
  | none => T.isEmpty s.set

/-- Models `HybridBasicSet::inside(HybridBox)` (hybrid_set.hpp 95-97); `none`: the comparison of locations throws. -/
def Basic.inside (T : Tests α β) (s : Basic κ ν α) (b : Basic κ ν β) : Option Bool :=
  (s.loc.eq b.loc).map fun e => if e then T.inside s.set b.set else T.isEmpty s.set

/-- Models `HybridBasicSet::separated(HybridBox)` (hybrid_set.hpp 98-100). -/
def Basic.separated (T : Tests α β) (s : Basic κ ν α) (b : Basic κ ν β) : Option Bool :=
  (s.loc.ne b.loc).map fun e => e || T.separated s.set b.set

/-- Models `HybridBasicSet::overlaps(HybridBox)` (hybrid_set.hpp 101-103). -/
def Basic.overlaps (T : Tests α β) (s : Basic κ ν α) (b : Basic κ ν β) : Option Bool :=
  (s.loc.eq b.loc).map fun e => e && T.overlaps s.set b.set

/-- Models `HybridBasicSet::covers(HybridBox)` (hybrid_set.hpp 104-106). -/
def Basic.covers (T : Tests α β) (s : Basic κ ν α) (b : Basic κ ν β) : Option Bool :=
  (s.loc.eq b.loc).map fun e => if e then T.covers s.set b.set else T.boxIsEmpty b.set

/-- Models `HybridBoxSet::inside(HybridExactBox)` (hybrid_set.cpp 257-259). -/
def Basic.boxInside (T : Tests α β) (s : Basic κ ν α) (b : Basic κ ν β) : Option Bool :=
  (b.loc.eq s.loc).map fun e => (e && T.inside s.set b.set) || T.isEmpty s.set

/-- Models `HybridBoxSet::covers(HybridExactBox)` (hybrid_set.cpp 266-268). -/
def Basic.boxCovers (T : Tests α β) (s : Basic κ ν α) (b : Basic κ ν β) : Option Bool :=
  (s.loc.eq b.loc).map fun e => (e && T.covers s.set b.set) || T.boxIsEmpty b.set

/-! ### Sets in several locations -/

/-- Models `HybridConstraintSet::adjoin` (hybrid_set.cpp 320-322), `HybridBoundedConstraintSet::adjoin` (421-425),
`HybridDenotableSet::insert` (hybrid_set.hpp 150-151) and `HybridVariablesBoxes::adjoin` (hybrid_expression_set.hpp 130-131). -/
def hmAdjoin (l : Loc κ ν) (a : α) (m : HMap κ ν α) : HMap κ ν α := minsert l a m

/-- Models `overlaps` (hybrid_set.cpp 355-361, 450-456). -/
def hmOverlaps (T : Tests α β) (m : HMap κ ν α) (b : Basic κ ν β) : Bool :=
  match find b.loc m with
  | some a => T.overlaps a b.set
  | none => false

/-- Models `covers` (hybrid_set.cpp 363-369, 458-464). -/
def hmCovers (T : Tests α β) (m : HMap κ ν α) (b : Basic κ ν β) : Bool :=
  match find b.loc m with
  | some a => T.covers a b.set
  | none => T.boxIsEmpty b.set

/-- Models `separated` (hybrid_set.cpp 371-377, 466-472). -/
def hmSeparated (T : Tests α β) (m : HMap κ ν α) (b : Basic κ ν β) : Bool :=
  match find b.loc m with
  | some a => T.separated a b.set
  | none => true

/-- Models `HybridBoundedConstraintSet::inside` (hybrid_set.cpp 474-485).  `none`: `bxs[loc]` fails its assertion. -/
def hmInside (T : Tests α β) (bs : HMap κ ν β) : HMap κ ν α → Bool → Option Bool
  | [], result => some result
  | (l, a) :: m, result => (find l bs).bind fun b => hmInside T bs m (result && T.inside a b)

/-- Models `intersection(HybridBoxesSet,HybridConstraintSet)` (hybrid_set.cpp 523-534); `both` is `intersection` of a box and
a constraint set, `whole` the set of a box without constraints.  `none`: the assertion in `continuous_set`. -/
def hmIntersection {γ : Type*} (both : β → α → γ) (whole : β → γ) (cs : HMap κ ν α) :
    HMap κ ν β → HMap κ ν γ → Option (HMap κ ν γ)
  | [], res => some res
  | (l, b) :: bs, res => (find l cs).bind fun c =>
      let res := hmAdjoin l (both b c) res
      let res := match find l cs with
        | some c => hmAdjoin l (both b c) res
        | none => hmAdjoin l (whole b) res
      hmIntersection both whole cs bs res

/-! ### Lists of sets in each location -/

/-- Models `HybridListSet` (hybrid_set.hpp 362-426): in each location the order of the variables, of type `S`, and a list. -/
abbrev HList (κ ν S α : Type*) [LinearOrder κ] := List (Loc κ ν × S × List α)

/-- Models `adjoin(DiscreteLocation,RealSpace,ES)` (hybrid_set.hpp 398-406); `none`: the spaces differ. -/
def hlAdjoin [DecidableEq S] (l : Loc κ ν) (spc : S) (a : α) (m : HList κ ν S α) : Option (HList κ ν S α) :=
  match find l m with
  | some (s, as) => if s = spc then some (mset l (s, as ++ [a]) m) else none
  | none => some (mset l (spc, [a]) (minsert l (spc, []) m))

/-- Models `adjoin(DiscreteLocation,ES)` (hybrid_set.hpp 407-409); `none`: there is no such location. -/
def hlAdjoinAt (l : Loc κ ν) (a : α) (m : HList κ ν S α) : Option (HList κ ν S α) :=
  match find l m with
  | some (s, as) => some (mset l (s, as ++ [a]) m)
  | none => none

/-- Models `size` (hybrid_set.hpp 385-392). -/
def hlSize (m : HList κ ν S α) : ℕ := m.foldl (fun r e => r + e.2.2.length) 0

/-- The state of `HybridListSetConstIterator` (hybrid_set.hpp 330-357) after `_increment_loc` (475-484): the locations from `_loc_iter` on, with the sets from
`_bs_iter` on in the first. -/
def hlSkip : HList κ ν S α → HList κ ν S α
  | [] => []
  | (_, _, []) :: t => hlSkip t
  | (l, s, a :: as) :: t => (l, s, a :: as) :: t

/-- Models a loop from `begin()` to `end()` (constructor, `dereference` and `increment`, hybrid_set.hpp 436-473), of at most
`n` steps. -/
def hlRun : ℕ → HList κ ν S α → List (Loc κ ν × S × α)
  | 0, _ => []
  | n + 1, (l, s, a :: as) :: t => (l, s, a) :: hlRun n (hlSkip ((l, s, as) :: t))
  | _, _ => []

/-! ### Specification -/

/-- The hybrid states of a set in one location. -/
def Basic.states (den : α → Set X) (s : Basic κ ν α) : Set (Loc κ ν × X) := {p | p.1 = s.loc ∧ p.2 ∈ den s.set}

/-- The hybrid states of a set in several locations. -/
def hmStates (den : α → Set X) (m : HMap κ ν α) : Set (Loc κ ν × X) := {p | ∃ a, (p.1, a) ∈ m ∧ p.2 ∈ den a}

/-- The tests are sound: `inter` gives the interiors. -/
structure Sound (T : Tests α β) (den inner : α → Set X) (bden binner : β → Set X) : Prop where
  inside : ∀ a b, T.inside a b = true → den a ⊆ binner b
  separated : ∀ a b, T.separated a b = true → Disjoint (den a) (bden b)
  overlaps : ∀ a b, T.overlaps a b = true → (den a ∩ binner b).Nonempty
  covers : ∀ a b, T.covers a b = true → bden b ⊆ inner a
  isEmpty : ∀ a, T.isEmpty a = true → den a = ∅
  boxIsEmpty : ∀ b, T.boxIsEmpty b = true → bden b = ∅

variable {T : Tests α β} {den inner : α → Set X} {bden binner : β → Set X}

theorem basic_disjoint {s : Basic κ ν α} {b : Basic κ ν β} (hn : s.loc ≠ b.loc) :
    Disjoint (s.states den) (b.states bden) := by
  rw [Set.disjoint_left]
  rintro ⟨l, x⟩ ⟨h1, -⟩ ⟨h2, -⟩
  exact hn (h1.symm.trans h2)

theorem states_empty {s : Basic κ ν α} (h : den s.set = ∅) : s.states den = ∅ := by
  ext ⟨l, x⟩
  simp [Basic.states, h]

theorem states_subset {s : Basic κ ν α} {b : Basic κ ν β} {f : α → Set X} {g : β → Set X} (hl : s.loc = b.loc)
    (h : f s.set ⊆ g b.set) : s.states f ⊆ b.states g := by
  rintro ⟨l, x⟩ ⟨h1, h2⟩
  exact ⟨h1.trans hl, h h2⟩

/-- C67: the tests of a set in one location against a box are sound, and they throw exactly if the two locations are
different and cannot be distinguished. -/
theorem C67_basic (hT : Sound T den inner bden binner) (s : Basic κ ν α) (b : Basic κ ν β) :
    (s.inside T b = some true → s.states den ⊆ b.states binner) ∧
    (s.boxInside T b = some true → s.states den ⊆ b.states binner) ∧
    (s.separated T b = some true → Disjoint (s.states den) (b.states bden)) ∧
    (s.overlaps T b = some true → (s.states den ∩ b.states binner).Nonempty) ∧
    (s.covers T b = some true → b.states bden ⊆ s.states inner) ∧
    (s.boxCovers T b = some true → b.states bden ⊆ s.states inner) ∧
    (∀ f ∈ [s.inside T b, s.boxInside T b, s.separated T b, s.overlaps T b, s.covers T b, s.boxCovers T b],
      f = none ↔ s.loc ≠ b.loc ∧ ¬ Distinct s.loc b.loc) := by
  obtain ⟨h1, h2, h3, h4⟩ := C62_equal s.loc b.loc
  have hloc : (∀ k, s.loc.get k = b.loc.get k) ↔ s.loc = b.loc := ⟨Loc.ext_get, fun h k => by rw [h]⟩
  have hloc' : (∃ k, s.loc.get k ≠ b.loc.get k) ↔ s.loc ≠ b.loc := by rw [ne_eq, ← hloc, not_forall]
  rw [hloc] at h1
  rw [hloc'] at h3
  have hsym := C62_equal_symm b.loc s.loc
  simp only [Basic.inside, Basic.boxInside, Basic.separated, Basic.overlaps, Basic.covers, Basic.boxCovers, h4, hsym]
  cases e : s.loc.eq b.loc with
  | none => simp [← h3, e]
  | some t =>
    cases t with
    | true =>
      have hl := h1.1 e
      simp only [Option.map_some, Option.some.injEq, if_true, Bool.not_true, Bool.false_or, Bool.true_and,
        Bool.or_eq_true]
      refine ⟨fun h => states_subset hl (hT.inside _ _ h), ?_, fun h => ?_, fun h => ?_,
        fun h => states_subset hl.symm (hT.covers _ _ h), ?_, by simp [hl]⟩
      · rintro (h | h)
        · exact states_subset hl (hT.inside _ _ h)
        · rw [states_empty (hT.isEmpty _ h)]; exact Set.empty_subset _
      · rw [Set.disjoint_left]
        rintro ⟨l, x⟩ ⟨-, g1⟩ ⟨-, g2⟩
        exact Set.disjoint_left.1 (hT.separated _ _ h) g1 g2
      · obtain ⟨x, g1, g2⟩ := hT.overlaps _ _ h
        exact ⟨(s.loc, x), ⟨rfl, g1⟩, ⟨hl, g2⟩⟩
      · rintro (h | h)
        · exact states_subset hl.symm (hT.covers _ _ h)
        · rw [states_empty (hT.boxIsEmpty _ h)]; exact Set.empty_subset _
    | false =>
      have hl := h2.1 e
      have hne : s.loc ≠ b.loc := by
        intro he
        rw [h1.2 he] at e
        cases e
      simp only [Option.map_some, Option.some.injEq, Bool.false_eq_true, if_false, Bool.not_false, Bool.true_or,
        Bool.false_and, Bool.false_or, false_implies, forall_const, true_and]
      refine ⟨fun h => ?_, fun h => ?_, basic_disjoint hne, fun h => ?_, fun h => ?_, by simp [hl]⟩
      · rw [states_empty (hT.isEmpty _ h)]; exact Set.empty_subset _
      · rw [states_empty (hT.isEmpty _ h)]; exact Set.empty_subset _
      · rw [states_empty (hT.boxIsEmpty _ h)]; exact Set.empty_subset _
      · rw [states_empty (hT.boxIsEmpty _ h)]; exact Set.empty_subset _

/-- C67: the test of a set in one location against boxes in several locations is sound and never fails. -/
theorem C67_basic_boxes (hT : Sound T den inner bden binner) (s : Basic κ ν α) (bs : HMap κ ν β) (hs : SortedKeys bs)
    (h : s.insideBoxes T bs = true) : s.states den ⊆ hmStates binner bs := by
  unfold Basic.insideBoxes at h
  cases e : find s.loc bs with
  | none =>
    rw [e] at h
    rw [states_empty (hT.isEmpty _ h)]; exact Set.empty_subset _
  | some b =>
    rw [e] at h
    rintro ⟨l, x⟩ ⟨h1, h2⟩
    refine ⟨b, ?_, hT.inside _ _ h h2⟩
    simp only at h1
    rw [h1]
    exact (find_iff hs).1 e

/-- C67: the tests of a set in several locations against a box are sound. -/
theorem C67_tests (hT : Sound T den inner bden binner) (m : HMap κ ν α) (hm : SortedKeys m) (b : Basic κ ν β) :
    (hmOverlaps T m b = true → (hmStates den m ∩ b.states binner).Nonempty) ∧
    (hmCovers T m b = true → b.states bden ⊆ hmStates inner m) ∧
    (hmSeparated T m b = true → Disjoint (hmStates den m) (b.states bden)) := by
  unfold hmOverlaps hmCovers hmSeparated
  cases e : find b.loc m with
  | none =>
    refine ⟨(fun h => nomatch h), fun h => ?_, fun _ => ?_⟩
    · simp only at h
      rw [states_empty (hT.boxIsEmpty _ h)]; exact Set.empty_subset _
    · rw [Set.disjoint_left]
      rintro ⟨l, x⟩ ⟨a, h1, -⟩ ⟨h2, -⟩
      simp only at h1 h2
      rw [h2, ← find_iff hm, e] at h1
      cases h1
  | some a =>
    have he := (find_iff hm).1 e
    refine ⟨fun h => ?_, fun h => ?_, fun h => ?_⟩
    · obtain ⟨x, h1, h2⟩ := hT.overlaps _ _ h
      exact ⟨(b.loc, x), ⟨a, he, h1⟩, rfl, h2⟩
    · rintro ⟨l, x⟩ ⟨h1, h2⟩
      simp only at h1
      rw [h1]
      exact ⟨a, he, hT.covers _ _ h h2⟩
    · rw [Set.disjoint_left]
      rintro ⟨l, x⟩ ⟨a', h1, h3⟩ ⟨h2, h4⟩
      simp only at h1 h2
      rw [h2, ← find_iff hm, e] at h1
      cases h1
      exact Set.disjoint_left.1 (hT.separated _ _ h) h3 h4

theorem hmInside_spec (bs : HMap κ ν β) (m : HMap κ ν α) (r : Bool) :
    (hmInside T bs m r = none ↔ ∃ e ∈ m, find e.1 bs = none) ∧
    (hmInside T bs m r = some true ↔ r = true ∧ ∀ e ∈ m, ∃ b, find e.1 bs = some b ∧ T.inside e.2 b = true) := by
  induction m generalizing r with
  | nil => simp [hmInside]
  | cons e m ih =>
    obtain ⟨l, a⟩ := e
    simp only [hmInside, List.exists_mem_cons_iff, List.forall_mem_cons]
    cases e : find l bs with
    | none => simp
    | some b =>
      obtain ⟨h1, h2⟩ := ih (r && T.inside a b)
      simp only [Option.bind_some, h1, h2, reduceCtorEq, false_or, Bool.and_eq_true, Option.some.injEq, exists_eq_left', true_and,
        and_assoc]

/-- C67: `HybridBoundedConstraintSet::inside` is sound; it fails exactly if some location of the set has no box.  Missing: an
answer in that case (`C67_inside_fails`). -/
theorem C67_inside_partial (hT : Sound T den inner bden binner) (m : HMap κ ν α) (bs : HMap κ ν β) (hb : SortedKeys bs) :
    (hmInside T bs m true = some true → hmStates den m ⊆ hmStates binner bs) ∧
    (hmInside T bs m true = none ↔ ∃ e ∈ m, ∀ b, (e.1, b) ∉ bs) := by
  obtain ⟨h1, h2⟩ := hmInside_spec (T := T) bs m true
  constructor
  · intro h
    rintro ⟨l, x⟩ ⟨a, h3, h4⟩
    obtain ⟨b, h5, h6⟩ := (h2.1 h).2 (l, a) h3
    exact ⟨b, (find_iff hb).1 h5, hT.inside _ _ h6 h4⟩
  · rw [h1]
    refine exists_congr fun e => and_congr_right fun _ => ?_
    rw [Option.eq_none_iff_forall_ne_some]
    exact forall_congr' fun b => not_congr (find_iff hb)

/-- C67: adjoining a set in a location which is not yet present gives the union.  Missing: a location which is present
(`C67_adjoin_ignored`). -/
theorem C67_adjoin_partial (m : HMap κ ν α) (hm : SortedKeys m) (l : Loc κ ν) (a : α) (hl : ∀ a', (l, a') ∉ m) :
    SortedKeys (hmAdjoin l a m) ∧ hmStates den (hmAdjoin l a m) = hmStates den m ∪ (Basic.mk l a).states den := by
  have hn : find l m = none := by
    rw [Option.eq_none_iff_forall_ne_some]
    exact fun b => (not_congr (find_iff hm)).2 (hl b)
  refine ⟨hm.minsert, ?_⟩
  ext ⟨l', x⟩
  simp only [hmStates, Basic.states, Set.mem_setOf_eq, Set.mem_union]
  simp only [hmAdjoin, ← find_iff hm.minsert, find_minsert hm, hn, ← find_iff hm]
  split_ifs with h
  · subst h
    simp [hn]
  · simp [h]

/-- C67: adjoining a set in a location which is present changes nothing: the second set is ignored (also for
`HybridDenotableSet::insert`, documented as setting the set of the location). -/
theorem C67_adjoin_ignored (m : HMap κ ν α) (hm : SortedKeys m) (l : Loc κ ν) (a a' : α) (hl : (l, a') ∈ m) :
    hmAdjoin l a m = m := by
  refine SortedKeys.ext hm.minsert hm fun k => ?_
  rw [hmAdjoin, find_minsert hm, (find_iff hm).2 hl]
  split_ifs with h
  · rw [h, (find_iff hm).2 hl]; rfl
  · rfl

theorem hmIntersection_spec {γ : Type*} (both : β → α → γ) (whole : β → γ) (cs : HMap κ ν α) (bs : HMap κ ν β)
    (res : HMap κ ν γ) (hb : SortedKeys bs) (hr : SortedKeys res) (hd : ∀ e ∈ bs, find e.1 res = none) :
    (hmIntersection both whole cs bs res = none ↔ ∃ e ∈ bs, find e.1 cs = none) ∧
    ∀ r, hmIntersection both whole cs bs res = some r → SortedKeys r ∧ ∀ l,
      find l r = match find l bs with
        | some b => (find l cs).map (both b)
        | none => find l res := by
  induction bs generalizing res with
  | nil =>
    refine ⟨by simp [hmIntersection], ?_⟩
    rintro r hr'
    cases hr'
    exact ⟨hr, fun l => rfl⟩
  | cons e bs ih =>
    obtain ⟨l, b⟩ := e
    simp only [hmIntersection, List.exists_mem_cons_iff]
    cases hc : find l cs with
    | none => simp
    | some c =>
      have hres : hmAdjoin l (both b c) (hmAdjoin l (both b c) res) = hmAdjoin l (both b c) res := by
        refine C67_adjoin_ignored _ hr.minsert l _ (both b c) ?_
        have hl : find l res = none := hd (l, b) List.mem_cons_self
        refine (find_iff hr.minsert).1 ?_
        rw [find_minsert hr, if_pos rfl, hl]
        rfl
      simp only [Option.bind_some, hres, reduceCtorEq, false_or]
      obtain ⟨h1, h2⟩ := ih (hmAdjoin l (both b c) res) hb.tail hr.minsert (fun e he => by
        rw [hmAdjoin, find_minsert hr, if_neg (ne_of_gt (hb.head_lt he))]
        exact hd e (List.mem_cons_of_mem _ he))
      refine ⟨h1, fun r hr' => ⟨(h2 r hr').1, fun l' => ?_⟩⟩
      rw [(h2 r hr').2 l']
      by_cases hl : l' = l
      · subst hl
        have hn : find l' bs = none := find_none_of_lt fun p hp => hb.head_lt hp
        rw [find_cons_self, hn]
        simp only [hmAdjoin, find_minsert hr, if_pos, hc, hd (l', b) List.mem_cons_self, Option.map_some, Option.getD_none]
      · rw [find_cons_ne hb hl]
        cases find l' bs with
        | some b' => rfl
        | none => simp only [hmAdjoin, find_minsert hr, if_neg hl]

/-- C67: `intersection` of boxes and constraints gives, in the locations of the boxes, the states in both; it fails exactly
if some box is in a location without constraints.  Missing: a result in that case, for which the code provides
(`C67_intersection_fails`). -/
theorem C67_intersection_partial {γ : Type*} (both : β → α → γ) (whole : β → γ) (gden : γ → Set X)
    (hboth : ∀ b c, gden (both b c) = bden b ∩ den c) (cs : HMap κ ν α) (bs : HMap κ ν β) (hc : SortedKeys cs)
    (hb : SortedKeys bs) :
    (∀ r, hmIntersection both whole cs bs [] = some r → hmStates gden r = hmStates bden bs ∩ hmStates den cs) ∧
    (hmIntersection both whole cs bs [] = none ↔ ∃ e ∈ bs, ∀ c, (e.1, c) ∉ cs) := by
  obtain ⟨h1, h2⟩ := hmIntersection_spec both whole cs bs [] hb SortedKeys.nil (fun _ _ => rfl)
  constructor
  · intro r hr
    obtain ⟨h3, h4⟩ := h2 r hr
    ext ⟨l, x⟩
    simp only [hmStates, Set.mem_setOf_eq, Set.mem_inter_iff, ← find_iff h3, ← find_iff hb, ← find_iff hc, h4 l]
    cases find l bs with
    | none => simp [find]
    | some b =>
      cases find l cs with
      | none => simp
      | some c => simp [hboth]
  · rw [h1]
    refine exists_congr fun e => and_congr_right fun _ => ?_
    rw [Option.eq_none_iff_forall_ne_some]
    exact forall_congr' fun b => not_congr (find_iff hc)

/-! ### Lists -/

/-- The states of a list set. -/
def hlStates (den : α → Set X) (m : HList κ ν S α) : Set (Loc κ ν × X) :=
  {p | ∃ s as, (p.1, s, as) ∈ m ∧ ∃ a ∈ as, p.2 ∈ den a}

/-- The sets of a list set, in the order of the locations. -/
def hlAll (m : HList κ ν S α) : List (Loc κ ν × S × α) := m.flatMap fun e => e.2.2.map fun a => (e.1, e.2.1, a)

theorem hlSkip_spec (m : HList κ ν S α) : hlAll (hlSkip m) = hlAll m ∧
    (hlSkip m = [] ∨ ∃ l s a as t, hlSkip m = (l, s, a :: as) :: t) := by
  induction m with
  | nil => exact ⟨rfl, Or.inl rfl⟩
  | cons e m ih =>
    obtain ⟨l, s, as⟩ := e
    cases as with
    | nil => exact ⟨by rw [hlSkip, ih.1]; simp [hlAll], ih.2⟩
    | cons a as => exact ⟨rfl, Or.inr ⟨l, s, a, as, m, rfl⟩⟩

theorem hlRun_spec (n : ℕ) (m : HList κ ν S α) (hn : (hlAll m).length ≤ n)
    (hm : m = [] ∨ ∃ l s a as t, m = (l, s, a :: as) :: t) : hlRun n m = hlAll m := by
  induction n generalizing m with
  | zero => rw [List.length_eq_zero_iff.1 (Nat.le_zero.1 hn)]; rfl
  | succ n ih =>
    rcases hm with rfl | ⟨l, s, a, as, t, rfl⟩
    · rfl
    · obtain ⟨h1, h2⟩ := hlSkip_spec ((l, s, as) :: t)
      have e : hlAll ((l, s, a :: as) :: t) = (l, s, a) :: hlAll ((l, s, as) :: t) := by simp [hlAll]
      rw [hlRun, ih _ (by rw [h1]; rw [e] at hn; simpa using hn) h2, h1, e]

theorem hlSize_eq (m : HList κ ν S α) : hlSize m = (m.map fun e => e.2.2.length).sum := by
  have key : ∀ (m : HList κ ν S α) (r : ℕ), m.foldl (fun r e => r + e.2.2.length) r =
      r + (m.map fun e => e.2.2.length).sum := by
    intro m
    induction m with
    | nil => intro r; rfl
    | cons e m ih =>
      intro r
      rw [List.foldl_cons, ih]
      simp [Nat.add_assoc]
  rw [hlSize, key, Nat.zero_add]

theorem hlSize_mset (m : HList κ ν S α) (hm : SortedKeys m) (l : Loc κ ν) (s : S) (as : List α) :
    hlSize (mset l (s, as) m) + ((find l m).map fun e => e.2.length).getD 0 = hlSize m + as.length := by
  rw [hlSize_eq, hlSize_eq]
  induction m with
  | nil => simp [mset, find]
  | cons e m ih =>
    obtain ⟨l', s', as'⟩ := e
    rw [mset, find]
    rcases lt_trichotomy l l' with h | rfl | h
    · rw [if_pos h, if_pos h]
      simp only [List.map_cons, List.sum_cons, Option.map_none, Option.getD_none]
      omega
    · simp only [lt_irrefl, if_false, List.map_cons, List.sum_cons, Option.map_some, Option.getD_some]
      omega
    · rw [if_neg (not_lt_of_gt h), if_pos h, if_neg (not_lt_of_gt h), if_pos h]
      have := ih hm.tail
      simp only [List.map_cons, List.sum_cons]
      omega

/-- C67: adjoining a set to a list set gives the union and adds one to the size; it fails exactly if the location is present
with other variables. -/
theorem C67_list_adjoin [DecidableEq S] (m : HList κ ν S α) (hm : SortedKeys m) (l : Loc κ ν) (spc : S) (a : α) :
    (∀ m', hlAdjoin l spc a m = some m' → SortedKeys m' ∧ hlSize m' = hlSize m + 1 ∧
      hlStates den m' = hlStates den m ∪ (Basic.mk l a).states den) ∧
    (hlAdjoin l spc a m = none ↔ ∃ s as, (l, s, as) ∈ m ∧ s ≠ spc) ∧
    (∀ m', hlAdjoinAt l a m = some m' → SortedKeys m' ∧ hlSize m' = hlSize m + 1 ∧
      hlStates den m' = hlStates den m ∪ (Basic.mk l a).states den) ∧
    (hlAdjoinAt l a m = none ↔ ∀ e, (l, e) ∉ m) := by
  have key : ∀ s as, find l m = some (s, as) → SortedKeys (mset l (s, as ++ [a]) m) ∧
      hlSize (mset l (s, as ++ [a]) m) = hlSize m + 1 ∧
      hlStates den (mset l (s, as ++ [a]) m) = hlStates den m ∪ (Basic.mk l a).states den := by
    intro s as e
    refine ⟨hm.mset, ?_, ?_⟩
    · have := hlSize_mset m hm l s (as ++ [a])
      rw [e] at this
      simp only [Option.map_some, Option.getD_some, List.length_append, List.length_singleton] at this
      omega
    ext ⟨l', x⟩
    simp only [hlStates, Basic.states, Set.mem_setOf_eq, Set.mem_union, ← find_iff hm.mset, ← find_iff hm, find_mset hm]
    split_ifs with h
    · subst h
      simp [e, or_and_right, exists_or]
    · simp [h]
  unfold hlAdjoin hlAdjoinAt
  cases e : find l m with
  | some p =>
    obtain ⟨s, as⟩ := p
    refine ⟨?_, ?_, ?_, ?_⟩
    · simp only
      split_ifs with h
      · rintro _ ⟨⟩
        exact key s as e
      · intro m' hm'; cases hm'
    · simp only [← find_iff hm, e]
      split_ifs with h
      · simp [h]
      · simp [h]
    · rintro _ ⟨⟩
      exact key s as e
    · simp only [reduceCtorEq, false_iff, not_forall, not_not]
      exact ⟨_, (find_iff hm).1 e⟩
  | none =>
    refine ⟨?_, ?_, (fun m' hm' => nomatch hm'), ?_⟩
    · rintro _ ⟨⟩
      refine ⟨hm.minsert.mset, ?_, ?_⟩
      · have he : mset l (spc, [a]) (minsert l (spc, []) m) = mset l (spc, [a]) m :=
          SortedKeys.ext hm.minsert.mset hm.mset fun k => by
            rw [find_mset hm.minsert, find_mset hm, find_minsert hm]
            split_ifs <;> rfl
        have := hlSize_mset m hm l spc [a]
        rw [e] at this
        rw [he]
        exact this
      ext ⟨l', x⟩
      simp only [hlStates, Basic.states, Set.mem_setOf_eq, Set.mem_union, ← find_iff hm.minsert.mset, ← find_iff hm,
        find_mset hm.minsert, find_minsert hm]
      split_ifs with h
      · subst h
        simp [e]
      · simp [h]
    · simp [← find_iff hm, e]
    · simp [← find_iff hm, e]

/-- C67: iteration over a list set visits every set of every location in order, and `size` is the number of steps. -/
theorem C67_list_iteration (m : HList κ ν S α) (n : ℕ) (hn : hlSize m ≤ n) :
    hlRun n (hlSkip m) = hlAll m ∧ (hlRun n (hlSkip m)).length = hlSize m ∧
    (∀ l s a, (l, s, a) ∈ hlRun n (hlSkip m) ↔ ∃ as, (l, s, as) ∈ m ∧ a ∈ as) := by
  have hsz : hlSize m = (hlAll m).length := by
    rw [hlSize_eq]
    simp [hlAll, List.length_flatMap]
  obtain ⟨h1, h2⟩ := hlSkip_spec m
  have hr : hlRun n (hlSkip m) = hlAll m := by rw [hlRun_spec n _ (by rw [h1, ← hsz]; exact hn) h2, h1]
  refine ⟨hr, by rw [hr, hsz], fun l s a => ?_⟩
  rw [hr]
  simp only [hlAll, List.mem_flatMap, List.mem_map, Prod.mk.injEq]
  constructor
  · rintro ⟨⟨l', s', as⟩, h, a', h', rfl, rfl, rfl⟩
    exact ⟨as, h, h'⟩
  · rintro ⟨as, h, h'⟩
    exact ⟨(l, s, as), h, a, h', rfl, rfl, rfl⟩

end Verif.Hybrid
