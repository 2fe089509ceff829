import Verif.ListSet.Model
import Mathlib.Data.List.Basic
import Mathlib.Data.List.Forall2
import Mathlib.Order.Basic
import Mathlib.Tactic.Common

/-!
# C110: list sets are unions

The specification is in terms of points: `pts b p` says that the point `p` is in the basic set `b`.
-/

namespace Verif.ListSet

variable {B R : Type} [LinearOrder R]

/-- The points of a box. -/
abbrev InBox (p : List R) (x : List (R × R)) : Prop := List.Forall₂ (fun (q : R) (i : R × R) => i.1 ≤ q ∧ q ≤ i.2) p x

/-- Boxes in boxes. -/
abbrev SubBox (x y : List (R × R)) : Prop := List.Forall₂ (fun (i j : R × R) => j.1 ≤ i.1 ∧ i.2 ≤ j.2) x y

/-- The union. -/
def Union (pts : B → List R → Prop) (l : List B) (p : List R) : Prop := ∃ b ∈ l, pts b p

/-- All basic sets have dimension `d`. -/
def Homogeneous (K : Basic B R) (d : ℕ) (l : List B) : Prop := ∀ b ∈ l, K.dimension b = d

/-- **C110**: adjoining basic sets, in any number, to a list set all of whose elements have the same dimension is accepted
exactly if they have this dimension too, and gives the union. -/
theorem C110_adjoin (K : Basic B R) (pts : B → List R → Prop) (d : ℕ) : ∀ (bs l : List B), Homogeneous K d l → l ≠ [] →
    (Homogeneous K d bs → ∃ l', adjoinAll K l bs = .ok l' ∧ Homogeneous K d l' ∧ l'.length = l.length + bs.length ∧
      ∀ p, Union pts l' p ↔ Union pts l p ∨ Union pts bs p) ∧
    (¬ Homogeneous K d bs → adjoinAll K l bs = .throws) := by
  intro bs
  induction bs with
  | nil =>
    intro l hl hne
    exact ⟨fun _ => ⟨l, rfl, hl, rfl, fun p => by simp [Union]⟩, fun h => absurd (fun b hb => absurd hb (by simp)) h⟩
  | cons b bs ih =>
    intro l hl hne
    have hc : l.getLast? = some (l.getLast hne) := List.getLast?_eq_some_getLast hne
    have hd := hl _ (List.getLast_mem hne)
    by_cases hb : K.dimension b = d
    · have e : adjoin K l b = .ok (l ++ [b]) := by
        unfold adjoin; rw [hc]; exact if_pos (hd.trans hb.symm)
      have hl' : Homogeneous K d (l ++ [b]) := by
        intro c hc
        rcases List.mem_append.1 hc with h | h
        · exact hl c h
        · rw [List.mem_singleton.1 h]; exact hb
      have e2 : adjoinAll K l (b :: bs) = adjoinAll K (l ++ [b]) bs := by
        show (match adjoin K l b with | .ok l' => adjoinAll K l' bs | .throws => .throws | .undefined => .undefined) = _
        rw [e]
      obtain ⟨i1, i2⟩ := ih (l ++ [b]) hl' (by simp)
      rw [e2]
      refine ⟨fun h => ?_, fun h => i2 fun h' => h fun c hc => ?_⟩
      · obtain ⟨l', g1, g2, g3, g4⟩ := i1 fun c hc => h c (List.mem_cons_of_mem _ hc)
        refine ⟨l', g1, g2, by simp at g3 ⊢; omega, fun p => ?_⟩
        rw [g4 p]
        simp only [Union, List.mem_append, List.mem_cons, List.not_mem_nil, or_false]
        constructor
        · rintro (⟨c, h | h, hp⟩ | ⟨c, h, hp⟩)
          · exact Or.inl ⟨c, h, hp⟩
          · exact Or.inr ⟨c, Or.inl h, hp⟩
          · exact Or.inr ⟨c, Or.inr h, hp⟩
        · rintro (⟨c, h, hp⟩ | ⟨c, h | h, hp⟩)
          · exact Or.inl ⟨c, Or.inl h, hp⟩
          · exact Or.inl ⟨c, Or.inr h, hp⟩
          · exact Or.inr ⟨c, h, hp⟩
      · rcases List.mem_cons.1 hc with rfl | hc
        · exact hb
        · exact h' c hc
    · have e : adjoin K l b = .throws := by
        unfold adjoin; rw [hc]; exact if_neg fun h => hb (h.symm.trans hd)
      refine ⟨fun h => absurd (h b List.mem_cons_self) hb, fun _ => ?_⟩
      show (match adjoin K l b with | .ok l' => adjoinAll K l' bs | .throws => .throws | .undefined => .undefined) = _
      rw [e]

/-- **C110**: the first basic set is always accepted. -/
theorem C110_first (K : Basic B R) (b : B) (bs : List B) : adjoinAll K [] (b :: bs) = adjoinAll K [b] bs := rfl

/-- **C110** (partial): adjoining another list set of the same dimension gives the union. Missing: the same object, and lists
with several dimensions (`C110_self_fails`, `C110_mixed_fails`). -/
theorem C110_adjoin_list_partial (K : Basic B R) (pts : B → List R → Prop) (d : ℕ) (l m : List B) (hl : Homogeneous K d l)
    (hm : Homogeneous K d m) : ∃ l', adjoinList K l m false = .ok l' ∧ Homogeneous K d l' ∧
      ∀ p, Union pts l' p ↔ Union pts l p ∨ Union pts m p := by
  refine ⟨l ++ m, ?_, fun c hc => (List.mem_append.1 hc).elim (hl c) (hm c), fun p => ?_⟩
  · unfold adjoinList
    cases h1 : l.getLast? with
    | none => simp
    | some c =>
      cases h2 : m.getLast? with
      | none => simp
      | some b =>
        have := (hl c (List.mem_of_getLast? h1)).trans (hm b (List.mem_of_getLast? h2)).symm
        simp [this]
  · simp only [Union, List.mem_append]
    constructor
    · rintro ⟨c, h | h, hp⟩
      · exact Or.inl ⟨c, h, hp⟩
      · exact Or.inr ⟨c, h, hp⟩
    · rintro (⟨c, h, hp⟩ | ⟨c, h, hp⟩)
      · exact ⟨c, Or.inl h, hp⟩
      · exact ⟨c, Or.inr h, hp⟩

/-- **C110**: removing a basic set, at the end or at a position, and adding it again gives the same union. -/
theorem C110_remove (pts : B → List R → Prop) (l : List B) :
    (∀ b l', pop l = .ok (b, l') → l'.length + 1 = l.length ∧ ∀ p, Union pts l p ↔ Union pts l' p ∨ pts b p) ∧
    (l ≠ [] → ∃ r, pop l = .ok r) ∧
    ∀ k (hk : k < l.length), ∃ l', erase l k = .ok l' ∧ l'.length + 1 = l.length ∧
      ∀ p, Union pts l p ↔ Union pts l' p ∨ pts l[k] p := by
  refine ⟨fun b l' h => ?_, fun h => ?_, fun k hk => ⟨_, if_pos hk, ?_, fun p => ?_⟩⟩
  · unfold pop at h
    cases hc : l.getLast? with
    | none => rw [hc] at h; exact absurd h (by simp)
    | some c =>
      rw [hc] at h
      injection h with h
      injection h with h1 h2
      subst h1 h2
      have e := List.dropLast_append_getLast? c hc
      refine ⟨by simpa using congrArg List.length e, fun p => ?_⟩
      constructor
      · rintro ⟨x, hx, hp⟩
        rw [← e] at hx
        rcases List.mem_append.1 hx with h | h
        · exact Or.inl ⟨x, h, hp⟩
        · rw [List.mem_singleton.1 h] at hp; exact Or.inr hp
      · rintro (⟨x, hx, hp⟩ | hp)
        · exact ⟨x, List.dropLast_subset l hx, hp⟩
        · exact ⟨c, List.mem_of_getLast? hc, hp⟩
  · unfold pop
    rw [List.getLast?_eq_some_getLast h]
    exact ⟨_, rfl⟩
  · rw [List.length_eraseIdx, if_pos hk]; omega
  · have e := List.eraseIdx_eq_take_drop_succ l k
    have e2 : l = l.take k ++ l[k] :: l.drop (k + 1) := by
      rw [← List.drop_eq_getElem_cons hk, List.take_append_drop]
    rw [e]
    constructor
    · rintro ⟨x, hx, hp⟩
      rw [e2] at hx
      rcases List.mem_append.1 hx with h | h
      · exact Or.inl ⟨x, List.mem_append_left _ h, hp⟩
      · rcases List.mem_cons.1 h with h | h
        · rw [h] at hp; exact Or.inr hp
        · exact Or.inl ⟨x, List.mem_append_right _ h, hp⟩
    · rintro (⟨x, hx, hp⟩ | hp)
      · rcases List.mem_append.1 hx with h | h
        · exact ⟨x, List.mem_of_mem_take h, hp⟩
        · exact ⟨x, List.mem_of_mem_drop h, hp⟩
      · exact ⟨_, List.getElem_mem hk, hp⟩

theorem SubBox.refl (x : List (R × R)) : SubBox x x := List.forall₂_same.2 fun _ _ => ⟨le_rfl, le_rfl⟩

theorem SubBox.trans : ∀ {x y z : List (R × R)}, SubBox x y → SubBox y z → SubBox x z
  | _, _, _, .nil, .nil => .nil
  | _, _, _, .cons a h, .cons b g => .cons ⟨b.1.trans a.1, a.2.trans b.2⟩ (SubBox.trans h g)

theorem InBox.sub : ∀ {p : List R} {x y : List (R × R)}, InBox p x → SubBox x y → InBox p y
  | _, _, _, .nil, .nil => .nil
  | _, _, _, .cons a h, .cons b g => .cons ⟨b.1.trans a.1, a.2.trans b.2⟩ (InBox.sub h g)

theorem hull_spec : ∀ (x y : List (R × R)), x.length = y.length →
    SubBox x (List.zipWith (fun a b => (min a.1 b.1, max a.2 b.2)) x y) ∧
    SubBox y (List.zipWith (fun a b => (min a.1 b.1, max a.2 b.2)) x y) ∧
    ∀ z, SubBox x z → SubBox y z → SubBox (List.zipWith (fun a b => (min a.1 b.1, max a.2 b.2)) x y) z
  | [], [], _ => ⟨.nil, .nil, fun _ h _ => h⟩
  | a :: x, b :: y, h => by
    obtain ⟨h1, h2, h3⟩ := hull_spec x y (Nat.succ.inj h)
    refine ⟨.cons ⟨min_le_left _ _, le_max_left _ _⟩ h1, .cons ⟨min_le_right _ _, le_max_right _ _⟩ h2, fun z hx hy => ?_⟩
    cases hx with
    | cons p hx =>
      cases hy with
      | cons q hy => exact .cons ⟨le_min p.1 q.1, max_le p.2 q.2⟩ (h3 _ hx hy)

theorem hullLoop_spec (K : Basic B R) (d : ℕ) (hK : ∀ b, (K.boundingBox b).length = K.dimension b) :
    ∀ (bs : List B) (x : List (R × R)), x.length = d → Homogeneous K d bs → ∃ y, hullLoop K x bs = .ok y ∧ y.length = d ∧
      SubBox x y ∧ (∀ b ∈ bs, SubBox (K.boundingBox b) y) ∧
      ∀ z, SubBox x z → (∀ b ∈ bs, SubBox (K.boundingBox b) z) → SubBox y z := by
  intro bs
  induction bs with
  | nil => intro x hx _; exact ⟨x, rfl, hx, SubBox.refl x, fun b hb => absurd hb (by simp), fun z h _ => h⟩
  | cons b bs ih =>
    intro x hx hd
    have hlen : x.length = (K.boundingBox b).length := by rw [hK, hd b List.mem_cons_self, hx]
    obtain ⟨h1, h2, h3⟩ := hull_spec x (K.boundingBox b) hlen
    obtain ⟨y, g1, g2, g3, g4, g5⟩ := ih (List.zipWith (fun a b => (min a.1 b.1, max a.2 b.2)) x (K.boundingBox b))
      (by rw [List.length_zipWith, ← hlen, hx, Nat.min_self]) (fun c hc => hd c (List.mem_cons_of_mem _ hc))
    refine ⟨y, ?_, g2, h1.trans g3, fun c hc => ?_, fun z hz hb => ?_⟩
    · show (match hull x (K.boundingBox b) with | .ok y => hullLoop K y bs | .throws => .throws | .undefined => .undefined) = _
      rw [show hull x (K.boundingBox b) = .ok _ from if_pos hlen]
      exact g1
    · rcases List.mem_cons.1 hc with rfl | hc
      · exact h2.trans g3
      · exact g4 c hc
    · exact g5 z (h3 z hz (hb b List.mem_cons_self)) fun c hc => hb c (List.mem_cons_of_mem _ hc)

/-- **C110**: the bounding box of a list set which is not empty and has one dimension contains the union, and is in every box
which contains the boxes of the basic sets. -/
theorem C110_bounding_box (K : Basic B R) (pts : B → List R → Prop) (hK : ∀ b, (K.boundingBox b).length = K.dimension b)
    (hp : ∀ b p, pts b p → InBox p (K.boundingBox b)) (d : ℕ) (l : List B) (hne : l ≠ []) (hl : Homogeneous K d l) :
    ∃ x, boundingBox K l = .ok x ∧ x.length = d ∧ (∀ p, Union pts l p → InBox p x) ∧
      ∀ z, (∀ b ∈ l, SubBox (K.boundingBox b) z) → SubBox x z := by
  cases l with
  | nil => exact absurd rfl hne
  | cons b bs =>
    obtain ⟨x, h1, h2, h3, h4, h5⟩ := hullLoop_spec K d hK bs (K.boundingBox b)
      ((hK b).trans (hl b List.mem_cons_self)) (fun c hc => hl c (List.mem_cons_of_mem _ hc))
    refine ⟨x, h1, h2, ?_, fun z hz => h5 z (hz b List.mem_cons_self) fun c hc => hz c (List.mem_cons_of_mem _ hc)⟩
    rintro p ⟨c, hc, h⟩
    rcases List.mem_cons.1 hc with rfl | hc
    · exact (hp _ p h).sub h3
    · exact (hp c p h).sub (h4 c hc)

/-- Boxes as basic sets. -/
def boxes : Basic (List (ℕ × ℕ)) ℕ := ⟨List.length, id⟩

/-- **C110**: adjoining a list set to itself is not defined. -/
theorem C110_self_fails (K : Basic B R) (l : List B) : adjoinList K l l true = .undefined := by
  unfold adjoinList
  cases l.getLast? <;> simp

/-- **C110**: only the last elements are compared, so that a list set made from boxes of dimensions 2 and 1 is adjoined to one of
dimension 1, and the result has no bounding box. -/
theorem C110_mixed_fails : adjoinList boxes [[(0, 1)]] [[(0, 1), (0, 1)], [(2, 3)]] false =
      .ok [[(0, 1)], [(0, 1), (0, 1)], [(2, 3)]] ∧
    boundingBox boxes [[(0, 1)], [(0, 1), (0, 1)], [(2, 3)]] = .throws := by decide

example : Homogeneous boxes 1 [[(0, 1)], [(2, 3)]] ∧ boundingBox boxes [[(0, 1)], [(2, 3)]] = .ok [(0, 3)] := by
  refine ⟨fun b hb => ?_, by decide⟩
  simp at hb
  rcases hb with rfl | rfl <;> rfl

end Verif.ListSet
