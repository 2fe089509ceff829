import Verif.Interval.Model
import Mathlib.Order.Interval.Set.Basic
import Mathlib.Order.Interval.Set.OrdConnected
import Mathlib.Tactic.Linarith
import Mathlib.Tactic.Ring
import Mathlib.Algebra.Order.Ring.Rat

/-!
# C30: interval predicates

The point set of an interval is Mathlib's `Set.Icc`, its interior `Set.Ioo`.
-/

namespace Ariadne.Geometry.Interval
open Set

variable {K : Type*}

/-- C30: the predicates on closed intervals decide the set relations they name. -/
theorem C30_closed_predicates [LinearOrder K] (x y : Interval K) (a : K) (hx : x.l ≤ x.u) (hy : y.l ≤ y.u) :
    (contains x a = true ↔ a ∈ Icc x.l x.u) ∧
    (subset x y = true ↔ Icc x.l x.u ⊆ Icc y.l y.u) ∧
    (superset x y = true ↔ Icc y.l y.u ⊆ Icc x.l x.u) ∧
    (disjoint x y = true ↔ Icc x.l x.u ∩ Icc y.l y.u = ∅) ∧
    (separated x y = true ↔ Icc x.l x.u ∩ Icc y.l y.u = ∅) ∧
    (intersect x y = true ↔ (Icc x.l x.u ∩ Icc y.l y.u).Nonempty) ∧
    (opEq x y = true ↔ Icc x.l x.u = Icc y.l y.u) ∧
    (opNe x y = true ↔ Icc x.l x.u ≠ Icc y.l y.u) := by
  have hdis : (x.l > y.u ∨ x.u < y.l) ↔ Icc x.l x.u ∩ Icc y.l y.u = ∅ := by
    rw [Icc_inter_Icc, Icc_eq_empty_iff, not_le]
    simp only [min_lt_iff, lt_max_iff, gt_iff_lt]
    constructor
    · rintro (h | h)
      · left; right; exact h
      · right; left; exact h
    · rintro ((h | h) | (h | h))
      · exact absurd h (not_lt.2 hx)
      · left; exact h
      · right; exact h
      · exact absurd h (not_lt.2 hy)
  have heq : (x.l = y.l ∧ x.u = y.u) ↔ Icc x.l x.u = Icc y.l y.u := by
    rw [Icc_eq_Icc_iff hx]
  refine ⟨?_, ?_, ?_, ?_, ?_, ?_, ?_, ?_⟩
  · simp [contains]
  · simp [subset, Icc_subset_Icc_iff hx]
  · simp [superset, Icc_subset_Icc_iff hy]
  · rw [← hdis]; simp [disjoint]
  · rw [← hdis]; simp [separated]
  · rw [nonempty_iff_ne_empty, ne_eq, ← hdis]; simp [intersect]
  · rw [← heq]; simp [opEq]
  · rw [ne_eq, ← heq]; simp only [opNe, Bool.or_eq_true, decide_eq_true_eq]; tauto

/-- C30: the predicates on interiors; `overlap` also counts a point inside the other
interval. -/
theorem C30_interior_predicates [LinearOrder K] [DenselyOrdered K] (x y : Interval K)
    (hx : x.l ≤ x.u) (hy : y.l ≤ y.u) :
    (inside x y = true ↔ Icc x.l x.u ⊆ Ioo y.l y.u) ∧
    (covers x y = true ↔ Icc y.l y.u ⊆ Ioo x.l x.u) ∧
    (overlap x y = true ↔ (Ioo x.l x.u ∩ Icc y.l y.u).Nonempty ∨ (Icc x.l x.u ∩ Ioo y.l y.u).Nonempty) := by
  refine ⟨?_, ?_, ?_⟩
  · simp [inside, Icc_subset_Ioo_iff hx]
  · simp [covers, Icc_subset_Ioo_iff hy]
  · simp only [overlap, Bool.and_eq_true, decide_eq_true_eq, gt_iff_lt]
    constructor
    · rintro ⟨h1, h2⟩
      rcases lt_or_eq_of_le hx with hlt | heq
      · left
        by_cases h3 : y.l ≤ x.l
        · obtain ⟨c, c1, c2⟩ := exists_between (lt_min hlt h1)
          exact ⟨c, ⟨c1, c2.trans_le (min_le_left _ _)⟩, ⟨h3.trans c1.le, (c2.trans_le (min_le_right _ _)).le⟩⟩
        · exact ⟨y.l, ⟨not_le.1 h3, h2⟩, ⟨le_rfl, hy⟩⟩
      · right
        exact ⟨x.l, ⟨le_rfl, hx⟩, ⟨heq ▸ h2, h1⟩⟩
    · rintro (⟨c, ⟨c1, c2⟩, ⟨c3, c4⟩⟩ | ⟨c, ⟨c1, c2⟩, ⟨c3, c4⟩⟩)
      · exact ⟨c1.trans_le c4, c3.trans_lt c2⟩
      · exact ⟨c1.trans_lt c4, c3.trans_le c2⟩

/-- C30: proper intervals overlap iff their interiors meet. -/
theorem C30_overlap_proper [LinearOrder K] [DenselyOrdered K] (x y : Interval K)
    (hx : x.l < x.u) (hy : y.l < y.u) : overlap x y = true ↔ (Ioo x.l x.u ∩ Ioo y.l y.u).Nonempty := by
  rw [Ioo_inter_Ioo, nonempty_Ioo, max_lt_iff, lt_min_iff, lt_min_iff]
  simp only [overlap, Bool.and_eq_true, decide_eq_true_eq, gt_iff_lt]
  tauto

/-- C30: intersection, hull and emptiness. -/
theorem C30_operations [LinearOrder K] (x y : Interval K) (a : K) :
    (isEmpty x = true ↔ Icc x.l x.u = ∅) ∧
    (isSingleton x = true ↔ ∃ c, Icc x.l x.u = {c}) ∧
    Icc (intersection x y).l (intersection x y).u = Icc x.l x.u ∩ Icc y.l y.u ∧
    (Icc x.l x.u ∪ Icc y.l y.u ⊆ Icc (hull x y).l (hull x y).u) ∧
    (x.l ≤ x.u → y.l ≤ y.u → ∀ s : Set K, s.OrdConnected → Icc x.l x.u ∪ Icc y.l y.u ⊆ s →
      Icc (hull x y).l (hull x y).u ⊆ s) ∧
    (Icc x.l x.u ∪ {a} ⊆ Icc (hullPoint x a).l (hullPoint x a).u) := by
  refine ⟨?_, ?_, ?_, ?_, ?_, ?_⟩
  · rw [Icc_eq_empty_iff]; simp [isEmpty]
  · simp only [isSingleton, decide_eq_true_eq]
    constructor
    · intro h; exact ⟨x.l, by rw [← h, Icc_self]⟩
    · rintro ⟨c, hc⟩
      have := Icc_eq_singleton_iff.1 hc
      rw [this.1, this.2]
  · exact Icc_inter_Icc.symm
  · rintro c (⟨h1, h2⟩ | ⟨h1, h2⟩)
    · exact ⟨min_le_of_left_le h1, le_max_of_le_left h2⟩
    · exact ⟨min_le_of_right_le h1, le_max_of_le_right h2⟩
  · intro hx hy s hs hsub
    have hl : min x.l y.l ∈ s := by
      rcases min_choice x.l y.l with h | h <;> rw [h]
      · exact hsub (Or.inl ⟨le_rfl, hx⟩)
      · exact hsub (Or.inr ⟨le_rfl, hy⟩)
    have hu : max x.u y.u ∈ s := by
      rcases max_choice x.u y.u with h | h <;> rw [h]
      · exact hsub (Or.inl ⟨hx, le_rfl⟩)
      · exact hsub (Or.inr ⟨hy, le_rfl⟩)
    exact hs.out hl hu
  · rintro c (⟨h1, h2⟩ | h)
    · exact ⟨min_le_of_left_le h1, le_max_of_le_left h2⟩
    · rw [mem_singleton_iff] at h; rw [h]
      exact ⟨min_le_right _ _, le_max_right _ _⟩

/-- C30 fails for `equal`: it holds also if the second interval is a proper part of the
first with the same upper bound. -/
theorem C30_equal_counterexample :
    equal (⟨0, 2⟩ : Interval ℚ) ⟨1, 2⟩ = true ∧ Icc (0 : ℚ) 2 ≠ Icc 1 2 := by
  refine ⟨by decide +kernel, fun h => ?_⟩
  have : (0 : ℚ) ∈ Icc (1 : ℚ) 2 := h ▸ ⟨le_rfl, by norm_num⟩
  exact absurd this.1 (by norm_num)

/-- C30: what `equal` decides. -/
theorem C30_equal_partial [LinearOrder K] (x y : Interval K) (hx : x.l ≤ x.u) (hy : y.l ≤ y.u) :
    (Icc x.l x.u = Icc y.l y.u → equal x y = true) ∧
    (equal x y = true ↔ Icc y.l y.u ⊆ Icc x.l x.u ∧ x.u = y.u) := by
  constructor
  · intro h
    rw [Icc_eq_Icc_iff hx] at h
    simp [equal, h.1, h.2]
  · rw [Icc_subset_Icc_iff hy]
    simp only [equal, Bool.and_eq_true, decide_eq_true_eq]
    constructor
    · rintro ⟨h1, h2⟩; exact ⟨⟨h1, h2.ge⟩, h2⟩
    · rintro ⟨⟨h1, _⟩, h2⟩; exact ⟨h1, h2⟩

variable [Field K] [LinearOrder K] [IsStrictOrderedRing K]

/-- C30: splitting covers the interval and the parts share only the middle point; the
radius bounds the distance to the midpoint.  `mid` may be rounded, but must stay in
the interval. -/
theorem C30_split (mid : K → K → K) (x : Interval K) (h1 : x.l ≤ mid x.l x.u) (h2 : mid x.l x.u ≤ x.u) :
    (∀ a, a ∈ Icc x.l x.u ↔ a ∈ Icc (split mid x).1.l (split mid x).1.u ∨ a ∈ Icc (split mid x).2.l (split mid x).2.u) ∧
    (∀ a, a ∈ Icc (split mid x).1.l (split mid x).1.u → a ∈ Icc (split mid x).2.l (split mid x).2.u →
      a = midpoint mid x) ∧
    (∀ q1 q3, splitPart mid q1 q3 x .lower = (split mid x).1 ∧ splitPart mid q1 q3 x .upper = (split mid x).2) ∧
    (∀ a ∈ Icc x.l x.u, |a - midpoint mid x| ≤ radius mid x) := by
  refine ⟨fun a => ?_, fun a => ?_, fun q1 q3 => ⟨rfl, rfl⟩, fun a => ?_⟩
  · simp only [split, mem_Icc]
    constructor
    · rintro ⟨ha, hb⟩
      rcases le_total a (mid x.l x.u) with h | h
      · left; exact ⟨ha, h⟩
      · right; exact ⟨h, hb⟩
    · rintro (⟨ha, hb⟩ | ⟨ha, hb⟩)
      · exact ⟨ha, hb.trans h2⟩
      · exact ⟨h1.trans ha, hb⟩
  · simp only [split, mem_Icc, midpoint]
    rintro ⟨_, hb⟩ ⟨hc, _⟩
    exact le_antisymm hb hc
  · rintro ⟨ha, hb⟩
    rw [abs_le]
    unfold radius
    have e1 := le_max_left (x.u - midpoint mid x) (midpoint mid x - x.l)
    have e2 := le_max_right (x.u - midpoint mid x) (midpoint mid x - x.l)
    constructor <;> linarith

/-- C30: the exact quarter points: the middle part is the middle half. -/
theorem C30_split_middle (mid : K → K → K) (x : Interval K) (hx : x.l ≤ x.u) (a : K) :
    a ∈ Icc (splitPart mid (fun l u => (3 * l + u) / 4) (fun l u => (l + 3 * u) / 4) x .middle).l
        (splitPart mid (fun l u => (3 * l + u) / 4) (fun l u => (l + 3 * u) / 4) x .middle).u ↔
      |a - (x.l + x.u) / 2| ≤ width x / 4 := by
  simp only [splitPart, mem_Icc, abs_le, width]
  constructor <;> rintro ⟨h1, h2⟩ <;> constructor <;> linarith

/-- C30: widening adds, narrowing removes, the points up to distance `e`. -/
theorem C30_widen_narrow (x : Interval K) (e : K) (he : 0 < e) (hx : x.l ≤ x.u) :
    Icc x.l x.u ⊆ Ioo (widen x e).l (widen x e).u ∧
    Icc (narrow x e).l (narrow x e).u ⊆ Ioo x.l x.u ∧
    (∀ a ∈ Icc x.l x.u, ∀ b, |b - a| ≤ e → b ∈ Icc (widen x e).l (widen x e).u) ∧
    (∀ a ∈ Icc (narrow x e).l (narrow x e).u, ∀ b, |b - a| ≤ e → b ∈ Icc x.l x.u) := by
  refine ⟨?_, ?_, ?_, ?_⟩
  · rintro a ⟨h1, h2⟩; simp only [widen, mem_Ioo]; constructor <;> linarith
  · rintro a ⟨h1, h2⟩; simp only [narrow] at h1 h2; constructor <;> linarith
  · rintro a ⟨h1, h2⟩ b hb
    rw [abs_le] at hb
    simp only [widen, mem_Icc]; constructor <;> linarith
  · rintro a ⟨h1, h2⟩ b hb
    rw [abs_le] at hb
    simp only [narrow] at h1 h2; constructor <;> linarith

/-- Non-vacuity: proper, overlapping and touching intervals; the exact midpoint. -/
example : overlap (⟨0, 2⟩ : Interval ℚ) ⟨1, 3⟩ = true ∧ overlap (⟨0, 1⟩ : Interval ℚ) ⟨1, 3⟩ = false ∧
    intersect (⟨0, 1⟩ : Interval ℚ) ⟨1, 3⟩ = true := by decide +kernel
example (x : Interval ℚ) (h : x.l ≤ x.u) : x.l ≤ (x.l + x.u) / 2 ∧ (x.l + x.u) / 2 ≤ x.u := by
  constructor <;> linarith

end Ariadne.Geometry.Interval
