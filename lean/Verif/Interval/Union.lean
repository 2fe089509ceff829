import Verif.Interval.Props
import Mathlib.MeasureTheory.Measure.Lebesgue.Basic

/-!
# C31: unions of intervals
-/

namespace Ariadne.Geometry.UnionOfIntervals
open Set

variable {K : Type*} [LinearOrder K]

/-- the set denoted: the union of the point sets of the components -/
def points (A : List (Interval K)) : Set K := {x | ∃ I ∈ A, x ∈ Icc I.l I.u}

/-- components sorted and disjoint, with gaps in between -/
def Normal (A : List (Interval K)) : Prop := A.Pairwise fun I J => I.u < J.l

/-- no component is empty -/
def Proper (A : List (Interval K)) : Prop := ∀ I ∈ A, I.l ≤ I.u

theorem points_cons (I : Interval K) (A : List (Interval K)) : points (I :: A) = Icc I.l I.u ∪ points A := by
  ext x; simp [points]

theorem points_append (A B : List (Interval K)) : points (A ++ B) = points A ∪ points B := by
  ext x; simp only [points, List.mem_append, mem_setOf_eq, mem_union]
  constructor
  · rintro ⟨I, h | h, hx⟩
    · exact Or.inl ⟨I, h, hx⟩
    · exact Or.inr ⟨I, h, hx⟩
  · rintro (⟨I, h, hx⟩ | ⟨I, h, hx⟩)
    · exact ⟨I, Or.inl h, hx⟩
    · exact ⟨I, Or.inr h, hx⟩

theorem not_less_iff (x y : Interval K) : less y x = false ↔ x.l < y.l ∨ (x.l = y.l ∧ x.u ≤ y.u) := by
  unfold less
  rcases lt_trichotomy x.l y.l with h | h | h
  · simp [h, h.ne', not_lt.2 h.le]
  · simp [h]
  · simp [h, h.ne', not_lt.2 h.le]

theorem sort_perm (xs : List (Interval K)) : (sort xs).Perm xs := List.mergeSort_perm _ _

theorem sort_sorted (xs : List (Interval K)) : (sort xs).Pairwise fun x y => x.l ≤ y.l := by
  have h := List.pairwise_mergeSort (le := fun x y : Interval K => !less y x) (l := xs)
    (by
      intro a b c h1 h2
      simp only [Bool.not_eq_true', not_less_iff] at *
      rcases h1 with h1 | ⟨h1, h1'⟩ <;> rcases h2 with h2 | ⟨h2, h2'⟩
      · left; exact h1.trans h2
      · left; exact h2 ▸ h1
      · left; exact h1 ▸ h2
      · right; exact ⟨h1.trans h2, h1'.trans h2'⟩)
    (by
      intro a b
      simp only [Bool.or_eq_true, Bool.not_eq_true', not_less_iff]
      rcases lt_trichotomy a.l b.l with h | h | h
      · left; left; exact h
      · rcases le_total a.u b.u with h' | h'
        · left; right; exact ⟨h, h'⟩
        · right; right; exact ⟨h.symm, h'⟩
      · right; left; exact h)
  refine h.imp ?_
  intro a b hab
  simp only [Bool.not_eq_true', not_less_iff] at hab
  rcases hab with h | ⟨h, _⟩
  · exact h.le
  · exact h.le

theorem points_perm {A B : List (Interval K)} (h : A.Perm B) : points A = points B := by
  ext x; simp only [points, mem_setOf_eq]
  constructor <;> rintro ⟨I, hI, hx⟩
  · exact ⟨I, h.mem_iff.1 hI, hx⟩
  · exact ⟨I, h.mem_iff.2 hI, hx⟩

theorem combineFrom_spec (xs : List (Interval K)) : ∀ cur : Interval K,
    (∀ x ∈ xs, cur.l ≤ x.l) → xs.Pairwise (fun x y => x.l ≤ y.l) →
    points (combineFrom cur xs) = points (cur :: xs) ∧ Normal (combineFrom cur xs) ∧
    (∀ I ∈ combineFrom cur xs, cur.l ≤ I.l) ∧ (Proper (cur :: xs) → Proper (combineFrom cur xs)) := by
  induction xs with
  | nil =>
    intro cur _ _
    refine ⟨rfl, ?_, ?_, id⟩
    · simp [combineFrom, Normal]
    · simp [combineFrom]
  | cons n ns ih =>
    intro cur h1 h2
    rw [List.pairwise_cons] at h2
    by_cases h : n.l ≤ cur.u
    · rw [combineFrom, if_pos h]
      obtain ⟨a, b, c, d⟩ := ih ⟨cur.l, max cur.u n.u⟩ (fun x hx => h1 x (by simp [hx])) h2.2
      refine ⟨?_, b, c, ?_⟩
      · rw [a, points_cons, points_cons, points_cons, ← union_assoc]
        congr 1
        have hl : cur.l ≤ n.l := h1 n (by simp)
        ext x; simp only [mem_Icc, mem_union, le_max_iff]
        constructor
        · rintro ⟨p, q | q⟩
          · left; exact ⟨p, q⟩
          · rcases le_total x cur.u with r | r
            · left; exact ⟨p, r⟩
            · right; exact ⟨h.trans r, q⟩
        · rintro (⟨p, q⟩ | ⟨p, q⟩)
          · exact ⟨p, Or.inl q⟩
          · exact ⟨hl.trans p, Or.inr q⟩
      · intro hp
        apply d
        intro I hI
        rcases List.mem_cons.1 hI with e | e
        · rw [e]; exact (hp cur (by simp)).trans (le_max_left _ _)
        · exact hp I (by simp [e])
    · rw [combineFrom, if_neg h]
      obtain ⟨a, b, c, d⟩ := ih n h2.1 h2.2
      refine ⟨?_, ?_, ?_, ?_⟩
      · rw [points_cons, a, points_cons cur]
      · refine List.pairwise_cons.2 ⟨fun I hI => ?_, b⟩
        exact (not_le.1 h).trans_le (c I hI)
      · intro I hI
        rcases List.mem_cons.1 hI with e | e
        · rw [e]
        · exact (h1 n (by simp)).trans (c I e)
      · intro hp I hI
        rcases List.mem_cons.1 hI with e | e
        · rw [e]; exact hp cur (by simp)
        · exact d (fun J hJ => hp J (List.mem_cons_of_mem _ hJ)) I e

/-- C31: a union built from any list of intervals denotes their union, and its components
are sorted and separated; they are non-empty if the intervals given are. -/
theorem C31_construct (xs : List (Interval K)) :
    points (ofList xs) = points xs ∧ Normal (ofList xs) ∧ (Proper xs → Proper (ofList xs)) := by
  unfold ofList
  have hp := sort_perm xs
  have hs := sort_sorted xs
  cases e : sort xs with
  | nil =>
    rw [e] at hp
    rw [← points_perm hp]
    exact ⟨rfl, by simp [combine, Normal], fun _ => by simp [combine, Proper]⟩
  | cons x ys =>
    rw [e] at hp hs
    rw [List.pairwise_cons] at hs
    obtain ⟨a, b, _, d⟩ := combineFrom_spec ys x hs.1 hs.2
    refine ⟨?_, b, fun h => d fun I hI => h I (hp.mem_iff.1 hI)⟩
    rw [combine, a, points_perm hp]

/-- C31 fails for the constructors which convert the end points: the components are
neither sorted nor combined, and `subset` then denies an inclusion. -/
theorem C31_convert_counterexample :
    let A := ofConverted (fun q : ℚ => q) [⟨2, 3⟩, ⟨0, 1⟩]
    ¬ Normal A ∧ points [(⟨0, 1⟩ : Interval ℚ)] ⊆ points A ∧ subset [⟨0, 1⟩] A = false := by
  refine ⟨?_, ?_, ?_⟩
  · intro h
    simp only [ofConverted, Normal, List.map_cons, List.map_nil, List.pairwise_cons] at h
    exact absurd (h.1 ⟨0, 1⟩ (by simp)) (by norm_num)
  · rintro x ⟨I, hI, hx⟩
    exact ⟨I, by simp only [ofConverted, List.map_cons, List.map_nil, List.mem_cons] at *; tauto, hx⟩
  · simp only [ofConverted, List.map_cons, List.map_nil]
    rw [subset]; norm_num

/-- C31: converting the end points by a monotone map keeps sorted components sorted. -/
theorem C31_convert_partial {L : Type*} [LinearOrder L] (conv : L → K) (hc : StrictMono conv)
    (xs : List (Interval L)) (h : UnionOfIntervals.Normal xs) : Normal (ofConverted conv xs) := by
  unfold Normal ofConverted
  rw [List.pairwise_map]
  exact h.imp fun h => hc h

/-- C31: `join` is the union. -/
theorem C31_join (A B : List (Interval K)) :
    points (join A B) = points A ∪ points B ∧ Normal (join A B) := by
  obtain ⟨a, b, _⟩ := C31_construct (A ++ B)
  exact ⟨by rw [join, a, points_append], b⟩

/-! ### intersect -/

theorem normal_lower {a : Interval K} {as : List (Interval K)} (hn : Normal (a :: as)) (hp : Proper (a :: as))
    {I : Interval K} (hI : I ∈ a :: as) : a.l ≤ I.l := by
  rcases List.mem_cons.1 hI with e | e
  · rw [e]
  · exact (hp a (by simp)).trans ((List.pairwise_cons.1 hn).1 I e).le

theorem Normal.tail {a : Interval K} {as : List (Interval K)} (h : Normal (a :: as)) : Normal as :=
  (List.pairwise_cons.1 h).2
theorem Proper.tail {a : Interval K} {as : List (Interval K)} (h : Proper (a :: as)) : Proper as :=
  fun I hI => h I (by simp [hI])

/-- C31: `intersect` (and so `overlaps`, and the negation of `separated`) decides whether
some component of one overlaps some component of the other. -/
theorem C31_intersect {A B : List (Interval K)} (hA : Normal A) (hA' : Proper A) (hB : Normal B) (hB' : Proper B) :
    intersect A B = true ↔ ∃ I ∈ A, ∃ J ∈ B, Interval.overlap I J = true := by
  induction hn : A.length + B.length using Nat.strong_induction_on generalizing A B with
  | _ n ih =>
    cases A with
    | nil => rw [intersect]; simp
    | cons a as =>
      cases B with
      | nil => simp [intersect]
      | cons b bs =>
        rw [intersect]
        by_cases h1 : a.l ≥ b.u
        · rw [if_pos h1, ih _ (by simp at hn ⊢; omega) hA hA' hB.tail hB'.tail rfl]
          constructor
          · rintro ⟨I, hI, J, hJ, h⟩; exact ⟨I, hI, J, by simp [hJ], h⟩
          · rintro ⟨I, hI, J, hJ, h⟩
            refine ⟨I, hI, J, ?_, h⟩
            rcases List.mem_cons.1 hJ with e | e
            · exfalso
              simp only [Interval.overlap, Bool.and_eq_true, decide_eq_true_eq, e] at h
              exact absurd h.1 (not_lt.2 (h1.le.trans (normal_lower hA hA' hI)))
            · exact e
        · rw [if_neg h1]
          by_cases h2 : a.u ≤ b.l
          · rw [if_pos h2, ih _ (by simp at hn ⊢; omega) hA.tail hA'.tail hB hB' rfl]
            constructor
            · rintro ⟨I, hI, J, hJ, h⟩; exact ⟨I, by simp [hI], J, hJ, h⟩
            · rintro ⟨I, hI, J, hJ, h⟩
              refine ⟨I, ?_, J, hJ, h⟩
              rcases List.mem_cons.1 hI with e | e
              · exfalso
                simp only [Interval.overlap, Bool.and_eq_true, decide_eq_true_eq, e] at h
                exact absurd h.2 (not_lt.2 (h2.trans (normal_lower hB hB' hJ)))
              · exact e
          · rw [if_neg h2]
            refine ⟨fun _ => ⟨a, by simp, b, by simp, ?_⟩, fun _ => rfl⟩
            simp only [Interval.overlap, Bool.and_eq_true, decide_eq_true_eq]
            exact ⟨not_le.1 h1, not_le.1 h2⟩

/-- C31: for unions of proper intervals `intersect` decides whether interior points are shared. -/
theorem C31_intersect_points [DenselyOrdered K] {A B : List (Interval K)} (hA : Normal A) (hA' : ∀ I ∈ A, I.l < I.u)
    (hB : Normal B) (hB' : ∀ I ∈ B, I.l < I.u) :
    intersect A B = true ↔ ∃ x, (∃ I ∈ A, x ∈ Ioo I.l I.u) ∧ ∃ J ∈ B, x ∈ Ioo J.l J.u := by
  rw [C31_intersect hA (fun I h => (hA' I h).le) hB (fun I h => (hB' I h).le)]
  constructor
  · rintro ⟨I, hI, J, hJ, h⟩
    obtain ⟨x, h1, h2⟩ := (Interval.C30_overlap_proper I J (hA' I hI) (hB' J hJ)).1 h
    exact ⟨x, ⟨I, hI, h1⟩, J, hJ, h2⟩
  · rintro ⟨x, ⟨I, hI, h1⟩, J, hJ, h2⟩
    exact ⟨I, hI, J, hJ, (Interval.C30_overlap_proper I J (hA' I hI) (hB' J hJ)).2 ⟨x, h1, h2⟩⟩

/-! ### subset -/

theorem subset_sound (A B : List (Interval K)) (h : subset A B = true) :
    ∀ I ∈ A, ∃ J ∈ B, Icc I.l I.u ⊆ Icc J.l J.u := by
  induction hn : A.length + B.length using Nat.strong_induction_on generalizing A B with
  | _ n ih =>
    cases A with
    | nil => simp
    | cons a as =>
      cases B with
      | nil => rw [subset] at h; cases h
      | cons b bs =>
        rw [subset] at h
        by_cases h1 : a.l ≥ b.u
        · rw [if_pos h1] at h
          intro I hI
          obtain ⟨J, hJ, hs⟩ := ih _ (by simp at hn ⊢; omega) (a :: as) bs h rfl I hI
          exact ⟨J, by simp [hJ], hs⟩
        · rw [if_neg h1] at h
          by_cases h2 : a.l ≥ b.l ∧ a.u ≤ b.u
          · rw [if_pos h2] at h
            intro I hI
            rcases List.mem_cons.1 hI with e | e
            · rw [e]; exact ⟨b, by simp, Icc_subset_Icc h2.1 h2.2⟩
            · exact ih _ (by simp at hn ⊢; omega) as (b :: bs) h rfl I e
          · rw [if_neg h2] at h; cases h

/-- An interval covered by a normal union lies in one component. -/
theorem covered_by_one [DenselyOrdered K] {I : Interval K} (hI : I.l ≤ I.u) :
    ∀ {B : List (Interval K)}, Normal B → Proper B → Icc I.l I.u ⊆ points B → ∃ J ∈ B, J.l ≤ I.l ∧ I.u ≤ J.u := by
  intro B
  induction B with
  | nil =>
    intro _ _ h
    obtain ⟨J, hJ, _⟩ := h (⟨le_rfl, hI⟩ : I.l ∈ Icc I.l I.u)
    simp at hJ
  | cons J B ih =>
    intro hn hp h
    by_cases h1 : J.u < I.l
    · obtain ⟨J', h2, h3⟩ := ih hn.tail hp.tail (by
        intro x hx
        obtain ⟨K', hK, hxK⟩ := h hx
        rcases List.mem_cons.1 hK with e | e
        · rw [e] at hxK; exact absurd (h1.trans_le hx.1) (not_lt.2 hxK.2)
        · exact ⟨K', e, hxK⟩)
      exact ⟨J', by simp [h2], h3⟩
    · push Not at h1
      refine ⟨J, by simp, ?_, ?_⟩
      · obtain ⟨K', hK, hx⟩ := h (⟨le_rfl, hI⟩ : I.l ∈ Icc I.l I.u)
        exact (normal_lower hn hp hK).trans hx.1
      · by_contra h2
        push Not at h2
        cases B with
        | nil =>
          obtain ⟨K', hK, hx⟩ := h (⟨hI, le_rfl⟩ : I.u ∈ Icc I.l I.u)
          simp only [List.mem_singleton] at hK
          rw [hK] at hx
          exact absurd h2 (not_lt.2 hx.2)
        | cons J2 B =>
          have hgap := (List.pairwise_cons.1 hn).1 J2 (by simp)
          obtain ⟨x, x1, x2⟩ := exists_between (lt_min h2 hgap)
          obtain ⟨K', hK, hx⟩ := h (⟨h1.trans x1.le, (x2.trans_le (min_le_left _ _)).le⟩ : x ∈ Icc I.l I.u)
          rcases List.mem_cons.1 hK with e | e
          · rw [e] at hx; exact absurd x1 (not_lt.2 hx.2)
          · have := (normal_lower hn.tail hp.tail e).trans hx.1
            exact absurd (x2.trans_le (min_le_right _ _)) (not_lt.2 this)

theorem subset_complete (A B : List (Interval K)) (hA : Normal A) (hA' : ∀ I ∈ A, I.l < I.u)
    (h : ∀ I ∈ A, ∃ J ∈ B, J.l ≤ I.l ∧ I.u ≤ J.u) (hB : Normal B) (hB' : Proper B) : subset A B = true := by
  induction hn : A.length + B.length using Nat.strong_induction_on generalizing A B with
  | _ n ih =>
    cases A with
    | nil => rw [subset]
    | cons a as =>
      obtain ⟨J, hJ, j1, j2⟩ := h a (by simp)
      cases B with
      | nil => simp at hJ
      | cons b bs =>
        rw [subset]
        by_cases h1 : a.l ≥ b.u
        · rw [if_pos h1]
          refine ih _ (by simp at hn ⊢; omega) _ _ hA hA' ?_ hB.tail hB'.tail rfl
          intro I hI
          obtain ⟨J', hJ', k1, k2⟩ := h I hI
          refine ⟨J', ?_, k1, k2⟩
          rcases List.mem_cons.1 hJ' with e | e
          · exfalso
            rw [e] at k2
            have q1 := normal_lower hA (fun I h => (hA' I h).le) hI
            have q2 := hA' I hI
            exact absurd (h1.le.trans q1) (not_le.2 (q2.trans_le k2))
          · exact e
        · rw [if_neg h1]
          have hJb : J = b := by
            rcases List.mem_cons.1 hJ with e | e
            · exact e
            · exfalso
              exact h1 (((List.pairwise_cons.1 hB).1 J e).le.trans j1)
          rw [hJb] at j1 j2
          rw [if_pos ⟨j1, j2⟩]
          exact ih _ (by simp at hn ⊢; omega) _ _ hA.tail (fun I hI => hA' I (by simp [hI]))
            (fun I hI => h I (by simp [hI])) hB hB' rfl

/-- C31: `subset` is sound for all unions, and decides inclusion if the components of the
first are proper intervals. -/
theorem C31_subset_partial [DenselyOrdered K] {A B : List (Interval K)} :
    (subset A B = true → points A ⊆ points B) ∧
    (Normal A → (∀ I ∈ A, I.l < I.u) → Normal B → Proper B → points A ⊆ points B → subset A B = true) := by
  constructor
  · rintro h x ⟨I, hI, hx⟩
    obtain ⟨J, hJ, hs⟩ := subset_sound A B h I hI
    exact ⟨J, hJ, hs hx⟩
  · intro hA hA' hB hB' h
    refine subset_complete A B hA hA' ?_ hB hB'
    intro I hI
    exact covered_by_one (hA' I hI).le hB hB' fun x hx => h ⟨I, hI, hx⟩

/-- C31 fails for single points at an upper end point: `subset` denies the inclusion. -/
theorem C31_subset_counterexample :
    points [(⟨1, 1⟩ : Interval ℚ)] ⊆ points [⟨0, 1⟩] ∧ subset [(⟨1, 1⟩ : Interval ℚ)] [⟨0, 1⟩] = false := by
  constructor
  · rintro x ⟨I, hI, h1, h2⟩
    simp only [List.mem_singleton] at hI
    rw [hI] at h1 h2
    refine ⟨⟨0, 1⟩, by simp, ?_, h2⟩
    simp only at h1 ⊢; linarith
  · rw [subset, if_pos (by simp), subset]

/-! ### intersection -/

theorem intersectionLoop_sound (A B : List (Interval K)) :
    points (intersectionLoop A B) ⊆ points A ∩ points B := by
  induction hn : A.length + B.length using Nat.strong_induction_on generalizing A B with
  | _ n ih =>
    cases A with
    | nil => rw [intersectionLoop]; rintro x ⟨I, hI, _⟩; simp at hI
    | cons a as =>
      cases B with
      | nil => rw [intersectionLoop]; · rintro x ⟨I, hI, _⟩; simp at hI
               · simp
      | cons b bs =>
        have i1 := ih _ (by simp at hn ⊢; omega) as (b :: bs) rfl
        have i2 := ih _ (by simp at hn ⊢; omega) (a :: as) bs rfl
        have i1' : points (intersectionLoop as (b :: bs)) ⊆ points (a :: as) ∩ points (b :: bs) := by
          refine i1.trans ?_; rw [points_cons a]; exact inter_subset_inter_left _ subset_union_right
        have i2' : points (intersectionLoop (a :: as) bs) ⊆ points (a :: as) ∩ points (b :: bs) := by
          refine i2.trans ?_; rw [points_cons b]; exact inter_subset_inter_right _ subset_union_right
        rw [intersectionLoop]
        by_cases h1 : a.l ≥ b.u
        · rw [if_pos h1]; exact i1'
        · rw [if_neg h1]
          by_cases h2 : b.l ≥ a.u
          · rw [if_pos h2]; exact i2'
          · rw [if_neg h2, points_cons]
            apply union_subset
            · rintro x ⟨x1, x2⟩
              rw [points_cons, points_cons]
              simp only at x1 x2
              rw [max_le_iff] at x1; rw [le_min_iff] at x2
              exact ⟨Or.inl ⟨x1.1, x2.1⟩, Or.inl ⟨x1.2, x2.2⟩⟩
            · split_ifs
              · exact i1'
              · exact i2'

/-- C31: `intersection` yields only common points; for single overlapping intervals it
yields all of them. -/
theorem C31_intersection_partial (A B : List (Interval K)) :
    points (intersection A B) ⊆ points A ∩ points B ∧ Normal (intersection A B) ∧
    (∀ a b : Interval K, Interval.overlap a b = true →
      points (intersection [a] [b]) = Icc a.l a.u ∩ Icc b.l b.u) := by
  refine ⟨?_, (C31_construct _).2.1, ?_⟩
  · unfold intersection
    rw [(C31_construct _).1]; exact intersectionLoop_sound A B
  · intro a b h
    simp only [Interval.overlap, Bool.and_eq_true, decide_eq_true_eq, gt_iff_lt] at h
    unfold intersection
    rw [(C31_construct _).1]
    have hl : intersectionLoop [a] [b] = [⟨max a.l b.l, min a.u b.u⟩] := by
      rw [intersectionLoop, if_neg (not_le.2 h.1), if_neg (not_le.2 h.2)]
      split_ifs <;> simp [intersectionLoop]
    rw [hl, points_cons, Icc_inter_Icc]
    have : points ([] : List (Interval K)) = ∅ := by ext; simp [points]
    rw [this, union_empty]

/-- C31 fails: `intersection` advances the wrong iterator and loses whole components. -/
theorem C31_intersection_counterexample :
    intersection [(⟨2, 3⟩ : Interval ℚ)] [⟨0, 1⟩, ⟨2, 3⟩] = [] ∧
    (2 : ℚ) ∈ points [(⟨2, 3⟩ : Interval ℚ)] ∩ points [⟨0, 1⟩, ⟨2, 3⟩] := by
  constructor
  · have : intersectionLoop [(⟨2, 3⟩ : Interval ℚ)] [⟨0, 1⟩, ⟨2, 3⟩] = [] := by
      rw [intersectionLoop, if_pos (by norm_num), intersectionLoop]
    unfold intersection ofList
    rw [this]; simp [sort, combine]
  · exact ⟨⟨⟨2, 3⟩, by simp, by norm_num⟩, ⟨⟨2, 3⟩, by simp, by norm_num⟩⟩

/-! ### bounding box and measure -/

/-- C31: the bounding box is the smallest interval containing the union. -/
theorem C31_boundingBox {A : List (Interval K)} (hn : Normal A) (hp : Proper A) :
    (boundingBox A = none ↔ A = []) ∧
    ∀ r, boundingBox A = some r → points A ⊆ Icc r.l r.u ∧ r.l ∈ points A ∧ r.u ∈ points A := by
  constructor
  · cases A with
    | nil => simp [boundingBox]
    | cons a as =>
      simp only [boundingBox, List.head?_cons, List.getLast?_cons]
      simp
  · intro r hr
    cases A with
    | nil => simp [boundingBox] at hr
    | cons a as =>
      obtain ⟨b, hb⟩ : ∃ b, (a :: as).getLast? = some b := ⟨_, List.getLast?_cons⟩
      simp only [boundingBox, List.head?_cons, hb, Option.some.injEq] at hr
      subst hr
      have hbm : b ∈ a :: as := List.mem_of_getLast? hb
      refine ⟨?_, ⟨a, by simp, le_rfl, hp a (by simp)⟩, ⟨b, hbm, hp b hbm, le_rfl⟩⟩
      rintro x ⟨I, hI, x1, x2⟩
      refine ⟨(normal_lower hn hp hI).trans x1, x2.trans ?_⟩
      obtain ⟨init, hinit⟩ := List.getLast?_eq_some_iff.1 hb
      rw [hinit] at hI hn hp
      rcases List.mem_append.1 hI with h | h
      · have := (List.pairwise_append.1 hn).2.2 I h b (by simp)
        exact this.le.trans (hp b (by simp))
      · simp only [List.mem_singleton] at h; rw [h]

open MeasureTheory in
/-- C31: `measure` is the length (Lebesgue measure) of the union. -/
theorem C31_measure {A : List (Interval ℝ)} (hn : Normal A) (hp : Proper A) :
    (measure A = none ↔ A = []) ∧
    ∀ m, measure A = some m → 0 ≤ m ∧ volume (points A) = ENNReal.ofReal m := by
  have hfold : ∀ (B : List (Interval ℝ)) (r : ℝ), B.foldl (fun r x => r + (x.u - x.l)) r = r + (B.map fun x => x.u - x.l).sum := by
    intro B
    induction B with
    | nil => simp
    | cons b bs ih => intro r; rw [List.foldl_cons, ih, List.map_cons, List.sum_cons]; ring
  have key : ∀ B : List (Interval ℝ), Normal B → Proper B →
      0 ≤ (B.map fun x => x.u - x.l).sum ∧ MeasurableSet (points B) ∧
      volume (points B) = ENNReal.ofReal (B.map fun x => x.u - x.l).sum := by
    intro B
    induction B with
    | nil =>
      intro _ _
      have : points ([] : List (Interval ℝ)) = ∅ := by ext; simp [points]
      simp [this]
    | cons b bs ih =>
      intro hn hp
      obtain ⟨h0, hm, hv⟩ := ih hn.tail hp.tail
      have hb := hp b (by simp)
      rw [points_cons, List.map_cons, List.sum_cons]
      refine ⟨by linarith, measurableSet_Icc.union hm, ?_⟩
      rw [measure_union _ hm, Real.volume_Icc, hv, ENNReal.ofReal_add (by linarith) h0]
      rw [Set.disjoint_left]
      rintro x ⟨_, x2⟩ ⟨J, hJ, x3, _⟩
      have := (List.pairwise_cons.1 hn).1 J hJ
      linarith
  constructor
  · cases A <;> simp [measure]
  · intro m hm
    cases A with
    | nil => simp [measure] at hm
    | cons a as =>
      simp only [measure, Option.some.injEq] at hm
      rw [hfold, zero_add] at hm
      obtain ⟨h0, _, hv⟩ := key _ hn hp
      rw [← hm]; exact ⟨h0, hv⟩

/-- Non-vacuity: a sorted list which needs combining, and normal proper unions. -/
example : combine [(⟨0, 1⟩ : Interval ℚ), ⟨1, 2⟩, ⟨2, 3⟩, ⟨5, 6⟩] = [⟨0, 3⟩, ⟨5, 6⟩] := by decide +kernel
example : Normal [(⟨0, 3⟩ : Interval ℚ), ⟨5, 6⟩] ∧ ∀ I ∈ [(⟨0, 3⟩ : Interval ℚ), ⟨5, 6⟩], I.l < I.u := by
  constructor
  · simp only [Normal, List.pairwise_cons]; norm_num
  · norm_num

end Ariadne.Geometry.UnionOfIntervals
