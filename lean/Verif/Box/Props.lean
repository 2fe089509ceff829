import Verif.Box.Model
import Mathlib.Order.Interval.Set.Basic
import Mathlib.Tactic.Linarith
import Mathlib.Tactic.Ring
import Mathlib.Tactic.NormNum
import Mathlib.Data.List.Forall2
import Mathlib.Data.List.Chain
import Mathlib.Data.Rat.Defs
import Mathlib.Algebra.Order.Field.Rat

/-!
# C90: boxes

The specification is the set of points of a box, `Mem`, and of its interior, `MemInterior`.
-/

namespace Ariadne.Geometry.Box

variable {K : Type*}

section Spec
variable [LinearOrder K]

/-- The points of a box -/
def Mem (pt : List K) (b : Box K) : Prop := List.Forall₂ (fun a x => x.l ≤ a ∧ a ≤ x.u) pt b
/-- The points of the interior of a box -/
def MemInterior (pt : List K) (b : Box K) : Prop := List.Forall₂ (fun a x => x.l < a ∧ a < x.u) pt b
/-- No side is empty. -/
def Nonempty (b : Box K) : Prop := ∀ x ∈ b, x.l ≤ x.u
/-- All sides have interior points. -/
def Solid (b : Box K) : Prop := ∀ x ∈ b, x.l < x.u
end Spec

/-! ### Loops over the sides -/

theorem all2_spec {α β : Type*} (p : α → β → Bool) : ∀ (xs : List α) (ys : List β), xs.length = ys.length →
    ∃ r, all2 p xs ys = some r ∧ (r = true ↔ List.Forall₂ (fun x y => p x y = true) xs ys)
  | [], [], _ => ⟨true, rfl, by simp⟩
  | x :: xs, y :: ys, h => by
    obtain ⟨r, h1, h2⟩ := all2_spec p xs ys (by simpa using h)
    by_cases hp : p x y = true
    · exact ⟨r, by simp [all2, hp, h1], by simp [hp, h2]⟩
    · exact ⟨false, by simp [all2, hp], by simp [hp]⟩

theorem any2_spec {α β : Type*} (p : α → β → Bool) : ∀ (xs : List α) (ys : List β), xs.length = ys.length →
    ∃ r, any2 p xs ys = some r ∧ (r = true ↔ ¬List.Forall₂ (fun x y => ¬p x y = true) xs ys)
  | [], [], _ => ⟨false, rfl, by simp⟩
  | x :: xs, y :: ys, h => by
    obtain ⟨r, h1, h2⟩ := any2_spec p xs ys (by simpa using h)
    by_cases hp : p x y = true
    · exact ⟨true, by simp [any2, hp], by simp [hp]⟩
    · exact ⟨r, by simp [any2, hp, h1], by simp [hp, h2]⟩

theorem map2_spec {α β γ : Type*} (f : α → β → γ) : ∀ (xs : List α) (ys : List β), xs.length = ys.length →
    map2 f xs ys = some (List.zipWith f xs ys)
  | [], [], _ => rfl
  | x :: xs, y :: ys, h => by simp [map2, map2_spec f xs ys (by simpa using h)]

theorem forall2_flip {α β : Type*} {R : α → β → Prop} {xs : List α} {ys : List β} :
    List.Forall₂ R xs ys ↔ List.Forall₂ (fun y x => R x y) ys xs :=
  ⟨fun h => List.Forall₂.flip h, fun h => List.Forall₂.flip h⟩

theorem exists_points {α β γ : Type*} {P : β → γ → Prop} {R : α → β → Prop} {S : α → γ → Prop} {b : List β} {c : List γ}
    (hP : ∀ x ∈ b, ∀ y ∈ c, P x y ↔ ∃ a, R a x ∧ S a y) :
    List.Forall₂ P b c ↔ ∃ pt, List.Forall₂ R pt b ∧ List.Forall₂ S pt c := by
  constructor
  · intro h
    induction h with
    | nil => exact ⟨[], .nil, .nil⟩
    | @cons x y b c h _ ih =>
      obtain ⟨a, h1, h2⟩ := (hP x (by simp) y (by simp)).1 h
      obtain ⟨pt, h3, h4⟩ := ih (fun x hx y hy => hP x (by simp [hx]) y (by simp [hy]))
      exact ⟨a :: pt, .cons h1 h3, .cons h2 h4⟩
  · rintro ⟨pt, h1, h2⟩
    induction h1 generalizing c with
    | nil => cases h2; exact .nil
    | @cons a x pt b h _ ih =>
      cases h2 with
      | @cons _ y _ c h3 h4 =>
        exact .cons ((hP x (by simp) y (by simp)).2 ⟨a, h, h3⟩)
          (ih (fun x hx y hy => hP x (by simp [hx]) y (by simp [hy])) h4)

theorem forall_points {α β γ : Type*} {P : β → γ → Prop} {R : α → β → Prop} {S : α → γ → Prop} {b : List β} {c : List γ}
    (hl : b.length = c.length) (hR : ∀ x ∈ b, ∃ a, R a x) (hP : ∀ x ∈ b, ∀ y ∈ c, P x y ↔ ∀ a, R a x → S a y) :
    List.Forall₂ P b c ↔ ∀ pt, List.Forall₂ R pt b → List.Forall₂ S pt c := by
  induction b generalizing c with
  | nil =>
    cases c with
    | nil => exact ⟨fun _ pt h => by cases h; exact .nil, fun _ => .nil⟩
    | cons => simp at hl
  | cons x b ih =>
    cases c with
    | nil => simp at hl
    | cons y c =>
      have ih' := ih (c := c) (by simpa using hl) (fun x hx => hR x (by simp [hx]))
        (fun x hx y hy => hP x (by simp [hx]) y (by simp [hy]))
      rw [List.forall₂_cons, ih', hP x (by simp) y (by simp)]
      constructor
      · rintro ⟨h1, h2⟩ pt h
        cases h with
        | cons h3 h4 => exact .cons (h1 _ h3) (h2 _ h4)
      · intro h
        obtain ⟨a0, h0⟩ := hR x (by simp)
        have hpts : ∃ pt, List.Forall₂ R pt b := by
          clear ih ih' h hP hl
          induction b with
          | nil => exact ⟨[], .nil⟩
          | cons z b ih =>
            obtain ⟨a, h1⟩ := hR z (by simp)
            obtain ⟨pt, h2⟩ := ih (fun x hx => hR x (by
              rcases List.mem_cons.1 hx with h | h
              · simp [h]
              · simp [h]))
            exact ⟨a :: pt, .cons h1 h2⟩
        obtain ⟨pt0, hpt0⟩ := hpts
        constructor
        · intro a ha
          have := h (a :: pt0) (.cons ha hpt0)
          cases this with
          | cons h1 _ => exact h1
        · intro pt hpt
          have := h (a0 :: pt) (.cons h0 hpt)
          cases this with
          | cons _ h1 => exact h1

section Order
variable [LinearOrder K]

/-- **C90** (membership): a box contains exactly its points. -/
theorem C90_contains (b : Box K) (pt : List K) (h : b.length = pt.length) :
    ∃ r, contains b pt = some r ∧ (r = true ↔ Mem pt b) := by
  obtain ⟨r, h1, h2⟩ := all2_spec Interval.contains b pt h
  refine ⟨r, h1, ?_⟩
  rw [h2]
  unfold Mem
  rw [forall2_flip]
  simp [Interval.contains]

/-- **C90** (emptiness): a box is reported empty if and only if it has no points. -/
theorem C90_empty (b : Box K) : isEmpty b = true ↔ ¬∃ pt, Mem pt b := by
  have h : (∃ pt, Mem pt b) ↔ Nonempty b := by
    constructor
    · rintro ⟨pt, h⟩ x hx
      induction h with
      | nil => simp at hx
      | cons h1 _ ih =>
        rcases List.mem_cons.1 hx with rfl | hx
        · exact h1.1.trans h1.2
        · exact ih hx
    · intro h
      induction b with
      | nil => exact ⟨[], .nil⟩
      | cons x b ih =>
        obtain ⟨pt, h1⟩ := ih (fun y hy => h y (by simp [hy]))
        exact ⟨x.l :: pt, .cons ⟨le_rfl, h x (by simp)⟩ h1⟩
  rw [h]
  simp [isEmpty, Nonempty, Interval.isEmpty]

/-- **C90** (predicates): for boxes of the same dimension without empty sides, every test between two boxes answers
what its name says about the sets of points. -/
theorem C90_predicates (b c : Box K) (hl : b.length = c.length) (hb : Nonempty b) (hc : Nonempty c) :
    (∃ r, subset b c = some r ∧ (r = true ↔ ∀ pt, Mem pt b → Mem pt c)) ∧
    (∃ r, superset b c = some r ∧ (r = true ↔ ∀ pt, Mem pt c → Mem pt b)) ∧
    (∃ r, disjoint b c = some r ∧ (r = true ↔ ¬∃ pt, Mem pt b ∧ Mem pt c)) ∧
    (∃ r, separated b c = some r ∧ (r = true ↔ ¬∃ pt, Mem pt b ∧ Mem pt c)) ∧
    (∃ r, intersect b c = some r ∧ (r = true ↔ ∃ pt, Mem pt b ∧ Mem pt c)) ∧
    (∃ r, opEq b c = some r ∧ (r = true ↔ b = c)) := by
  have hinter : ∀ x ∈ b, ∀ y ∈ c, (x.l ≤ y.u ∧ y.l ≤ x.u) ↔
      ∃ a, (x.l ≤ a ∧ a ≤ x.u) ∧ (y.l ≤ a ∧ a ≤ y.u) := by
    intro x hx y hy
    constructor
    · rintro ⟨h1, h2⟩
      exact ⟨max x.l y.l, ⟨le_max_left _ _, max_le (hb x hx) h2⟩, ⟨le_max_right _ _, max_le h1 (hc y hy)⟩⟩
    · rintro ⟨a, h1, h2⟩
      exact ⟨h1.1.trans h2.2, h2.1.trans h1.2⟩
  refine ⟨?_, ?_, ?_, ?_, ?_, ?_⟩
  · obtain ⟨r, h1, h2⟩ := all2_spec Interval.subset b c hl
    refine ⟨r, h1, ?_⟩
    rw [h2]
    refine forall_points hl (fun x hx => ⟨x.l, le_rfl, hb x hx⟩) (fun x hx y _ => ?_)
    simp only [Interval.subset, Bool.and_eq_true, decide_eq_true_eq]
    exact ⟨fun h a ha => ⟨h.1.trans ha.1, ha.2.trans h.2⟩,
      fun h => ⟨(h x.l ⟨le_rfl, hb x hx⟩).1, (h x.u ⟨hb x hx, le_rfl⟩).2⟩⟩
  · obtain ⟨r, h1, h2⟩ := all2_spec Interval.superset b c hl
    refine ⟨r, h1, ?_⟩
    rw [h2, forall2_flip]
    refine forall_points hl.symm (fun x hx => ⟨x.l, le_rfl, hc x hx⟩) (fun x hx y _ => ?_)
    simp only [Interval.superset, Bool.and_eq_true, decide_eq_true_eq]
    exact ⟨fun h a ha => ⟨h.1.trans ha.1, ha.2.trans h.2⟩,
      fun h => ⟨(h x.l ⟨le_rfl, hc x hx⟩).1, (h x.u ⟨hc x hx, le_rfl⟩).2⟩⟩
  · obtain ⟨r, h1, h2⟩ := any2_spec Interval.disjoint b c hl
    refine ⟨r, h1, ?_⟩
    rw [h2]
    refine not_congr (exists_points (fun x hx y hy => ?_))
    rw [← hinter x hx y hy]
    simp [Interval.disjoint]
  · obtain ⟨r, h1, h2⟩ := any2_spec Interval.separated b c hl
    refine ⟨r, h1, ?_⟩
    rw [h2]
    refine not_congr (exists_points (fun x hx y hy => ?_))
    rw [← hinter x hx y hy]
    simp [Interval.separated]
  · obtain ⟨r, h1, h2⟩ := all2_spec Interval.intersect b c hl
    refine ⟨r, h1, ?_⟩
    rw [h2]
    refine exists_points (fun x hx y hy => ?_)
    rw [← hinter x hx y hy]
    simp [Interval.intersect]
  · obtain ⟨r, h1, h2⟩ := all2_spec Interval.opEq b c hl
    refine ⟨r, by rw [opEq, if_neg (by simpa using hl)]; exact h1, ?_⟩
    rw [h2, ← List.forall₂_eq_eq_eq]
    have : (fun x y : Interval K => x.opEq y = true) = Eq := by
      funext x y
      cases x
      cases y
      simp [Interval.opEq]
    rw [this]

/-- **C90** (predicates about interiors): `inside` and `covers` say that one box is in the interior of the
other, `overlap` that the interiors have a common point. -/
theorem C90_interior_predicates [DenselyOrdered K] (b c : Box K) (hl : b.length = c.length) :
    (Nonempty b → ∃ r, inside b c = some r ∧ (r = true ↔ ∀ pt, Mem pt b → MemInterior pt c)) ∧
    (Nonempty c → ∃ r, covers b c = some r ∧ (r = true ↔ ∀ pt, Mem pt c → MemInterior pt b)) ∧
    (Solid b → Solid c → ∃ r, overlap b c = some r ∧ (r = true ↔ ∃ pt, MemInterior pt b ∧ MemInterior pt c)) := by
  refine ⟨fun hb => ?_, fun hc => ?_, fun hb hc => ?_⟩
  · obtain ⟨r, h1, h2⟩ := all2_spec Interval.inside b c hl
    refine ⟨r, h1, ?_⟩
    rw [h2]
    refine forall_points hl (fun x hx => ⟨x.l, le_rfl, hb x hx⟩) (fun x hx y _ => ?_)
    simp only [Interval.inside, Bool.and_eq_true, decide_eq_true_eq]
    exact ⟨fun h a ha => ⟨lt_of_lt_of_le h.1 ha.1, lt_of_le_of_lt ha.2 h.2⟩,
      fun h => ⟨(h x.l ⟨le_rfl, hb x hx⟩).1, (h x.u ⟨hb x hx, le_rfl⟩).2⟩⟩
  · obtain ⟨r, h1, h2⟩ := all2_spec Interval.covers b c hl
    refine ⟨r, h1, ?_⟩
    rw [h2, forall2_flip]
    refine forall_points hl.symm (fun x hx => ⟨x.l, le_rfl, hc x hx⟩) (fun x hx y _ => ?_)
    simp only [Interval.covers, Bool.and_eq_true, decide_eq_true_eq]
    exact ⟨fun h a ha => ⟨lt_of_lt_of_le h.1 ha.1, lt_of_le_of_lt ha.2 h.2⟩,
      fun h => ⟨(h x.l ⟨le_rfl, hc x hx⟩).1, (h x.u ⟨hc x hx, le_rfl⟩).2⟩⟩
  · obtain ⟨r, h1, h2⟩ := all2_spec Interval.overlap b c hl
    refine ⟨r, h1, ?_⟩
    rw [h2]
    refine exists_points (fun x hx y hy => ?_)
    simp only [Interval.overlap, Bool.and_eq_true, decide_eq_true_eq]
    constructor
    · rintro ⟨h3, h4⟩
      obtain ⟨a, h5, h6⟩ := exists_between (show max x.l y.l < min x.u y.u from
        max_lt (lt_min (hb x hx) h3) (lt_min h4 (hc y hy)))
      rw [max_lt_iff] at h5
      rw [lt_min_iff] at h6
      exact ⟨a, ⟨h5.1, h6.1⟩, ⟨h5.2, h6.2⟩⟩
    · rintro ⟨a, h3, h4⟩
      exact ⟨h3.1.trans h4.2, h4.1.trans h3.2⟩

/-- **C90** (intersection): the points of the intersection are the common points. -/
theorem C90_intersection (b c : Box K) (hl : b.length = c.length) :
    ∃ d, intersection b c = some d ∧ ∀ pt, Mem pt d ↔ Mem pt b ∧ Mem pt c := by
  refine ⟨_, map2_spec _ b c hl, ?_⟩
  induction b generalizing c with
  | nil => cases c with
    | nil => intro pt; simp [Mem]
    | cons => simp at hl
  | cons x b ih => cases c with
    | nil => simp at hl
    | cons y c =>
      intro pt
      cases pt with
      | nil => simp [Mem]
      | cons a pt =>
        have := ih c (by simpa using hl) pt
        unfold Mem at *
        simp only [List.zipWith_cons_cons, List.forall₂_cons, this, Interval.intersection, max_le_iff, le_min_iff]
        tauto

/-- **C90** (hull): the hull contains both boxes; if they are not empty, it is contained in every box which does. -/
theorem C90_hull (b c : Box K) (hl : b.length = c.length) :
    ∃ d, hull b c = some d ∧ (∀ pt, Mem pt b ∨ Mem pt c → Mem pt d) ∧
      (Nonempty b → Nonempty c → ∀ e : Box K, e.length = b.length →
        (∀ pt, Mem pt b ∨ Mem pt c → Mem pt e) → ∀ pt, Mem pt d → Mem pt e) := by
  refine ⟨_, by rw [hull, if_pos hl]; exact map2_spec _ b c hl, ?_, ?_⟩
  · induction b generalizing c with
    | nil => cases c with
      | nil => intro pt h; simpa using h
      | cons => simp at hl
    | cons x b ih => cases c with
      | nil => simp at hl
      | cons y c =>
        intro pt h
        have ih' := ih c (by simpa using hl)
        rcases h with h | h
        · cases h with
          | cons h1 h2 => exact .cons ⟨(min_le_left _ _).trans h1.1, h1.2.trans (le_max_left _ _)⟩ (ih' _ (.inl h2))
        · cases h with
          | cons h1 h2 => exact .cons ⟨(min_le_right _ _).trans h1.1, h1.2.trans (le_max_right _ _)⟩ (ih' _ (.inr h2))
  · intro hb hc e he h
    have h1 := (forall_points (P := fun x y : Interval K => y.l ≤ x.l ∧ x.u ≤ y.u)
      (R := fun (a : K) (x : Interval K) => x.l ≤ a ∧ a ≤ x.u) (S := fun (a : K) (x : Interval K) => x.l ≤ a ∧ a ≤ x.u)
      he.symm (fun x hx => ⟨x.l, le_rfl, hb x hx⟩) (fun x hx y _ =>
        ⟨fun h a ha => ⟨h.1.trans ha.1, ha.2.trans h.2⟩,
          fun h => ⟨(h x.l ⟨le_rfl, hb x hx⟩).1, (h x.u ⟨hb x hx, le_rfl⟩).2⟩⟩)).2 (fun pt hp => h pt (.inl hp))
    have h2 := (forall_points (P := fun x y : Interval K => y.l ≤ x.l ∧ x.u ≤ y.u)
      (R := fun (a : K) (x : Interval K) => x.l ≤ a ∧ a ≤ x.u) (S := fun (a : K) (x : Interval K) => x.l ≤ a ∧ a ≤ x.u)
      (hl.symm.trans he.symm) (fun x hx => ⟨x.l, le_rfl, hc x hx⟩) (fun x hx y _ =>
        ⟨fun h a ha => ⟨h.1.trans ha.1, ha.2.trans h.2⟩,
          fun h => ⟨(h x.l ⟨le_rfl, hc x hx⟩).1, (h x.u ⟨hc x hx, le_rfl⟩).2⟩⟩)).2 (fun pt hp => h pt (.inr hp))
    clear h hb hc he
    induction h1 generalizing c with
    | nil => intro pt hp; cases c with
      | nil => simpa using hp
      | cons => simp at hl
    | @cons x z b e h3 _ ih =>
      cases h2 with
      | @cons y _ c _ h4 h5 =>
        intro pt hp
        cases hp with
        | cons h6 h7 =>
          exact .cons ⟨(le_min h3.1 h4.1).trans h6.1, h6.2.trans (max_le h3.2 h4.2)⟩
            (ih c (by simpa using hl) h5 _ h7)

/-- **C90** (hull with a point): the hull contains the box and the point. -/
theorem C90_hull_point (b : Box K) (q : List K) (hl : b.length = q.length) :
    ∃ d, hullPoint b q = some d ∧ (∀ p, Mem p b → Mem p d) ∧ (Nonempty b → Mem q d) ∧
      ∀ e : Box K, Nonempty b → (∀ p, Mem p b → Mem p e) → Mem q e → ∀ p, Mem p d → Mem p e := by
  have key : ∀ (b : Box K) (q : List K), b.length = q.length → Nonempty b →
      List.zipWith Interval.hullPoint b q = List.zipWith Interval.hull b (q.map fun a => ⟨a, a⟩) ∧
      ∀ (p : List K), Mem p (q.map fun a => ⟨a, a⟩) ↔ p = q := by
    intro b
    induction b with
    | nil =>
      intro q hq _
      obtain rfl : q = [] := by simpa using hq.symm
      simp [Mem]
    | cons x b ih =>
      intro q hq hb
      cases q with
      | nil => simp at hq
      | cons a q =>
        obtain ⟨h1, h2⟩ := ih q (by simpa using hq) (fun y hy => hb y (by simp [hy]))
        refine ⟨?_, fun p => ?_⟩
        · simp only [List.zipWith_cons_cons, List.map_cons, h1]
          rfl
        · cases p with
          | nil => simp [Mem]
          | cons c p =>
            have := h2 p
            unfold Mem at this ⊢
            simp only [List.map_cons, List.forall₂_cons, this, List.cons.injEq]
            exact and_congr_left fun _ => ⟨fun h => le_antisymm h.2 h.1, fun h => by simp [h]⟩
  refine ⟨_, by rw [hullPoint, if_pos hl]; exact map2_spec _ b q hl, ?_, ?_, ?_⟩
  · intro p hp
    unfold Mem at *
    induction hp generalizing q with
    | nil => simp
    | @cons a x p b h1 _ ih =>
      cases q with
      | nil => simp at hl
      | cons c q =>
        exact .cons ⟨(min_le_left _ _).trans h1.1, h1.2.trans (le_max_left _ _)⟩ (ih q (by simpa using hl))
  · intro hb
    obtain ⟨h1, h2⟩ := key b q hl hb
    obtain ⟨d, h3, h4, -⟩ := C90_hull b (q.map fun a => ⟨a, a⟩) (by simpa using hl)
    rw [hull, if_pos (by simpa using hl), map2_spec _ _ _ (by simpa using hl)] at h3
    rw [h1, Option.some.inj h3]
    exact h4 q (.inr ((h2 q).2 rfl))
  · intro e hb he hq p hp
    obtain ⟨h1, h2⟩ := key b q hl hb
    obtain ⟨d, h3, -, h5⟩ := C90_hull b (q.map fun a => ⟨a, a⟩) (by simpa using hl)
    rw [hull, if_pos (by simpa using hl), map2_spec _ _ _ (by simpa using hl)] at h3
    rw [h1, Option.some.inj h3] at hp
    refine h5 hb ?_ e ?_ ?_ p hp
    · intro x hx
      obtain ⟨a, _, rfl⟩ := List.mem_map.1 hx
      exact le_rfl
    · rw [← hq.length_eq, hl]
    · rintro r (hr | hr)
      · exact he r hr
      · rw [(h2 r).1 hr]; exact hq

/-- **C90** (products): the points of a product are the pairs of points. -/
theorem C90_product (b c : Box K) (p q : List K) (h : p.length = b.length) :
    Mem (p ++ q) (product b c) ↔ Mem p b ∧ Mem q c := by
  unfold Mem product
  induction b generalizing p with
  | nil =>
    obtain rfl : p = [] := by simpa using h
    simp
  | cons x b ih =>
    cases p with
    | nil => simp at h
    | cons a p => simp [ih p (by simpa using h), and_assoc]

/-- **C90** (projection): projecting the box and projecting its points go together. -/
theorem C90_project (b : Box K) (rng : List Nat) :
    (project b rng = none ↔ ∃ i ∈ rng, b.length ≤ i) ∧
      ∀ c, project b rng = some c → c.length = rng.length ∧
        ∀ p, Mem p b → ∃ q, project p rng = some q ∧ Mem q c := by
  constructor
  · unfold project
    induction rng with
    | nil => simp
    | cons i rng ih =>
      rw [List.mapM_cons]
      simp only [List.mem_cons, exists_eq_or_imp, ← ih]
      cases hb : b[i]? with
      | none => simp [List.getElem?_eq_none_iff.1 hb]
      | some x =>
        have : ¬b.length ≤ i := by rw [← List.getElem?_eq_none_iff, hb]; simp
        cases hm : List.mapM (b[·]?) rng <;> simp [this, hm]
  · intro c hc
    unfold project at *
    induction rng generalizing c with
    | nil =>
      simp only [List.mapM_nil] at hc
      obtain rfl := Option.some.inj hc
      exact ⟨rfl, fun p _ => ⟨[], rfl, .nil⟩⟩
    | cons i rng ih =>
      rw [List.mapM_cons] at hc
      obtain ⟨x, hx, hc⟩ := Option.bind_eq_some_iff.1 hc
      obtain ⟨c', hc', hc⟩ := Option.bind_eq_some_iff.1 hc
      obtain rfl := Option.some.inj hc
      obtain ⟨h1, h2⟩ := ih c' hc'
      refine ⟨by simp [h1], fun p hp => ?_⟩
      obtain ⟨q, h3, h4⟩ := h2 p hp
      have hlt : i < b.length := (List.getElem?_eq_some_iff.1 hx).1
      have hlt' : i < p.length := by rw [List.Forall₂.length_eq hp]; exact hlt
      refine ⟨p[i] :: q, ?_, .cons ?_ h4⟩
      · rw [List.mapM_cons, List.getElem?_eq_getElem hlt', h3]; rfl
      · have := List.Forall₂.get hp hlt' hlt
        rw [(List.getElem?_eq_some_iff.1 hx).2.symm]
        simpa using this

/-- **C90** (removing a side): the result is the projection to the other coordinates; every point of it comes from a
point of the box if the side is not empty. -/
theorem C90_remove (b : Box K) (k : Nat) :
    (remove b k = none ↔ b.length ≤ k) ∧
      ∀ c, remove b k = some c → (∀ p, Mem p b → Mem (p.eraseIdx k) c) ∧
        (Nonempty b → ∀ q, Mem q c → ∃ p, Mem p b ∧ p.eraseIdx k = q) := by
  unfold remove
  constructor
  · by_cases h : k < b.length <;> simp [h] <;> omega
  · intro c hc
    by_cases h : k < b.length
    · rw [if_pos h] at hc
      obtain rfl := Option.some.inj hc
      clear hc
      induction b generalizing k with
      | nil => simp at h
      | cons x b ih =>
        cases k with
        | zero =>
          refine ⟨fun p hp => ?_, fun hb q hq => ?_⟩
          · cases hp with
            | cons _ h2 => exact h2
          · exact ⟨x.l :: q, .cons ⟨le_rfl, hb x (by simp)⟩ hq, by simp⟩
        | succ k =>
          obtain ⟨h1, h2⟩ := ih k (by simpa using h)
          refine ⟨fun p hp => ?_, fun hb q hq => ?_⟩
          · cases hp with
            | cons h3 h4 =>
              rw [List.eraseIdx_cons_succ, List.eraseIdx_cons_succ]
              exact .cons h3 (h1 _ h4)
          · rw [List.eraseIdx_cons_succ] at hq
            cases hq with
            | @cons a _ q _ h3 h4 =>
              obtain ⟨p, h5, h6⟩ := h2 (fun y hy => hb y (by simp [hy])) q h4
              exact ⟨a :: p, .cons h3 h5, by rw [List.eraseIdx_cons_succ, h6]⟩
    · rw [if_neg h] at hc; cases hc

/-- **C90** (corners): the points of a box are those between its lower and its upper corner. -/
theorem C90_bounds (b : Box K) (p : List K) :
    Mem p b ↔ List.Forall₂ (· ≤ ·) (lowerBounds b) p ∧ List.Forall₂ (· ≤ ·) p (upperBounds b) := by
  unfold Mem lowerBounds upperBounds
  rw [List.forall₂_map_left_iff, List.forall₂_map_right_iff]
  constructor
  · intro h
    exact ⟨forall2_flip.1 (h.imp fun _ _ h => h.1), h.imp fun _ _ h => h.2⟩
  · rintro ⟨h1, h2⟩
    induction h2 with
    | nil => exact .nil
    | cons h _ ih => cases h1 with
      | cons h3 h4 => exact .cons ⟨h3, h⟩ (ih h4)

/-! ### Vertices -/

theorem vertices_up_down : ∀ b : Box K, verticesDown b = (verticesUp b).reverse
  | [] => rfl
  | [_] => rfl
  | x :: y :: b => by
    have ih := vertices_up_down (y :: b)
    rw [verticesDown, verticesUp, List.reverse_append, ← List.map_reverse, ← List.map_reverse, ih, List.reverse_reverse]

/-- Two points differ in exactly one coordinate. -/
def Adjacent (b : Box K) (p q : List K) : Prop :=
  ∃ k, ∃ h : k < b.length, (p = q.set k b[k].l ∧ q[k]? = some b[k].u) ∨ (p = q.set k b[k].u ∧ q[k]? = some b[k].l)

theorem Adjacent.symm {b : Box K} {p q : List K} (h : Adjacent b p q) : Adjacent b q p := by
  obtain ⟨k, hk, ⟨rfl, h2⟩ | ⟨rfl, h2⟩⟩ := h <;> obtain ⟨hq, h2⟩ := List.getElem?_eq_some_iff.1 h2
  · exact ⟨k, hk, .inr ⟨by rw [List.set_set, ← h2, List.set_getElem_self], by simp [hq]⟩⟩
  · exact ⟨k, hk, .inl ⟨by rw [List.set_set, ← h2, List.set_getElem_self], by simp [hq]⟩⟩

theorem Adjacent.cons {b : Box K} {p q : List K} (h : Adjacent b p q) (x : Interval K) (a : K) :
    Adjacent (x :: b) (a :: p) (a :: q) := by
  obtain ⟨k, hk, h⟩ := h
  refine ⟨k + 1, by simpa using hk, ?_⟩
  simpa using h

/-- **C90** (vertices): a box with at least one side has `2^n` vertices, which are the points whose coordinates are end
points, and successive vertices differ in one coordinate. -/
theorem C90_vertices (b : Box K) (h : b ≠ []) :
    (vertices b).length = 2 ^ b.length ∧
    (∀ p, p ∈ vertices b ↔ List.Forall₂ (fun a x => a = x.l ∨ a = x.u) p b) ∧
    (vertices b).IsChain (Adjacent b) := by
  unfold vertices
  induction b with
  | nil => exact absurd rfl h
  | cons x b ih =>
    cases b with
    | nil =>
      refine ⟨rfl, fun p => ?_, ?_⟩
      · cases p with
        | nil => simp [verticesUp]
        | cons a p => cases p <;> simp [verticesUp]
      · refine List.IsChain.cons_cons ⟨0, by simp, ?_⟩ (.singleton _)
        simp
    | cons y b =>
      obtain ⟨h1, h2, h3⟩ := ih (by simp)
      generalize hv : verticesUp (y :: b) = v at *
      have hd : verticesDown (y :: b) = v.reverse := by rw [vertices_up_down, hv]
      rw [verticesUp, hv, hd]
      refine ⟨?_, fun p => ?_, ?_⟩
      · simp only [List.length_append, List.length_map, List.length_reverse, h1, List.length_cons]
        ring
      · cases p with
        | nil => simp
        | cons a p =>
          simp only [List.mem_append, List.mem_map, List.mem_reverse, List.cons.injEq, List.forall₂_cons, h2]
          constructor
          · rintro (⟨q, h, rfl, rfl⟩ | ⟨q, h, rfl, rfl⟩)
            · exact ⟨.inl rfl, h⟩
            · exact ⟨.inr rfl, h⟩
          · rintro ⟨rfl | rfl, h⟩
            · exact .inl ⟨p, h, rfl, rfl⟩
            · exact .inr ⟨p, h, rfl, rfl⟩
      · rw [List.isChain_append]
        refine ⟨?_, ?_, ?_⟩
        · rw [List.isChain_map]
          exact h3.imp (fun p q h => h.cons x _)
        · rw [List.isChain_map, List.isChain_reverse]
          exact h3.imp (fun p q h => (h.cons x _).symm)
        · intro p hp q hq
          rw [List.head?_map, List.head?_reverse] at hq
          rw [List.getLast?_map] at hp
          cases hl : v.getLast? with
          | none => simp [hl] at hp
          | some z =>
            simp only [hl, Option.map_some, Option.mem_some_iff] at hp hq
            subst hp hq
            exact ⟨0, by simp, .inl ⟨by simp, by simp⟩⟩

end Order

section Field
variable [Field K] [LinearOrder K] [IsStrictOrderedRing K]

theorem irmaxLoop_spec (b c : Box K) (imw : Nat) (mw : K) (hi : ∃ x, (c ++ b)[imw]? = some x ∧ x.width = mw)
    (hc : ∀ x ∈ c, x.width ≤ mw) :
    ∃ x, (c ++ b)[irmaxLoop imw mw c.length b]? = some x ∧ ∀ y ∈ c ++ b, y.width ≤ x.width := by
  induction b generalizing c imw mw with
  | nil =>
    obtain ⟨x, h1, rfl⟩ := hi
    exact ⟨x, h1, by simpa using hc⟩
  | cons z b ih =>
    rw [irmaxLoop]
    have e : c ++ z :: b = (c ++ [z]) ++ b := by simp
    have e' : c.length + 1 = (c ++ [z]).length := by simp
    by_cases h : z.width > mw
    · rw [if_pos h, e, e']
      apply ih
      · exact ⟨z, by simp, rfl⟩
      · intro x hx
        rcases List.mem_append.1 hx with hx | hx
        · exact (hc x hx).trans h.le
        · obtain rfl := List.mem_singleton.1 hx; exact le_rfl
    · rw [if_neg h, e, e']
      apply ih
      · rw [← e]; exact hi
      · intro x hx
        rcases List.mem_append.1 hx with hx | hx
        · exact hc x hx
        · obtain rfl := List.mem_singleton.1 hx; exact not_lt.1 h

/-- **C90** (widest side): the index found is that of a side, and no side is wider; a box without sides is the only one
for which nothing is found. -/
theorem C90_irmax (b : Box K) :
    (irmax b = none ↔ b = []) ∧
      ∀ k, irmax b = some k → ∃ x, b[k]? = some x ∧ ∀ y ∈ b, y.width ≤ x.width := by
  cases b with
  | nil => exact ⟨by simp [irmax], fun k h => by simp [irmax] at h⟩
  | cons x b =>
    refine ⟨by simp [irmax], fun k h => ?_⟩
    obtain rfl := Option.some.inj h
    exact irmaxLoop_spec b [x] 0 x.width ⟨x, rfl, rfl⟩ (by simp)

theorem mem_set {b : Box K} {k : Nat} {x : Interval K} (h : b[k]? = some x) (z : Interval K) (p : List K) :
    Mem p (b.set k z) ↔ ∃ a, p[k]? = some a ∧ (z.l ≤ a ∧ a ≤ z.u) ∧
      (∀ x', x'.l ≤ a ∧ a ≤ x'.u → Mem p (b.set k x')) := by
  constructor
  · intro hp
    have hk := (List.getElem?_eq_some_iff.1 h).1
    have hk' : k < p.length := by rw [hp.length_eq]; simpa using hk
    have hg := hp.get hk' (by simpa using hk)
    simp only [List.get_eq_getElem, List.getElem_set_self] at hg
    refine ⟨p[k], List.getElem?_eq_getElem hk', hg, fun x' hx' => ?_⟩
    unfold Mem
    rw [List.forall₂_iff_get]
    refine ⟨by simpa using hp.length_eq, fun i h1 h2 => ?_⟩
    by_cases hi : i = k
    · subst hi; simpa using hx'
    · have := hp.get h1 (by simpa using h2)
      simp only [List.get_eq_getElem, List.getElem_set_ne (Ne.symm hi)] at this ⊢
      exact this
  · rintro ⟨a, _, h2, h3⟩
    exact h3 z h2

theorem mem_get {b : Box K} {k : Nat} {x : Interval K} (h : b[k]? = some x) (p : List K) :
    Mem p b ↔ ∃ a, p[k]? = some a ∧ (x.l ≤ a ∧ a ≤ x.u) ∧
      (∀ x', x'.l ≤ a ∧ a ≤ x'.u → Mem p (b.set k x')) := by
  obtain ⟨hk, hx⟩ := List.getElem?_eq_some_iff.1 h
  have := mem_set h x p
  rwa [← hx, List.set_getElem_self, hx] at this

/-- **C90** (splitting): if the midpoint as computed lies in the interval, the two halves of a box together have exactly
its points, and their common points have the midpoint as coordinate. -/
theorem C90_split (mid : K → K → K) (b : Box K) (k : Nat) (hm : ∀ x ∈ b, x.l ≤ mid x.l x.u ∧ mid x.l x.u ≤ x.u) :
    (split mid b k = none ↔ b.length ≤ k) ∧
      ∀ lo hi, split mid b k = some (lo, hi) →
        (∀ p, Mem p b ↔ Mem p lo ∨ Mem p hi) ∧
        (∀ p, Mem p lo → Mem p hi → ∃ x, b[k]? = some x ∧ p[k]? = some (mid x.l x.u)) ∧
        lo.length = b.length ∧ hi.length = b.length := by
  unfold split
  cases hx : b[k]? with
  | none => simpa using List.getElem?_eq_none_iff.1 hx
  | some x =>
    have hk := (List.getElem?_eq_some_iff.1 hx).1
    have hxb : x ∈ b := by rw [← (List.getElem?_eq_some_iff.1 hx).2]; exact List.getElem_mem hk
    obtain ⟨m1, m2⟩ := hm x hxb
    refine ⟨by simp; omega, ?_⟩
    intro lo hi h
    obtain ⟨rfl, rfl⟩ := Prod.mk.inj (Option.some.inj h)
    refine ⟨fun p => ?_, fun p h1 h2 => ?_, by simp, by simp⟩
    · constructor
      · intro hp
        obtain ⟨a, h1, h2, h3⟩ := (mem_get hx p).1 hp
        rcases le_total a (mid x.l x.u) with h4 | h4
        · exact .inl (h3 _ ⟨h2.1, h4⟩)
        · exact .inr (h3 _ ⟨h4, h2.2⟩)
      · rintro (hp | hp)
        · obtain ⟨a, h1, h2, h3⟩ := (mem_set hx _ p).1 hp
          have := h3 x ⟨h2.1, h2.2.trans m2⟩
          rwa [← (List.getElem?_eq_some_iff.1 hx).2, List.set_getElem_self] at this
        · obtain ⟨a, h1, h2, h3⟩ := (mem_set hx _ p).1 hp
          have := h3 x ⟨m1.trans h2.1, h2.2⟩
          rwa [← (List.getElem?_eq_some_iff.1 hx).2, List.set_getElem_self] at this
    · obtain ⟨a, h3, h4, -⟩ := (mem_set hx _ p).1 h1
      obtain ⟨a', h5, h6, -⟩ := (mem_set hx _ p).1 h2
      rw [h3] at h5
      obtain rfl := Option.some.inj h5
      exact ⟨x, rfl, by rw [h3, le_antisymm h4.2 h6.1]⟩

/-- **C90** (splitting the widest side) -/
theorem C90_splitWidest (mid : K → K → K) (b : Box K) (hm : ∀ x ∈ b, x.l ≤ mid x.l x.u ∧ mid x.l x.u ≤ x.u) :
    (splitWidest mid b = none ↔ b = []) ∧
      ∀ lo hi, splitWidest mid b = some (lo, hi) →
        (∀ p, Mem p b ↔ Mem p lo ∨ Mem p hi) ∧
        ∃ k x, b[k]? = some x ∧ (∀ y ∈ b, y.width ≤ x.width) ∧
          lo = b.set k ⟨x.l, mid x.l x.u⟩ ∧ hi = b.set k ⟨mid x.l x.u, x.u⟩ := by
  unfold splitWidest
  obtain ⟨h1, h2⟩ := C90_irmax b
  cases hk : irmax b with
  | none => simp [h1.1 hk, hk]
  | some k =>
    obtain ⟨x, h3, h4⟩ := h2 k hk
    have hne : b ≠ [] := fun h => by rw [h1.2 h] at hk; cases hk
    have hs : split mid b k = some (b.set k ⟨x.l, mid x.l x.u⟩, b.set k ⟨mid x.l x.u, x.u⟩) := by
      simp [split, h3]
    refine ⟨by simp [hs, hne], ?_⟩
    intro lo hi h
    simp only [Option.bind_some] at h
    refine ⟨((C90_split mid b k hm).2 lo hi h).1, k, x, h3, h4, ?_⟩
    rw [hs] at h
    obtain ⟨rfl, rfl⟩ := Prod.mk.inj (Option.some.inj h)
    exact ⟨rfl, rfl⟩

theorem foldl_mul (f : Interval K → K) (b : Box K) (r : K) :
    b.foldl (fun r y => r * f y) r = r * (b.map f).prod := by
  induction b generalizing r with
  | nil => simp
  | cons x b ih => rw [List.foldl_cons, ih, List.map_cons, List.prod_cons, mul_assoc]

theorem measure_eq (b : Box K) (h : b ≠ []) : measure b = some (b.map Interval.width).prod := by
  cases b with
  | nil => exact absurd rfl h
  | cons x b => rw [measure, foldl_mul, List.map_cons, List.prod_cons]

/-- **C90** (volume): the volumes of the halves add up to the volume of the box. -/
theorem C90_measure_split (mid : K → K → K) (b : Box K) (k : Nat) (lo hi : Box K)
    (h : split mid b k = some (lo, hi)) :
    ∃ v v1 v2, measure b = some v ∧ measure lo = some v1 ∧ measure hi = some v2 ∧ v = v1 + v2 := by
  unfold split at h
  cases hx : b[k]? with
  | none => simp [hx] at h
  | some x =>
    simp only [hx] at h
    obtain ⟨rfl, rfl⟩ := Prod.mk.inj (Option.some.inj h)
    have hk := (List.getElem?_eq_some_iff.1 hx).1
    have hne : b ≠ [] := by rintro rfl; simp at hk
    have hne' : ∀ z, b.set k z ≠ [] := fun z hz => by
      have := congrArg List.length hz
      simp at this
      exact hne this
    refine ⟨_, _, _, measure_eq b hne, measure_eq _ (hne' _), measure_eq _ (hne' _), ?_⟩
    clear hne hne' h
    induction b generalizing k with
    | nil => simp at hk
    | cons y b ih =>
      cases k with
      | zero =>
        obtain rfl : y = x := by simpa using hx
        simp only [List.map_cons, List.prod_cons, List.set_cons_zero, Interval.width]
        ring
      | succ k =>
        have := ih k (by simpa using hx) (by simpa using hk)
        simp only [List.map_cons, List.prod_cons, List.set_cons_succ] at this ⊢
        rw [this]
        ring

theorem semiperimeter_foldl (b : Box K) (r : K) :
    b.foldl (fun r y => r + y.width) r = r + (b.map (fun x => x.u - x.l)).sum := by
  induction b generalizing r with
  | nil => simp
  | cons x b ih => rw [List.foldl_cons, ih, List.map_cons, List.sum_cons, ← add_assoc]; rfl

/-- **C90** (widths): the volume is the product and the semiperimeter the sum of the widths. -/
theorem C90_measure (b : Box K) (h : b ≠ []) :
    measure b = some (b.map (fun x => x.u - x.l)).prod ∧
    semiperimeter b = some (b.map (fun x => x.u - x.l)).sum ∧
    widths b = some (b.map (fun x => x.u - x.l)) := by
  refine ⟨measure_eq b h, ?_, by rw [widths, if_neg h]; rfl⟩
  cases b with
  | nil => exact absurd rfl h
  | cons x b => rw [semiperimeter, semiperimeter_foldl, List.map_cons, List.sum_cons]; rfl

theorem foldl_max (f : Interval K → K) (b : Box K) (r : K) :
    r ≤ b.foldl (fun r y => max r (f y)) r ∧ ∀ x ∈ b, f x ≤ b.foldl (fun r y => max r (f y)) r := by
  induction b generalizing r with
  | nil => simp
  | cons y b ih =>
    obtain ⟨h1, h2⟩ := ih (max r (f y))
    refine ⟨(le_max_left _ _).trans h1, fun x hx => ?_⟩
    rcases List.mem_cons.1 hx with rfl | hx
    · exact (le_max_right _ _).trans h1
    · exact h2 x hx

/-- **C90** (radius): no point of the box is farther than the radius from the midpoint, in any coordinate. -/
theorem C90_radius (mid : K → K → K) (b : Box K) (h : b ≠ []) :
    ∃ r, radius mid b = some r ∧ ∀ p, Mem p b → List.Forall₂ (fun a m => |a - m| ≤ r) p (midpoint mid b) := by
  cases b with
  | nil => exact absurd rfl h
  | cons x b =>
    obtain ⟨h1, h2⟩ := foldl_max (Interval.radius mid) b (x.radius mid)
    refine ⟨_, rfl, fun p hp => ?_⟩
    have h3 : ∀ y ∈ x :: b, y.radius mid ≤ b.foldl (fun r y => max r (y.radius mid)) (x.radius mid) := by
      intro y hy
      rcases List.mem_cons.1 hy with rfl | hy
      · exact h1
      · exact h2 y hy
    generalize b.foldl (fun r y => max r (y.radius mid)) (x.radius mid) = r at h3
    clear h1 h2 h
    generalize x :: b = c at hp h3
    unfold midpoint
    induction hp with
    | nil => exact .nil
    | @cons a y p c h4 _ ih =>
      refine .cons ?_ (ih (fun z hz => h3 z (by simp [hz])))
      have h5 := h3 y (by simp)
      rw [Interval.radius, max_le_iff] at h5
      rw [abs_le]
      constructor <;> linarith [h4.1, h4.2]

/-- **C90** (widening): the widened box has the points within the distance of a point of the box; the narrowed box
those whose whole neighbourhood is in the box. -/
theorem C90_widen_narrow (b : Box K) (e : K) (he : 0 ≤ e) (hb : Nonempty b) (p : List K) :
    (Mem p (widen b e) ↔ ∃ q, Mem q b ∧ List.Forall₂ (fun a c => |a - c| ≤ e) q p) ∧
    (p.length = b.length →
      (Mem p (narrow b e) ↔ ∀ q, List.Forall₂ (fun a c => |a - c| ≤ e) q p → Mem q b)) := by
  constructor
  · refine Iff.trans ?_ (exists_points (P := fun (x : Interval K) a => (x.widen e).l ≤ a ∧ a ≤ (x.widen e).u) ?_)
    · unfold Mem widen
      rw [forall2_flip, List.forall₂_map_left_iff]
    · intro x hx a _
      simp only [Interval.widen]
      have := hb x hx
      constructor
      · rintro ⟨h1, h2⟩
        rcases lt_or_ge a x.l with h3 | h3
        · exact ⟨x.l, ⟨le_rfl, this⟩, by rw [abs_le]; constructor <;> linarith⟩
        · rcases lt_or_ge x.u a with h4 | h4
          · exact ⟨x.u, ⟨this, le_rfl⟩, by rw [abs_le]; constructor <;> linarith⟩
          · exact ⟨a, ⟨h3, h4⟩, by simpa using he⟩
      · rintro ⟨c, h1, h2⟩
        rw [abs_le] at h2
        constructor <;> linarith [h1.1, h1.2, h2.1, h2.2]
  · intro hl
    refine Iff.trans ?_ (forall_points (P := fun a (x : Interval K) => (x.narrow e).l ≤ a ∧ a ≤ (x.narrow e).u) hl ?_ ?_)
    · unfold Mem narrow
      rw [List.forall₂_map_right_iff]
    · exact fun a _ => ⟨a, by simpa using he⟩
    · intro a _ x _
      simp only [Interval.narrow]
      constructor
      · rintro ⟨h1, h2⟩ c hc
        rw [abs_le] at hc
        constructor <;> linarith [hc.1, hc.2]
      · intro h
        have h1 := h (a - e) (by rw [abs_le]; constructor <;> linarith)
        have h2 := h (a + e) (by rw [abs_le]; constructor <;> linarith)
        constructor <;> linarith [h1.1, h2.2]

/-- **C90** (parts): the lower and upper parts are the halves; with the quarter points in the interval, the middle part
is contained in the box. -/
theorem C90_splitPart (mid q1 q3 : K → K → K) (b : Box K) (k : Nat) :
    (splitPart mid q1 q3 b k .lower = (split mid b k).map Prod.fst) ∧
    (splitPart mid q1 q3 b k .upper = (split mid b k).map Prod.snd) ∧
    ∀ c, (∀ x ∈ b, x.l ≤ q1 x.l x.u ∧ q3 x.l x.u ≤ x.u) → splitPart mid q1 q3 b k .middle = some c →
      ∀ p, Mem p c → Mem p b := by
  unfold splitPart split
  cases hx : b[k]? with
  | none => simp
  | some x =>
    refine ⟨rfl, rfl, fun c hq h p hp => ?_⟩
    obtain rfl := Option.some.inj h
    obtain ⟨hk, hx'⟩ := List.getElem?_eq_some_iff.1 hx
    have hxb : x ∈ b := by rw [← hx']; exact List.getElem_mem hk
    obtain ⟨a, h1, h2, h3⟩ := (mem_set hx _ p).1 hp
    have := h3 x ⟨(hq x hxb).1.trans h2.1, h2.2.trans (hq x hxb).2⟩
    rwa [← hx', List.set_getElem_self] at this

end Field

/-! ### Counterexamples -/

/-- **C90** fails for empty boxes: the intersection of two disjoint boxes is reported not to be a subset of one box,
to intersect another and not to be disjoint from it, and its hull with a box is larger than that box. -/
theorem C90_empty_violated :
    ∃ b c d e f g : Box Rat, disjoint b c = some true ∧ intersection b c = some d ∧ (¬∃ p, Mem p d) ∧
      subset d e = some false ∧ intersect d f = some true ∧ disjoint d f = some false ∧
      hull d e = some g ∧ Mem [3] g ∧ ¬Mem [3] e := by
  refine ⟨[⟨0, 1⟩], [⟨2, 3⟩], [⟨2, 1⟩], [⟨5, 6⟩], [⟨0, 4⟩], [⟨2, 6⟩], by decide, by decide, ?_, by decide, by decide,
    by decide, by decide, ?_, ?_⟩
  · rw [← C90_empty]; decide
  · exact .cons (by decide) .nil
  · intro h
    cases h with
    | cons h1 _ => exact absurd h1 (by decide)

/-- **C90** fails for boxes of different dimensions: the test says that a box is a subset of one with more
sides, or reads beyond the end of the other box. -/
theorem C90_dimension_violated :
    (∃ b c : Box Rat, b.length < c.length ∧ subset b c = some true) ∧
    (∃ b c : Box Rat, c.length < b.length ∧ subset b c = none) := by
  exact ⟨⟨[⟨0, 1⟩], [⟨0, 1⟩, ⟨0, 1⟩], by decide, by decide⟩, ⟨[⟨0, 1⟩, ⟨0, 1⟩], [⟨0, 1⟩], by decide, by decide⟩⟩

/-- **C90** fails for the box without sides, which has one point: it has no vertices, no radius and no volume. -/
theorem C90_zero_dimension_violated (mid : Rat → Rat → Rat) :
    (∀ p : List Rat, Mem p [] ↔ p = []) ∧ vertices ([] : Box Rat) = [] ∧ irmax ([] : Box Rat) = none ∧
      radius mid [] = none ∧ measure ([] : Box Rat) = none := by
  simp [Mem, vertices, verticesUp, irmax, radius, measure]

/-! ### Cases meeting the hypotheses -/

example : Nonempty ([⟨0, 1⟩, ⟨0, 2⟩] : Box Rat) := by intro x hx; simp at hx; rcases hx with rfl | rfl <;> norm_num
example : subset ([⟨0, 1⟩, ⟨0, 2⟩] : Box Rat) [⟨0, 2⟩, ⟨0, 3⟩] = some true := by decide
example : inside ([⟨0, 1⟩, ⟨0, 2⟩] : Box Rat) [⟨0, 2⟩, ⟨-1, 3⟩] = some false := by decide
example : overlap ([⟨0, 1⟩, ⟨0, 2⟩] : Box Rat) [⟨1, 2⟩, ⟨0, 3⟩] = some false := by decide
example : vertices ([⟨0, 1⟩, ⟨2, 3⟩] : Box Rat) = [[0, 2], [0, 3], [1, 3], [1, 2]] := by decide
example : irmax ([⟨0, 1⟩, ⟨2, 4⟩, ⟨0, 2⟩] : Box Rat) = some 1 := by decide +kernel
example : splitWidest (fun l u => (l + u) / 2) ([⟨0, 1⟩, ⟨2, 4⟩] : Box Rat) =
    some ([⟨0, 1⟩, ⟨2, 3⟩], [⟨0, 1⟩, ⟨3, 4⟩]) := by decide +kernel
example : project ([⟨0, 1⟩, ⟨2, 4⟩] : Box Rat) [1, 1, 0] = some [⟨2, 4⟩, ⟨2, 4⟩, ⟨0, 1⟩] := by decide
example : remove ([⟨0, 1⟩, ⟨2, 4⟩] : Box Rat) 0 = some [⟨2, 4⟩] := by decide
example : widen ([⟨0, 1⟩] : Box Rat) 1 = [⟨-1, 2⟩] := by decide +kernel

end Ariadne.Geometry.Box
