import Verif.Box.Props
import Verif.Logical.Model
import Mathlib.Algebra.Order.Archimedean.Basic
import Mathlib.Algebra.Order.Floor.Defs

/-!
# Model of `source/geometry/geometry.hpp` and `source/geometry/geometry.cpp`, and C91

Tests whether two sets overlap, one is inside the other or they are separated, by subdividing a box, given only tests of
each set against boxes.  The widths and radii are exact; the midpoint is a parameter.  The templates
`image_separated` and `image_inside` (geometry.hpp 98-147), whose recursive calls name functions which do not exist, and
`remove_subsets` and `remove_supersets` (149-175), which return nothing, are not modelled.
-/

namespace Ariadne.Geometry.Box.SetTests

open Ariadne.Logical

variable {K : Type*} [Field K] [LinearOrder K] [IsStrictOrderedRing K]

/-- The tests of a set against a box (set_interface.hpp 161, 179, 200), as `definitely` reads them -/
structure Tests (K : Type*) where
  separated : Box K → Bool
  covers : Box K → Bool
  overlaps : Box K → Bool

/-- Why a test has no value: undefined behaviour, or (`running`) not ended within the given depth of recursion -/
inductive Err | undefined | running
  deriving DecidableEq

/-- The loop of `irmax` (geometry.hpp 45-51) -/
def irmaxLoop (imax : Nat) (dmax : K) (i : Nat) : Box K → Nat
  | [] => imax
  | x :: b => if x.width > dmax then irmaxLoop i x.width (i + 1) b else irmaxLoop imax dmax (i + 1) b

/-- `irmax` (geometry.hpp 41-53) -/
def irmax (b : Box K) : Nat := irmaxLoop 0 0 0 b

/-- `split` (geometry.hpp 75-83 and 92-95); `none`: the first side of a box without sides is read -/
def splitBox (mid : K → K → K) (b : Box K) : Option (Box K × Box K) := Box.split mid b (irmax b)

variable (mid : K → K → K) (eps : K) (L R : Tests K)

/-- The recursion of `overlap` for a located and a regular set (geometry.cpp 62-87); the operators on logical values do not
short-circuit. -/
def overlapBox : Nat → Box K → Except Err LV
  | 0, _ => .error .running
  | n + 1, b =>
    if L.separated b then .ok .false_
    else if R.separated b then .ok .false_
    else if R.covers b then .ok .true_
    else match Box.radius mid b, splitBox mid b with
      | some r, some (b1, b2) =>
        if r < eps then .ok .indeterminate
        else if L.separated b1 then overlapBox n b2
        else if L.separated b2 then overlapBox n b1
        else do
          let v1 ← overlapBox n b1
          let v2 ← overlapBox n b2
          return LV.or_ v1 v2
      | _, _ => .error .undefined

/-- The recursion of `inside` for a located and a regular set (geometry.cpp 90-108) -/
def insideBox : Nat → Box K → Except Err LV
  | 0, _ => .error .running
  | n + 1, b =>
    if L.separated b || R.separated b then .ok .true_
    else match Box.radius mid b, splitBox mid b with
      | some r, some (b1, b2) =>
        if r < eps then .ok .indeterminate
        else if L.separated b1 then insideBox n b2
        else if L.separated b2 then insideBox n b1
        else do
          let v1 ← insideBox n b1
          let v2 ← insideBox n b2
          return LV.and_ v1 v2
      | _, _ => .error .undefined

/-- The recursion of `separated` for a located and a regular set (geometry.cpp 111-129) -/
def separatedBox : Nat → Box K → Except Err LV
  | 0, _ => .error .running
  | n + 1, b =>
    if L.separated b || R.separated b then .ok .true_
    else match Box.radius mid b, splitBox mid b with
      | some r, some (b1, b2) =>
        if r < eps then .ok .indeterminate
        else if L.separated b1 then separatedBox n b2
        else if L.separated b2 then separatedBox n b1
        else do
          let v1 ← separatedBox n b1
          let v2 ← separatedBox n b2
          return LV.and_ v1 v2
      | _, _ => .error .undefined

/-- `overlap`, `inside` and `separated` with the bounding box `bb` of the located set (geometry.cpp 34-59) -/
def overlap (n : Nat) (bb : Box K) : Except Err LV :=
  if Box.isEmpty bb then .ok .false_ else overlapBox mid eps L R n bb
def inside (n : Nat) (bb : Box K) : Except Err LV :=
  if Box.isEmpty bb then .ok .true_ else insideBox mid eps L R n bb
def separated (n : Nat) (bb : Box K) : Except Err LV :=
  if Box.isEmpty bb then .ok .true_ else separatedBox mid eps L R n bb

/-- `overlap` for an overt and an open set (geometry.cpp 134-154) -/
def overlapOvert : Nat → Box K → Except Err LV
  | 0, _ => .error .running
  | n + 1, b =>
    if L.overlaps b then
      if R.covers b then .ok .true_
      else match Box.radius mid b, splitBox mid b with
        | some r, some (b1, b2) =>
          if r < eps then .ok .indeterminate
          else do
            let v1 ← overlapOvert n b1
            if LV.definitely v1 then return .true_ else overlapOvert n b2
        | _, _ => .error .undefined
    else .ok .indeterminate

/-- `inside` for a closed and an open set (geometry.cpp 157-173) -/
def insideClosed : Nat → Box K → Except Err LV
  | 0, _ => .error .running
  | n + 1, b =>
    if L.separated b || R.covers b then .ok .true_
    else match Box.radius mid b, splitBox mid b with
      | some r, some (b1, b2) =>
        if r < eps then .ok .indeterminate
        else do
          let v1 ← insideClosed n b1
          if LV.definitely v1 then insideClosed n b2 else return .indeterminate
      | _, _ => .error .undefined

/-- `separated` for two closed sets (geometry.cpp 176-192) -/
def separatedClosed : Nat → Box K → Except Err LV
  | 0, _ => .error .running
  | n + 1, b =>
    if L.separated b || R.separated b then .ok .true_
    else match Box.radius mid b, splitBox mid b with
      | some r, some (b1, b2) =>
        if r < eps then .ok .indeterminate
        else do
          let v1 ← separatedClosed n b1
          if LV.definitely v1 then separatedClosed n b2 else return .indeterminate
      | _, _ => .error .undefined

/-! ### Specification -/

/-- The tests of a set of points are sound. -/
structure Sound (T : Tests K) (S : List K → Prop) : Prop where
  separated : ∀ b, T.separated b = true → ¬∃ p, Mem p b ∧ S p
  covers : ∀ b, T.covers b = true → ∀ p, Mem p b → S p
  overlaps : ∀ b, T.overlaps b = true → ∃ p, Mem p b ∧ S p

/-- The midpoint as computed lies in the interval. -/
def Between (mid : K → K → K) : Prop := ∀ l u, l ≤ u → l ≤ mid l u ∧ mid l u ≤ u

/-- A property of boxes which is inherited by the halves, and whose points are those of the halves -/
theorem split_spec {mid : K → K → K} (hm : Between mid) {b b1 b2 : Box K} (hb : Nonempty b)
    (h : splitBox mid b = some (b1, b2)) :
    Nonempty b1 ∧ Nonempty b2 ∧ ∀ p, Mem p b ↔ Mem p b1 ∨ Mem p b2 := by
  have hs := (Box.C90_split mid b (irmax b) (fun x hx => hm _ _ (hb x hx))).2 b1 b2 h
  refine ⟨?_, ?_, hs.1⟩ <;>
  · unfold splitBox Box.split at h
    cases hx : b[irmax b]? with
    | none => simp [hx] at h
    | some x =>
      simp only [hx] at h
      obtain ⟨rfl, rfl⟩ := Prod.mk.inj (Option.some.inj h)
      obtain ⟨hk, hx'⟩ := List.getElem?_eq_some_iff.1 hx
      have hxb : x ∈ b := by rw [← hx']; exact List.getElem_mem hk
      intro y hy
      rcases List.mem_or_eq_of_mem_set hy with hy | rfl
      · exact hb y hy
      · first
          | exact (hm _ _ (hb x hxb)).1
          | exact (hm _ _ (hb x hxb)).2

theorem bind_ok {v : LV} {x : Except Err LV} {f : LV → Except Err LV} (h : (x >>= f) = .ok v) :
    ∃ w, x = .ok w ∧ f w = .ok v := by
  cases x with
  | error e => cases h
  | ok w => exact ⟨w, rfl, h⟩

theorem or_true {a b : LV} : LV.or_ a b = .true_ ↔ a = .true_ ∨ b = .true_ := by cases a <;> cases b <;> decide
theorem or_false {a b : LV} : LV.or_ a b = .false_ ↔ a = .false_ ∧ b = .false_ := by cases a <;> cases b <;> decide
theorem and_true {a b : LV} : LV.and_ a b = .true_ ↔ a = .true_ ∧ b = .true_ := by cases a <;> cases b <;> decide
theorem and_not_false {a b : LV} (ha : a ≠ .false_) (hb : b ≠ .false_) : LV.and_ a b ≠ .false_ := by
  revert ha hb; cases a <;> cases b <;> decide
theorem definitely_iff {a : LV} : LV.definitely a = true ↔ a = .true_ := by cases a <;> decide

variable {mid eps L R} {A B : List K → Prop}

/-- **C91** (separation): if the answer is true, the sets have no common point in the box; the answer is never false. -/
theorem C91_separated_box (hm : Between mid) (hL : Sound L A) (hR : Sound R B) (n : Nat) (b : Box K) (hb : Nonempty b)
    (v : LV) (h : separatedBox mid eps L R n b = .ok v) :
    v ≠ .false_ ∧ (v = .true_ → ¬∃ p, Mem p b ∧ A p ∧ B p) := by
  induction n generalizing b v with
  | zero => cases h
  | succ n ih =>
    rw [separatedBox] at h
    by_cases h1 : (L.separated b || R.separated b) = true
    · rw [if_pos h1] at h
      obtain rfl := Except.ok.inj h
      refine ⟨by decide, fun _ ⟨p, hp, ha, hb⟩ => ?_⟩
      rcases Bool.or_eq_true_iff.1 h1 with h2 | h2
      · exact hL.separated b h2 ⟨p, hp, ha⟩
      · exact hR.separated b h2 ⟨p, hp, hb⟩
    · rw [if_neg h1] at h
      split at h
      · rename_i r b1 b2 _ hs
        obtain ⟨n1, n2, n3⟩ := split_spec hm hb hs
        by_cases h2 : r < eps
        · rw [if_pos h2] at h
          obtain rfl := Except.ok.inj h
          exact ⟨by decide, fun h => by cases h⟩
        rw [if_neg h2] at h
        by_cases h3 : L.separated b1 = true
        · rw [if_pos h3] at h
          obtain ⟨h4, h5⟩ := ih b2 n2 v h
          refine ⟨h4, fun hv ⟨p, hp, ha, hb⟩ => ?_⟩
          rcases (n3 p).1 hp with hp | hp
          · exact hL.separated b1 h3 ⟨p, hp, ha⟩
          · exact h5 hv ⟨p, hp, ha, hb⟩
        rw [if_neg h3] at h
        by_cases h4 : L.separated b2 = true
        · rw [if_pos h4] at h
          obtain ⟨h4', h5⟩ := ih b1 n1 v h
          refine ⟨h4', fun hv ⟨p, hp, ha, hb⟩ => ?_⟩
          rcases (n3 p).1 hp with hp | hp
          · exact h5 hv ⟨p, hp, ha, hb⟩
          · exact hL.separated b2 h4 ⟨p, hp, ha⟩
        rw [if_neg h4] at h
        obtain ⟨v1, e1, h⟩ := bind_ok h
        obtain ⟨v2, e2, h⟩ := bind_ok h
        obtain rfl := Except.ok.inj h
        obtain ⟨f1, g1⟩ := ih b1 n1 v1 e1
        obtain ⟨f2, g2⟩ := ih b2 n2 v2 e2
        refine ⟨and_not_false f1 f2, fun hv ⟨p, hp, hab⟩ => ?_⟩
        obtain ⟨t1, t2⟩ := and_true.1 hv
        rcases (n3 p).1 hp with hp | hp
        · exact g1 t1 ⟨p, hp, hab⟩
        · exact g2 t2 ⟨p, hp, hab⟩
      · cases h

/-- **C91** (separation of a bounded set): if the answer is true, the sets have no common point. -/
theorem C91_separated (hm : Between mid) (hL : Sound L A) (hR : Sound R B) (n : Nat) (bb : Box K)
    (hbb : ∀ p, A p → Mem p bb) (v : LV) (h : separated mid eps L R n bb = .ok v) :
    v ≠ .false_ ∧ (v = .true_ → ¬∃ p, A p ∧ B p) := by
  unfold separated at h
  by_cases he : Box.isEmpty bb = true
  · rw [if_pos he] at h
    obtain rfl := Except.ok.inj h
    exact ⟨by decide, fun _ ⟨p, ha, _⟩ => (Box.C90_empty bb).1 he ⟨p, hbb p ha⟩⟩
  · rw [if_neg he] at h
    have hb : Nonempty bb := by
      intro x hx
      simp only [Box.isEmpty, List.any_eq_true, Interval.isEmpty, decide_eq_true_eq, not_exists, not_and, not_lt] at he
      exact he x hx
    obtain ⟨h1, h2⟩ := C91_separated_box hm hL hR n bb hb v h
    exact ⟨h1, fun hv ⟨p, ha, hb⟩ => h2 hv ⟨p, hbb p ha, ha, hb⟩⟩

/-- **C91** (overlap): if the answer is false, the sets have no common point in the box.  An answer true is right
only if the located set meets every box from which it is not reported separated. -/
theorem C91_overlap_box_partial (hm : Between mid) (hL : Sound L A) (hR : Sound R B) (n : Nat) (b : Box K) (hb : Nonempty b)
    (v : LV) (h : overlapBox mid eps L R n b = .ok v) :
    (v = .false_ → ¬∃ p, Mem p b ∧ A p ∧ B p) ∧
    ((∀ c, L.separated c = false → ∃ p, Mem p c ∧ A p) → v = .true_ → ∃ p, Mem p b ∧ A p ∧ B p) := by
  induction n generalizing b v with
  | zero => cases h
  | succ n ih =>
    rw [overlapBox] at h
    by_cases h1 : L.separated b = true
    · rw [if_pos h1] at h
      obtain rfl := Except.ok.inj h
      exact ⟨fun _ ⟨p, hp, ha, _⟩ => hL.separated b h1 ⟨p, hp, ha⟩, fun _ h => (by cases h)⟩
    rw [if_neg h1] at h
    by_cases h1' : R.separated b = true
    · rw [if_pos h1'] at h
      obtain rfl := Except.ok.inj h
      exact ⟨fun _ ⟨p, hp, _, hb⟩ => hR.separated b h1' ⟨p, hp, hb⟩, fun _ h => by cases h⟩
    rw [if_neg h1'] at h
    by_cases hc : R.covers b = true
    · rw [if_pos hc] at h
      obtain rfl := Except.ok.inj h
      refine ⟨fun h => (by cases h), fun hex _ => ?_⟩
      obtain ⟨p, hp, ha⟩ := hex b (by simpa using h1)
      exact ⟨p, hp, ha, hR.covers b hc p hp⟩
    rw [if_neg hc] at h
    split at h
    · rename_i r b1 b2 _ hs
      obtain ⟨n1, n2, n3⟩ := split_spec hm hb hs
      by_cases h2 : r < eps
      · rw [if_pos h2] at h
        obtain rfl := Except.ok.inj h
        exact ⟨fun h => (by cases h), fun _ h => (by cases h)⟩
      rw [if_neg h2] at h
      by_cases h3 : L.separated b1 = true
      · rw [if_pos h3] at h
        obtain ⟨h4, h5⟩ := ih b2 n2 v h
        refine ⟨fun hv ⟨p, hp, ha, hb⟩ => ?_, fun hex hv => ?_⟩
        · rcases (n3 p).1 hp with hp | hp
          · exact hL.separated b1 h3 ⟨p, hp, ha⟩
          · exact h4 hv ⟨p, hp, ha, hb⟩
        · obtain ⟨p, hp, hab⟩ := h5 hex hv
          exact ⟨p, (n3 p).2 (.inr hp), hab⟩
      rw [if_neg h3] at h
      by_cases h4 : L.separated b2 = true
      · rw [if_pos h4] at h
        obtain ⟨h4', h5⟩ := ih b1 n1 v h
        refine ⟨fun hv ⟨p, hp, ha, hb⟩ => ?_, fun hex hv => ?_⟩
        · rcases (n3 p).1 hp with hp | hp
          · exact h4' hv ⟨p, hp, ha, hb⟩
          · exact hL.separated b2 h4 ⟨p, hp, ha⟩
        · obtain ⟨p, hp, hab⟩ := h5 hex hv
          exact ⟨p, (n3 p).2 (.inl hp), hab⟩
      rw [if_neg h4] at h
      obtain ⟨v1, e1, h⟩ := bind_ok h
      obtain ⟨v2, e2, h⟩ := bind_ok h
      obtain rfl := Except.ok.inj h
      obtain ⟨f1, g1⟩ := ih b1 n1 v1 e1
      obtain ⟨f2, g2⟩ := ih b2 n2 v2 e2
      refine ⟨fun hv ⟨p, hp, hab⟩ => ?_, fun hex hv => ?_⟩
      · obtain ⟨t1, t2⟩ := or_false.1 hv
        rcases (n3 p).1 hp with hp | hp
        · exact f1 t1 ⟨p, hp, hab⟩
        · exact f2 t2 ⟨p, hp, hab⟩
      · rcases or_true.1 hv with t | t
        · obtain ⟨p, hp, hab⟩ := g1 hex t
          exact ⟨p, (n3 p).2 (.inl hp), hab⟩
        · obtain ⟨p, hp, hab⟩ := g2 hex t
          exact ⟨p, (n3 p).2 (.inr hp), hab⟩
    · cases h

/-- **C91** (overlap of a bounded set) -/
theorem C91_overlap_partial (hm : Between mid) (hL : Sound L A) (hR : Sound R B) (n : Nat) (bb : Box K)
    (hbb : ∀ p, A p → Mem p bb) (v : LV) (h : overlap mid eps L R n bb = .ok v) :
    (v = .false_ → ¬∃ p, A p ∧ B p) ∧
    ((∀ c, L.separated c = false → ∃ p, Mem p c ∧ A p) → v = .true_ → ∃ p, A p ∧ B p) := by
  unfold overlap at h
  by_cases he : Box.isEmpty bb = true
  · rw [if_pos he] at h
    obtain rfl := Except.ok.inj h
    exact ⟨fun _ ⟨p, ha, _⟩ => (Box.C90_empty bb).1 he ⟨p, hbb p ha⟩, fun _ h => by cases h⟩
  · rw [if_neg he] at h
    have hb : Nonempty bb := by
      intro x hx
      simp only [Box.isEmpty, List.any_eq_true, Interval.isEmpty, decide_eq_true_eq, not_exists, not_and, not_lt] at he
      exact he x hx
    obtain ⟨h1, h2⟩ := C91_overlap_box_partial hm hL hR n bb hb v h
    exact ⟨fun hv ⟨p, ha, hb⟩ => h1 hv ⟨p, hbb p ha, ha, hb⟩, fun hex hv =>
      (h2 hex hv).imp fun p hp => hp.2⟩

/-- **C91** (inside): the test whether one set is inside the other is the test whether they are separated. -/
theorem C91_inside_is_separated (n : Nat) (b : Box K) :
    inside mid eps L R n b = separated mid eps L R n b := by
  have : ∀ n b, insideBox mid eps L R n b = separatedBox mid eps L R n b := by
    intro n
    induction n with
    | zero => intro b; rfl
    | succ n ih => intro b; rw [insideBox, separatedBox]; simp only [ih]
  unfold inside separated
  rw [this]

/-- **C91** (inside): so if a nonempty set is inside the other one, the answer is never true. -/
theorem C91_inside_never (hm : Between mid) (hL : Sound L A) (hR : Sound R B) (n : Nat) (bb : Box K)
    (hbb : ∀ p, A p → Mem p bb) (hne : ∃ p, A p) (hin : ∀ p, A p → B p) :
    inside mid eps L R n bb ≠ .ok .true_ := by
  intro h
  rw [C91_inside_is_separated] at h
  obtain ⟨p, hp⟩ := hne
  exact (C91_separated hm hL hR n bb hbb _ h).2 rfl ⟨p, hp, hin p hp⟩

/-- **C91** (overlap of an overt and an open set): if the answer is true, the sets have a common point in the box; the
answer is never false. -/
theorem C91_overlap_overt (hm : Between mid) (hL : Sound L A) (hR : Sound R B) (n : Nat) (b : Box K) (hb : Nonempty b)
    (v : LV) (h : overlapOvert mid eps L R n b = .ok v) :
    v ≠ .false_ ∧ (v = .true_ → ∃ p, Mem p b ∧ A p ∧ B p) := by
  induction n generalizing b v with
  | zero => cases h
  | succ n ih =>
    rw [overlapOvert] at h
    by_cases h1 : L.overlaps b = true
    · rw [if_pos h1] at h
      by_cases hc : R.covers b = true
      · rw [if_pos hc] at h
        obtain rfl := Except.ok.inj h
        obtain ⟨p, hp, ha⟩ := hL.overlaps b h1
        exact ⟨by decide, fun _ => ⟨p, hp, ha, hR.covers b hc p hp⟩⟩
      rw [if_neg hc] at h
      split at h
      · rename_i r b1 b2 _ hs
        obtain ⟨n1, n2, n3⟩ := split_spec hm hb hs
        by_cases h2 : r < eps
        · rw [if_pos h2] at h
          obtain rfl := Except.ok.inj h
          exact ⟨by decide, fun h => by cases h⟩
        rw [if_neg h2] at h
        obtain ⟨v1, e1, h⟩ := bind_ok h
        obtain ⟨f1, g1⟩ := ih b1 n1 v1 e1
        by_cases hd : LV.definitely v1 = true
        · rw [if_pos hd] at h
          obtain rfl := Except.ok.inj h
          refine ⟨by decide, fun _ => ?_⟩
          obtain ⟨p, hp, hab⟩ := g1 (definitely_iff.1 hd)
          exact ⟨p, (n3 p).2 (.inl hp), hab⟩
        · rw [if_neg hd] at h
          obtain ⟨f2, g2⟩ := ih b2 n2 v h
          refine ⟨f2, fun hv => ?_⟩
          obtain ⟨p, hp, hab⟩ := g2 hv
          exact ⟨p, (n3 p).2 (.inr hp), hab⟩
      · cases h
    · rw [if_neg h1] at h
      obtain rfl := Except.ok.inj h
      exact ⟨by decide, fun h => by cases h⟩

/-- **C91** (a closed set inside an open set): if the answer is true, every point of the closed set in the box is a point
of the open set; the answer is never false. -/
theorem C91_inside_closed (hm : Between mid) (hL : Sound L A) (hR : Sound R B) (n : Nat) (b : Box K) (hb : Nonempty b)
    (v : LV) (h : insideClosed mid eps L R n b = .ok v) :
    v ≠ .false_ ∧ (v = .true_ → ∀ p, Mem p b → A p → B p) := by
  induction n generalizing b v with
  | zero => cases h
  | succ n ih =>
    rw [insideClosed] at h
    by_cases h1 : (L.separated b || R.covers b) = true
    · rw [if_pos h1] at h
      obtain rfl := Except.ok.inj h
      refine ⟨by decide, fun _ p hp ha => ?_⟩
      rcases Bool.or_eq_true_iff.1 h1 with h2 | h2
      · exact absurd ⟨p, hp, ha⟩ (hL.separated b h2)
      · exact hR.covers b h2 p hp
    rw [if_neg h1] at h
    split at h
    · rename_i r b1 b2 _ hs
      obtain ⟨n1, n2, n3⟩ := split_spec hm hb hs
      by_cases h2 : r < eps
      · rw [if_pos h2] at h
        obtain rfl := Except.ok.inj h
        exact ⟨by decide, fun h => by cases h⟩
      rw [if_neg h2] at h
      obtain ⟨v1, e1, h⟩ := bind_ok h
      obtain ⟨f1, g1⟩ := ih b1 n1 v1 e1
      by_cases hd : LV.definitely v1 = true
      · rw [if_pos hd] at h
        obtain ⟨f2, g2⟩ := ih b2 n2 v h
        refine ⟨f2, fun hv p hp ha => ?_⟩
        rcases (n3 p).1 hp with hp | hp
        · exact g1 (definitely_iff.1 hd) p hp ha
        · exact g2 hv p hp ha
      · rw [if_neg hd] at h
        obtain rfl := Except.ok.inj h
        exact ⟨by decide, fun h => by cases h⟩
    · cases h

/-- **C91** (separation of closed sets) -/
theorem C91_separated_closed (hm : Between mid) (hL : Sound L A) (hR : Sound R B) (n : Nat) (b : Box K) (hb : Nonempty b)
    (v : LV) (h : separatedClosed mid eps L R n b = .ok v) :
    v ≠ .false_ ∧ (v = .true_ → ¬∃ p, Mem p b ∧ A p ∧ B p) := by
  induction n generalizing b v with
  | zero => cases h
  | succ n ih =>
    rw [separatedClosed] at h
    by_cases h1 : (L.separated b || R.separated b) = true
    · rw [if_pos h1] at h
      obtain rfl := Except.ok.inj h
      refine ⟨by decide, fun _ ⟨p, hp, ha, hb⟩ => ?_⟩
      rcases Bool.or_eq_true_iff.1 h1 with h2 | h2
      · exact hL.separated b h2 ⟨p, hp, ha⟩
      · exact hR.separated b h2 ⟨p, hp, hb⟩
    rw [if_neg h1] at h
    split at h
    · rename_i r b1 b2 _ hs
      obtain ⟨n1, n2, n3⟩ := split_spec hm hb hs
      by_cases h2 : r < eps
      · rw [if_pos h2] at h
        obtain rfl := Except.ok.inj h
        exact ⟨by decide, fun h => by cases h⟩
      rw [if_neg h2] at h
      obtain ⟨v1, e1, h⟩ := bind_ok h
      obtain ⟨f1, g1⟩ := ih b1 n1 v1 e1
      by_cases hd : LV.definitely v1 = true
      · rw [if_pos hd] at h
        obtain ⟨f2, g2⟩ := ih b2 n2 v h
        refine ⟨f2, fun hv ⟨p, hp, hab⟩ => ?_⟩
        rcases (n3 p).1 hp with hp | hp
        · exact g1 (definitely_iff.1 hd) ⟨p, hp, hab⟩
        · exact g2 hv ⟨p, hp, hab⟩
      · rw [if_neg hd] at h
        obtain rfl := Except.ok.inj h
        exact ⟨by decide, fun h => by cases h⟩
    · cases h

/-! ### Termination -/

theorem irmaxLoop_spec (b c : Box K) (imax : Nat) (dmax : K)
    (hi : (∃ x, (c ++ b)[imax]? = some x ∧ x.width = dmax) ∨ (imax = 0 ∧ dmax = 0)) (hc : ∀ x ∈ c, x.width ≤ dmax)
    (hn : Nonempty (c ++ b)) (hne : c ++ b ≠ []) :
    ∃ x, (c ++ b)[irmaxLoop imax dmax c.length b]? = some x ∧ ∀ y ∈ c ++ b, y.width ≤ x.width := by
  induction b generalizing c imax dmax with
  | nil =>
    rcases hi with ⟨x, h1, rfl⟩ | ⟨rfl, rfl⟩
    · exact ⟨x, h1, by simpa using hc⟩
    · cases c with
      | nil => simp at hne
      | cons x c =>
        refine ⟨x, by simp [irmaxLoop], fun y hy => ?_⟩
        have h1 := hc y (by simpa using hy)
        have h2 := hn x (by simp)
        have h3 : 0 ≤ x.width := sub_nonneg.2 h2
        exact h1.trans h3
  | cons z b ih =>
    rw [irmaxLoop]
    have e : c ++ z :: b = (c ++ [z]) ++ b := by simp
    have e' : c.length + 1 = (c ++ [z]).length := by simp
    by_cases h : z.width > dmax
    · rw [if_pos h, e, e']
      apply ih
      · exact .inl ⟨z, by simp, rfl⟩
      · intro x hx
        rcases List.mem_append.1 hx with hx | hx
        · exact (hc x hx).trans h.le
        · obtain rfl := List.mem_singleton.1 hx; exact le_rfl
      · rwa [← e]
      · rwa [← e]
    · rw [if_neg h, e, e']
      apply ih
      · rw [← e]; exact hi
      · intro x hx
        rcases List.mem_append.1 hx with hx | hx
        · exact hc x hx
        · obtain rfl := List.mem_singleton.1 hx; exact not_lt.1 h
      · rwa [← e]
      · rwa [← e]

/-- **C91** (the side split): a widest side is split. -/
theorem C91_irmax (b : Box K) (hn : Nonempty b) (hne : b ≠ []) :
    ∃ x, b[irmax b]? = some x ∧ ∀ y ∈ b, y.width ≤ x.width :=
  irmaxLoop_spec b [] 0 0 (.inr ⟨rfl, rfl⟩) (by simp) hn hne

/-- The exact midpoint -/
def half (l u : K) : K := (l + u) / 2

theorem half_between : Between (half : K → K → K) := by
  intro l u h
  unfold half
  constructor <;> linarith

theorem foldl_max_le (f : Interval K → K) (b : Box K) (r w : K) (hr : r ≤ w) (hb : ∀ x ∈ b, f x ≤ w) :
    b.foldl (fun r y => max r (f y)) r ≤ w := by
  induction b generalizing r with
  | nil => exact hr
  | cons x b ih => exact ih _ (max_le hr (hb x (by simp))) (fun y hy => hb y (by simp [hy]))

theorem radius_half (b : Box K) (hne : b ≠ []) (w : K) (hw : ∀ y ∈ b, y.width ≤ w) :
    ∃ r, Box.radius half b = some r ∧ r ≤ w / 2 := by
  have h : ∀ y ∈ b, y.radius half ≤ w / 2 := by
    intro y hy
    have := hw y hy
    unfold Interval.width at this
    unfold Interval.radius Interval.midpoint half
    refine max_le ?_ ?_ <;> linarith
  cases b with
  | nil => exact absurd rfl hne
  | cons x b => exact ⟨_, rfl, foldl_max_le _ _ _ _ (h x (by simp)) (fun y hy => h y (by simp [hy]))⟩

/-- The width of each side is less than `2 eps 2^k`. -/
def Small (eps : K) (b : Box K) (ks : List Nat) : Prop := List.Forall₂ (fun x k => x.width < 2 * eps * 2 ^ k) b ks

theorem progress (b : Box K) (ks : List Nat) (hs : Small eps b ks) (hn : Nonempty b) (hne : b ≠ []) :
    ∃ r b1 b2, Box.radius half b = some r ∧ splitBox half b = some (b1, b2) ∧ b1 ≠ [] ∧ b2 ≠ [] ∧
      Nonempty b1 ∧ Nonempty b2 ∧ (¬r < eps → ∃ ks', ks'.sum < ks.sum ∧ Small eps b1 ks' ∧ Small eps b2 ks') := by
  obtain ⟨x, hx, hw⟩ := C91_irmax b hn hne
  obtain ⟨r, hr, hrw⟩ := radius_half b hne _ hw
  have hsp : splitBox half b = some (b.set (irmax b) ⟨x.l, half x.l x.u⟩, b.set (irmax b) ⟨half x.l x.u, x.u⟩) := by
    unfold splitBox Box.split; rw [hx]
  obtain ⟨n1, n2, -⟩ := split_spec half_between hn hsp
  have hne' : ∀ z, b.set (irmax b) z ≠ [] := fun z hz => by
    have := congrArg List.length hz
    simp at this
    exact hne this
  refine ⟨r, _, _, hr, hsp, hne' _, hne' _, n1, n2, fun hlt => ?_⟩
  generalize irmax b = i at hx
  have hwx : 2 * eps ≤ x.width := by linarith [not_lt.1 hlt]
  clear hsp n1 n2 hne' hw hr hrw hlt hn hne
  unfold Small at *
  induction hs generalizing i with
  | nil => simp at hx
  | @cons y k b ks h1 h2 ih =>
    cases i with
    | zero =>
      obtain rfl : y = x := by simpa using hx
      cases k with
      | zero => simp at h1; linarith
      | succ k =>
        refine ⟨k :: ks, by simp, .cons ?_ h2, .cons ?_ h2⟩ <;>
        · unfold Interval.width at *
          unfold half
          rw [pow_succ] at h1
          simp only
          linarith
    | succ i =>
      obtain ⟨ks', h3, h4, h5⟩ := ih i (by simpa using hx)
      exact ⟨k :: ks', by simpa using h3, .cons h1 h4, .cons h1 h5⟩

theorem exists_small [Archimedean K] (he : 0 < eps) (b : Box K) : ∃ ks, Small eps b ks := by
  induction b with
  | nil => exact ⟨[], .nil⟩
  | cons x b ih =>
    obtain ⟨ks, h⟩ := ih
    obtain ⟨k, hk⟩ := pow_unbounded_of_one_lt (x.width / (2 * eps)) (one_lt_two : (1 : K) < 2)
    refine ⟨k :: ks, .cons ?_ h⟩
    rw [div_lt_iff₀ (by linarith)] at hk
    linarith

theorem overlapBox_ends (n : Nat) (b : Box K) (ks : List Nat) (hs : Small eps b ks) (hn : Nonempty b) (hne : b ≠ [])
    (hk : ks.sum < n) : ∃ v, overlapBox half eps L R n b = .ok v := by
  induction n generalizing b ks with
  | zero => omega
  | succ n ih =>
    obtain ⟨r, b1, b2, hr, hsp, e1, e2, n1, n2, hp⟩ := progress b ks hs hn hne
    rw [overlapBox, hr, hsp]
    by_cases hlt : r < eps
    · simp only [if_pos hlt]
      split_ifs <;> exact ⟨_, rfl⟩
    · obtain ⟨ks', h1, h2, h3⟩ := hp hlt
      obtain ⟨v1, hv1⟩ := ih b1 ks' h2 n1 e1 (by omega)
      obtain ⟨v2, hv2⟩ := ih b2 ks' h3 n2 e2 (by omega)
      simp only [if_neg hlt, hv1, hv2, bind, Except.bind, pure, Except.pure]
      split_ifs <;> exact ⟨_, rfl⟩

theorem insideBox_ends (n : Nat) (b : Box K) (ks : List Nat) (hs : Small eps b ks) (hn : Nonempty b) (hne : b ≠ [])
    (hk : ks.sum < n) : ∃ v, insideBox half eps L R n b = .ok v := by
  induction n generalizing b ks with
  | zero => omega
  | succ n ih =>
    obtain ⟨r, b1, b2, hr, hsp, e1, e2, n1, n2, hp⟩ := progress b ks hs hn hne
    rw [insideBox, hr, hsp]
    by_cases hlt : r < eps
    · simp only [if_pos hlt]
      split_ifs <;> exact ⟨_, rfl⟩
    · obtain ⟨ks', h1, h2, h3⟩ := hp hlt
      obtain ⟨v1, hv1⟩ := ih b1 ks' h2 n1 e1 (by omega)
      obtain ⟨v2, hv2⟩ := ih b2 ks' h3 n2 e2 (by omega)
      simp only [if_neg hlt, hv1, hv2, bind, Except.bind, pure, Except.pure]
      split_ifs <;> exact ⟨_, rfl⟩

theorem separatedBox_ends (n : Nat) (b : Box K) (ks : List Nat) (hs : Small eps b ks) (hn : Nonempty b) (hne : b ≠ [])
    (hk : ks.sum < n) : ∃ v, separatedBox half eps L R n b = .ok v := by
  induction n generalizing b ks with
  | zero => omega
  | succ n ih =>
    obtain ⟨r, b1, b2, hr, hsp, e1, e2, n1, n2, hp⟩ := progress b ks hs hn hne
    rw [separatedBox, hr, hsp]
    by_cases hlt : r < eps
    · simp only [if_pos hlt]
      split_ifs <;> exact ⟨_, rfl⟩
    · obtain ⟨ks', h1, h2, h3⟩ := hp hlt
      obtain ⟨v1, hv1⟩ := ih b1 ks' h2 n1 e1 (by omega)
      obtain ⟨v2, hv2⟩ := ih b2 ks' h3 n2 e2 (by omega)
      simp only [if_neg hlt, hv1, hv2, bind, Except.bind, pure, Except.pure]
      split_ifs <;> exact ⟨_, rfl⟩

theorem overlapOvert_ends (n : Nat) (b : Box K) (ks : List Nat) (hs : Small eps b ks) (hn : Nonempty b) (hne : b ≠ [])
    (hk : ks.sum < n) : ∃ v, overlapOvert half eps L R n b = .ok v := by
  induction n generalizing b ks with
  | zero => omega
  | succ n ih =>
    obtain ⟨r, b1, b2, hr, hsp, e1, e2, n1, n2, hp⟩ := progress b ks hs hn hne
    rw [overlapOvert, hr, hsp]
    by_cases hlt : r < eps
    · simp only [if_pos hlt]
      split_ifs <;> exact ⟨_, rfl⟩
    · obtain ⟨ks', h1, h2, h3⟩ := hp hlt
      obtain ⟨v1, hv1⟩ := ih b1 ks' h2 n1 e1 (by omega)
      obtain ⟨v2, hv2⟩ := ih b2 ks' h3 n2 e2 (by omega)
      simp only [if_neg hlt, hv1, hv2, bind, Except.bind, pure, Except.pure]
      split_ifs <;> exact ⟨_, rfl⟩

theorem insideClosed_ends (n : Nat) (b : Box K) (ks : List Nat) (hs : Small eps b ks) (hn : Nonempty b) (hne : b ≠ [])
    (hk : ks.sum < n) : ∃ v, insideClosed half eps L R n b = .ok v := by
  induction n generalizing b ks with
  | zero => omega
  | succ n ih =>
    obtain ⟨r, b1, b2, hr, hsp, e1, e2, n1, n2, hp⟩ := progress b ks hs hn hne
    rw [insideClosed, hr, hsp]
    by_cases hlt : r < eps
    · simp only [if_pos hlt]
      split_ifs <;> exact ⟨_, rfl⟩
    · obtain ⟨ks', h1, h2, h3⟩ := hp hlt
      obtain ⟨v1, hv1⟩ := ih b1 ks' h2 n1 e1 (by omega)
      obtain ⟨v2, hv2⟩ := ih b2 ks' h3 n2 e2 (by omega)
      simp only [if_neg hlt, hv1, hv2, bind, Except.bind, pure, Except.pure]
      split_ifs <;> exact ⟨_, rfl⟩

theorem separatedClosed_ends (n : Nat) (b : Box K) (ks : List Nat) (hs : Small eps b ks) (hn : Nonempty b) (hne : b ≠ [])
    (hk : ks.sum < n) : ∃ v, separatedClosed half eps L R n b = .ok v := by
  induction n generalizing b ks with
  | zero => omega
  | succ n ih =>
    obtain ⟨r, b1, b2, hr, hsp, e1, e2, n1, n2, hp⟩ := progress b ks hs hn hne
    rw [separatedClosed, hr, hsp]
    by_cases hlt : r < eps
    · simp only [if_pos hlt]
      split_ifs <;> exact ⟨_, rfl⟩
    · obtain ⟨ks', h1, h2, h3⟩ := hp hlt
      obtain ⟨v1, hv1⟩ := ih b1 ks' h2 n1 e1 (by omega)
      obtain ⟨v2, hv2⟩ := ih b2 ks' h3 n2 e2 (by omega)
      simp only [if_neg hlt, hv1, hv2, bind, Except.bind, pure, Except.pure]
      split_ifs <;> exact ⟨_, rfl⟩

/-- **C91** (termination): for a positive tolerance and exact midpoints every test ends. -/
theorem C91_terminates [Archimedean K] (he : 0 < eps) (b : Box K) (hn : Nonempty b) (hne : b ≠ []) :
    ∃ N, ∀ n, N ≤ n →
      (∃ v, overlapBox half eps L R n b = .ok v) ∧
      (∃ v, insideBox half eps L R n b = .ok v) ∧
      (∃ v, separatedBox half eps L R n b = .ok v) ∧
      (∃ v, overlapOvert half eps L R n b = .ok v) ∧
      (∃ v, insideClosed half eps L R n b = .ok v) ∧
      (∃ v, separatedClosed half eps L R n b = .ok v) := by
  obtain ⟨ks, hs⟩ := exists_small he b
  exact ⟨ks.sum + 1, fun n h => ⟨overlapBox_ends n b ks hs hn hne (by omega),
    insideBox_ends n b ks hs hn hne (by omega),
    separatedBox_ends n b ks hs hn hne (by omega),
    overlapOvert_ends n b ks hs hn hne (by omega),
    insideClosed_ends n b ks hs hn hne (by omega),
    separatedClosed_ends n b ks hs hn hne (by omega)⟩⟩

theorem overlapBox_mono (n : Nat) (b : Box K) (v : LV) (h : overlapBox mid eps L R n b = .ok v) :
    overlapBox mid eps L R (n + 1) b = .ok v := by
  induction n generalizing b v with
  | zero => cases h
  | succ n ih =>
    rw [overlapBox] at h ⊢
    split_ifs at h ⊢ <;> try exact h
    cases hr : Box.radius mid b with
    | none => simp only [hr] at h; cases h
    | some r =>
    cases hs : splitBox mid b with
    | none => simp only [hr, hs] at h; cases h
    | some bs =>
      obtain ⟨b1, b2⟩ := bs
      simp only [hr, hs] at h ⊢
      split_ifs at h ⊢ <;> try exact h
      · exact ih _ _ h
      · exact ih _ _ h
      · obtain ⟨v1, e1, h⟩ := bind_ok h
        obtain ⟨v2, e2, h⟩ := bind_ok h
        rw [ih _ _ e1, ih _ _ e2]
        exact h

theorem insideBox_mono (n : Nat) (b : Box K) (v : LV) (h : insideBox mid eps L R n b = .ok v) :
    insideBox mid eps L R (n + 1) b = .ok v := by
  induction n generalizing b v with
  | zero => cases h
  | succ n ih =>
    rw [insideBox] at h ⊢
    split_ifs at h ⊢ <;> try exact h
    cases hr : Box.radius mid b with
    | none => simp only [hr] at h; cases h
    | some r =>
    cases hs : splitBox mid b with
    | none => simp only [hr, hs] at h; cases h
    | some bs =>
      obtain ⟨b1, b2⟩ := bs
      simp only [hr, hs] at h ⊢
      split_ifs at h ⊢ <;> try exact h
      · exact ih _ _ h
      · exact ih _ _ h
      · obtain ⟨v1, e1, h⟩ := bind_ok h
        obtain ⟨v2, e2, h⟩ := bind_ok h
        rw [ih _ _ e1, ih _ _ e2]
        exact h

theorem separatedBox_mono (n : Nat) (b : Box K) (v : LV) (h : separatedBox mid eps L R n b = .ok v) :
    separatedBox mid eps L R (n + 1) b = .ok v := by
  induction n generalizing b v with
  | zero => cases h
  | succ n ih =>
    rw [separatedBox] at h ⊢
    split_ifs at h ⊢ <;> try exact h
    cases hr : Box.radius mid b with
    | none => simp only [hr] at h; cases h
    | some r =>
    cases hs : splitBox mid b with
    | none => simp only [hr, hs] at h; cases h
    | some bs =>
      obtain ⟨b1, b2⟩ := bs
      simp only [hr, hs] at h ⊢
      split_ifs at h ⊢ <;> try exact h
      · exact ih _ _ h
      · exact ih _ _ h
      · obtain ⟨v1, e1, h⟩ := bind_ok h
        obtain ⟨v2, e2, h⟩ := bind_ok h
        rw [ih _ _ e1, ih _ _ e2]
        exact h

theorem overlapOvert_mono (n : Nat) (b : Box K) (v : LV) (h : overlapOvert mid eps L R n b = .ok v) :
    overlapOvert mid eps L R (n + 1) b = .ok v := by
  induction n generalizing b v with
  | zero => cases h
  | succ n ih =>
    rw [overlapOvert] at h ⊢
    split_ifs at h ⊢ <;> try exact h
    cases hr : Box.radius mid b with
    | none => simp only [hr] at h; cases h
    | some r =>
    cases hs : splitBox mid b with
    | none => simp only [hr, hs] at h; cases h
    | some bs =>
      obtain ⟨b1, b2⟩ := bs
      simp only [hr, hs] at h ⊢
      split_ifs at h ⊢ <;> try exact h
      obtain ⟨v1, e1, h⟩ := bind_ok h
      rw [ih _ _ e1]
      simp only [bind, Except.bind]
      split_ifs at h ⊢
      all_goals first
        | exact h
        | exact ih _ _ h

theorem insideClosed_mono (n : Nat) (b : Box K) (v : LV) (h : insideClosed mid eps L R n b = .ok v) :
    insideClosed mid eps L R (n + 1) b = .ok v := by
  induction n generalizing b v with
  | zero => cases h
  | succ n ih =>
    rw [insideClosed] at h ⊢
    split_ifs at h ⊢ <;> try exact h
    cases hr : Box.radius mid b with
    | none => simp only [hr] at h; cases h
    | some r =>
    cases hs : splitBox mid b with
    | none => simp only [hr, hs] at h; cases h
    | some bs =>
      obtain ⟨b1, b2⟩ := bs
      simp only [hr, hs] at h ⊢
      split_ifs at h ⊢ <;> try exact h
      obtain ⟨v1, e1, h⟩ := bind_ok h
      rw [ih _ _ e1]
      simp only [bind, Except.bind]
      split_ifs at h ⊢
      all_goals first
        | exact h
        | exact ih _ _ h

theorem separatedClosed_mono (n : Nat) (b : Box K) (v : LV) (h : separatedClosed mid eps L R n b = .ok v) :
    separatedClosed mid eps L R (n + 1) b = .ok v := by
  induction n generalizing b v with
  | zero => cases h
  | succ n ih =>
    rw [separatedClosed] at h ⊢
    split_ifs at h ⊢ <;> try exact h
    cases hr : Box.radius mid b with
    | none => simp only [hr] at h; cases h
    | some r =>
    cases hs : splitBox mid b with
    | none => simp only [hr, hs] at h; cases h
    | some bs =>
      obtain ⟨b1, b2⟩ := bs
      simp only [hr, hs] at h ⊢
      split_ifs at h ⊢ <;> try exact h
      obtain ⟨v1, e1, h⟩ := bind_ok h
      rw [ih _ _ e1]
      simp only [bind, Except.bind]
      split_ifs at h ⊢
      all_goals first
        | exact h
        | exact ih _ _ h

/-- **C91** (depth): an answer does not depend on the depth of recursion allowed. -/
theorem C91_depth (n m : Nat) (hnm : n ≤ m) (b : Box K) (v : LV) :
    (overlapBox mid eps L R n b = .ok v → overlapBox mid eps L R m b = .ok v) ∧
    (insideBox mid eps L R n b = .ok v → insideBox mid eps L R m b = .ok v) ∧
    (separatedBox mid eps L R n b = .ok v → separatedBox mid eps L R m b = .ok v) ∧
    (overlapOvert mid eps L R n b = .ok v → overlapOvert mid eps L R m b = .ok v) ∧
    (insideClosed mid eps L R n b = .ok v → insideClosed mid eps L R m b = .ok v) ∧
    (separatedClosed mid eps L R n b = .ok v → separatedClosed mid eps L R m b = .ok v) := by
  induction hnm with
  | refl => exact ⟨id, id, id, id, id, id⟩
  | step _ ih =>
    obtain ⟨h1, h2, h3, h4, h5, h6⟩ := ih
    exact ⟨fun h => overlapBox_mono _ _ _ (h1 h),
      fun h => insideBox_mono _ _ _ (h2 h),
      fun h => separatedBox_mono _ _ _ (h3 h),
      fun h => overlapOvert_mono _ _ _ (h4 h),
      fun h => insideClosed_mono _ _ _ (h5 h),
      fun h => separatedClosed_mono _ _ _ (h6 h)⟩

/-! ### Counterexamples -/

/-- The exact tests of the interval from `l` to `u` -/
def ivl (l u : Rat) : Tests Rat where
  separated := fun b => match b with
    | [x] => decide (x.u < l ∨ u < x.l)
    | _ => false
  covers := fun b => match b with
    | [x] => decide (l < x.l ∧ x.u < u)
    | _ => false
  overlaps := fun b => match b with
    | [x] => decide (x.l < u ∧ l < x.u ∧ l < u ∧ x.l < x.u)
    | _ => false

theorem ivl_sound (l u : Rat) : Sound (ivl l u) (fun p => Mem p [⟨l, u⟩]) := by
  constructor
  · rintro b h ⟨p, h1, h2⟩
    match b, h with
    | [x], h =>
      simp only [ivl, decide_eq_true_eq] at h
      cases h1 with
      | cons h3 h4 => cases h4; cases h2 with
        | cons h5 _ => rcases h with h | h <;> linarith [h3.1, h3.2, h5.1, h5.2]
  · intro b h p hp
    match b, h with
    | [x], h =>
      simp only [ivl, decide_eq_true_eq] at h
      cases hp with
      | cons h3 h4 => cases h4; exact .cons ⟨by linarith [h3.1], by linarith [h3.2]⟩ .nil
  · intro b h
    match b, h with
    | [x], h =>
      simp only [ivl, decide_eq_true_eq] at h
      exact ⟨[max x.l l], .cons ⟨le_max_left _ _, max_le h.2.2.2.le h.2.1.le⟩ .nil,
        .cons ⟨le_max_right _ _, max_le h.1.le h.2.2.1.le⟩ .nil⟩

/-- **C91** fails for the test whether a set is inside another: the answer is true for `[0,1]` and `[2,3]`, and
indeterminate for `[1,2]` and `[0,3]`. -/
theorem C91_inside_violated :
    ∃ L R : Tests Rat, ∃ bb : Box Rat, Sound L (fun p => Mem p [⟨0, 1⟩]) ∧ Sound R (fun p => Mem p [⟨2, 3⟩]) ∧
      (∀ p, Mem p [⟨0, 1⟩] → Mem p bb) ∧ inside half 1 L R 1 bb = .ok .true_ ∧
      ∃ p : List Rat, Mem p [⟨0, 1⟩] ∧ ¬Mem p [⟨2, 3⟩] := by
  refine ⟨ivl 0 1, ivl 2 3, [⟨0, 1⟩], ivl_sound _ _, ivl_sound _ _, fun _ h => h, by decide +kernel, [0],
    .cons (by decide) .nil, ?_⟩
  intro h
  cases h with
  | cons h1 _ => exact absurd h1 (by decide)

example : inside half (1 / 100) (ivl 1 2) (ivl 0 3) 9 [⟨1, 2⟩] = .ok .indeterminate := by decide +kernel

/-- **C91** fails for the test whether two sets overlap: if the bounding box of `[0,1]` is given as `[0,4]`, and the test of
that set says that it is separated only from boxes which start after two, the answer is true for a set which it does not
meet. -/
theorem C91_overlap_violated :
    ∃ L R : Tests Rat, ∃ bb : Box Rat, Sound L (fun p => Mem p [⟨0, 1⟩]) ∧ Sound R (fun p => Mem p [⟨5/4, 3⟩]) ∧
      (∀ p, Mem p [⟨0, 1⟩] → Mem p bb) ∧ overlap half (1 / 10) L R 9 bb = .ok .true_ ∧
      ¬∃ p : List Rat, Mem p [⟨0, 1⟩] ∧ Mem p [⟨5/4, 3⟩] := by
  refine ⟨{ ivl 0 1 with separated := fun b => match b with
    | [x] => decide (2 < x.l)
    | _ => false }, ivl (5/4) 3, [⟨0, 4⟩], ?_, ivl_sound _ _, ?_, by decide +kernel, ?_⟩
  · refine ⟨fun b h => ?_, (ivl_sound 0 1).covers, (ivl_sound 0 1).overlaps⟩
    rintro ⟨p, h1, h2⟩
    match b, h with
    | [x], h =>
      simp only [decide_eq_true_eq] at h
      cases h1 with
      | cons h3 h4 => cases h4; cases h2 with
        | cons h5 _ => linarith [h3.1, h3.2, h5.1, h5.2]
  · intro p hp
    cases hp with
    | cons h1 h2 => cases h2; exact .cons ⟨h1.1, by linarith [h1.2]⟩ .nil
  · rintro ⟨p, h1, h2⟩
    cases h1 with
    | cons h3 h4 => cases h4; cases h2 with
      | cons h5 _ => linarith [h3.1, h3.2, h5.1, h5.2]

/-- **C91** (termination) fails for a tolerance zero: the test whether `[0,1]` is separated from `[1,2]` never ends. -/
theorem C91_no_tolerance_violated (n : Nat) :
    separated half 0 (ivl 0 1) (ivl 1 2) n [⟨0, 1⟩] = .error .running := by
  have key : ∀ (n : Nat) (l : Rat), 0 ≤ l → l < 1 →
      separatedBox half 0 (ivl 0 1) (ivl 1 2) n [⟨l, 1⟩] = .error .running := by
    intro n
    induction n with
    | zero => intro l _ _; rfl
    | succ n ih =>
      intro l h0 h1
      have hs : splitBox half [⟨l, (1 : Rat)⟩] = some ([⟨l, half l 1⟩], [⟨half l 1, 1⟩]) := by
        have : irmax [⟨l, (1 : Rat)⟩] = 0 := by unfold irmax irmaxLoop irmaxLoop; split_ifs <;> rfl
        unfold splitBox Box.split
        rw [this]
        rfl
      have hh : l < half l 1 ∧ half l 1 < 1 := by unfold half; constructor <;> linarith
      have hr : ¬max (1 - half l 1) (half l 1 - l) < 0 := by
        rw [not_lt]
        exact le_max_of_le_left (by linarith [hh.2])
      rw [separatedBox, if_neg, hs]
      · simp only [Box.radius, List.foldl_nil, Interval.radius, Interval.midpoint]
        rw [if_neg hr, if_neg, if_neg, ih (half l 1) (by linarith [hh.1]) hh.2]
        · cases n with
          | zero => rfl
          | succ n =>
            rw [separatedBox, if_pos]
            · rfl
            · simp [ivl, hh.2]
        · simp only [ivl, decide_eq_true_eq, not_or, not_lt]
          exact ⟨by norm_num, hh.2.le⟩
        · simp only [ivl, decide_eq_true_eq, not_or, not_lt]
          exact ⟨by linarith [hh.1], h1.le⟩
      · simp only [ivl, Bool.or_eq_true, decide_eq_true_eq, not_or, not_lt]
        exact ⟨⟨by norm_num, h1.le⟩, le_rfl, by linarith⟩
  unfold separated
  rw [if_neg (by decide)]
  exact key n 0 le_rfl (by norm_num)

/-- **C91** (termination) fails for a tolerance smaller than the distance of two numbers without a number in between, for
which the midpoint as computed is one of them. -/
theorem C91_resolution_violated (mid : Rat → Rat → Rat) (h01 : mid 0 1 = 0) (h00 : mid 0 0 = 0) (n : Nat) :
    separated mid (1 / 2) (ivl 0 1) (ivl 0 1) n [⟨0, 1⟩] = .error .running := by
  have hs : splitBox mid [⟨0, (1 : Rat)⟩] = some ([⟨0, 0⟩], [⟨0, 1⟩]) := by
    have : irmax [⟨0, (1 : Rat)⟩] = 0 := by decide +kernel
    unfold splitBox Box.split
    rw [this]
    simp [h01]
  have hs' : splitBox mid [⟨0, (0 : Rat)⟩] = some ([⟨0, 0⟩], [⟨0, 0⟩]) := by
    have : irmax [⟨0, (0 : Rat)⟩] = 0 := by decide +kernel
    unfold splitBox Box.split
    rw [this]
    simp [h00]
  unfold separated
  rw [if_neg (by decide)]
  induction n with
  | zero => rfl
  | succ n ih =>
    rw [separatedBox, if_neg (by decide), hs]
    simp only [Box.radius, List.foldl_nil, Interval.radius, Interval.midpoint, h01]
    rw [if_neg (by decide +kernel), if_neg (by decide), if_neg (by decide), ih]
    cases n with
    | zero => rfl
    | succ n =>
      rw [separatedBox, if_neg (by decide), hs']
      simp only [Box.radius, List.foldl_nil, Interval.radius, Interval.midpoint, h00]
      rw [if_pos (by decide +kernel)]
      rfl

/-! ### Cases meeting the hypotheses -/

example : separated half (1 / 100) (ivl 0 1) (ivl 2 3) 9 [⟨0, 1⟩] = .ok .true_ := by decide +kernel
example : overlap half (1 / 100) (ivl 0 1) (ivl 2 3) 9 [⟨0, 5⟩] = .ok .false_ := by decide +kernel
example : overlap half (1 / 100) (ivl 0 2) (ivl 1 3) 9 [⟨0, 2⟩] = .ok .true_ := by decide +kernel
example : overlapOvert half (1 / 100) (ivl 0 2) (ivl 1 3) 9 [⟨0, 2⟩] = .ok .true_ := by decide +kernel
example : insideClosed half (1 / 100) (ivl 1 2) (ivl 0 3) 9 [⟨0, 5⟩] = .ok .true_ := by decide +kernel
example : separatedClosed half (1 / 100) (ivl 0 1) (ivl 2 3) 9 [⟨-1, 5⟩] = .ok .true_ := by decide +kernel

end Ariadne.Geometry.Box.SetTests
