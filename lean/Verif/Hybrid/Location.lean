import Verif.Container.Props
import Mathlib.Order.RelClasses

/-!
# C62: discrete locations

Model of `DiscreteLocation` (hybrid/discrete_location.hpp 40-55, discrete_location.cpp).  A location is a map from the
names of discrete variables to their values; names and values are elements of linearly ordered types.
-/

namespace Verif.Hybrid

open Verif.Container

variable {κ ν : Type*} [LinearOrder κ] [LinearOrder ν]

/-- `DiscreteLocation` (discrete_location.hpp 40-55): the map `_values` of `StringValuation` (valuation.hpp). -/
structure Loc (κ ν : Type*) [LinearOrder κ] where
  vals : List (κ × ν)
  sorted : SortedKeys vals
  deriving DecidableEq

omit [LinearOrder ν] in
theorem Loc.ext {a b : Loc κ ν} (h : a.vals = b.vals) : a = b := by
  cases a; cases b; simpa using h

/-! ### The code -/

/-- The inner part of the loop of `operator==` (discrete_location.cpp 44-53) while `q1iter` stays at `(k1,v1)`; `rest`
is the loop after `++q1iter`. -/
def eqInner (k₁ : κ) (v₁ : ν) (rest : List (κ × ν) → Bool → Option Bool) : List (κ × ν) → Bool → Option Bool
  | [], _ => none
  | (k₂, v₂) :: q₂, identical =>
    if k₁ = k₂ then (if v₁ ≠ v₂ then some false else rest q₂ identical)
    else if k₁ < k₂ then rest ((k₂, v₂) :: q₂) false
    else eqInner k₁ v₁ rest q₂ false

/-- The loop of `operator==` (discrete_location.cpp 44-57); `none` is the exception `IndistinguishableLocationsError`. -/
def eqLoop : List (κ × ν) → List (κ × ν) → Bool → Option Bool
  | [], q₂, identical => if q₂ ≠ [] then none else if !identical then none else some true
  | (k₁, v₁) :: q₁, q₂, identical => eqInner k₁ v₁ (eqLoop q₁) q₂ identical

/-- `operator==` (discrete_location.cpp 37-58); the same algorithm as valuation.hpp 109-130. -/
def Loc.eq (a b : Loc κ ν) : Option Bool := eqLoop a.vals b.vals true

/-- `operator!=` (discrete_location.cpp 60-62) -/
def Loc.ne (a b : Loc κ ν) : Option Bool := (a.eq b).map not

/-- The loop of `operator<` (discrete_location.cpp 70-79) -/
def ltVals : List (κ × ν) → List (κ × ν) → Bool
  | [], q₂ => !q₂.isEmpty
  | _ :: _, [] => false
  | (k₁, v₁) :: q₁, (k₂, v₂) :: q₂ =>
    if k₁ ≠ k₂ then decide (k₁ < k₂) else if v₁ ≠ v₂ then decide (v₁ < v₂) else ltVals q₁ q₂

/-- `are_distinguishable` (discrete_location.cpp 82-89) -/
def Loc.areDistinguishable (a b : Loc κ ν) : Bool :=
  a.vals.any fun p => match find p.1 b.vals with
    | some w => decide (w ≠ p.2)
    | none => false

/-- `are_same` (discrete_location.cpp 91-93) -/
def Loc.areSame (a b : Loc κ ν) : Bool := decide (a.vals = b.vals)

/-- `is_restriction` (discrete_location.cpp 95-102) -/
def Loc.isRestriction (p f : Loc κ ν) : Bool :=
  p.vals.all fun e => match find e.1 f.vals with
    | some w => !decide (w ≠ e.2)
    | none => false

/-- `join` (discrete_location.cpp 30-32), `adjoin` (discrete_location.hpp 54) -/
def Loc.join (a b : Loc κ ν) : Loc κ ν := ⟨madjoin a.vals b.vals, (madjoin_spec a.sorted b.sorted).1⟩

/-- `restrict` (discrete_location.cpp 104-107); `none` is the failed assertion. The argument is a set. -/
def Loc.restrict (a : Loc κ ν) (vars : List κ) (h : Sorted vars) : Option (Loc κ ν) :=
  if Container.subset (keys a.vals) vars then some ⟨restrictKeys a.vals vars, (restrictKeys_spec a.sorted h).1⟩
  else none

/-! ### Specification -/

/-- The value of a variable in a location. -/
def Loc.get (a : Loc κ ν) (k : κ) : Option ν := find k a.vals

/-- Some variable has different values in the two locations. -/
def Distinct (a b : Loc κ ν) : Prop := ∃ k v w, a.get k = some v ∧ b.get k = some w ∧ v ≠ w

/-- The second location extends the first. -/
def Extends (p f : Loc κ ν) : Prop := ∀ k v, p.get k = some v → f.get k = some v

omit [LinearOrder ν] in
theorem Loc.ext_get {a b : Loc κ ν} (h : ∀ k, a.get k = b.get k) : a = b := Loc.ext (a.sorted.ext b.sorted h)

/-! ### Equality -/

/-- `Distinct` for the underlying lists -/
def DistinctL (a b : List (κ × ν)) : Prop := ∃ k v w, find k a = some v ∧ find k b = some w ∧ v ≠ w

omit [LinearOrder ν] in
theorem DistinctL.symm {a b : List (κ × ν)} (h : DistinctL a b) : DistinctL b a := by
  obtain ⟨k, v, w, h1, h2, h3⟩ := h; exact ⟨k, w, v, h2, h1, h3.symm⟩

omit [LinearOrder ν] in
theorem distinctL_nil (b : List (κ × ν)) : ¬ DistinctL ([] : List (κ × ν)) b := by
  rintro ⟨k, v, w, h, _⟩; simp [find] at h

omit [LinearOrder ν] in
theorem distinctL_cons_lt {k₁ k₂ : κ} {v₁ v₂ : ν} {a b : List (κ × ν)} (ha : SortedKeys ((k₁, v₁) :: a))
    (h : k₁ < k₂) (hb : SortedKeys ((k₂, v₂) :: b)) :
    DistinctL ((k₁, v₁) :: a) ((k₂, v₂) :: b) ↔ DistinctL a ((k₂, v₂) :: b) := by
  have hnone : find k₁ ((k₂, v₂) :: b) = none := by simp [find, h]
  constructor
  · rintro ⟨k, v, w, h1, h2, h3⟩
    refine ⟨k, v, w, ?_, h2, h3⟩
    by_cases e : k = k₁
    · subst e; rw [hnone] at h2; cases h2
    · rwa [find_cons_ne ha e] at h1
  · rintro ⟨k, v, w, h1, h2, h3⟩
    refine ⟨k, v, w, ?_, h2, h3⟩
    by_cases e : k = k₁
    · subst e; rw [hnone] at h2; cases h2
    · rwa [find_cons_ne ha e]

omit [LinearOrder ν] in
theorem distinctL_cons_eq {k : κ} {v w : ν} {a b : List (κ × ν)} (ha : SortedKeys ((k, v) :: a))
    (hb : SortedKeys ((k, w) :: b)) :
    DistinctL ((k, v) :: a) ((k, w) :: b) ↔ v ≠ w ∨ DistinctL a b := by
  constructor
  · rintro ⟨j, v', w', h1, h2, h3⟩
    by_cases e : j = k
    · subst e
      rw [find_cons_self, Option.some.injEq] at h1 h2
      subst h1 h2; exact Or.inl h3
    · rw [find_cons_ne ha e] at h1
      rw [find_cons_ne hb e] at h2
      exact Or.inr ⟨j, v', w', h1, h2, h3⟩
  · rintro (h | ⟨j, v', w', h1, h2, h3⟩)
    · exact ⟨k, v, w, find_cons_self _ _ _, find_cons_self _ _ _, h⟩
    · have e : j ≠ k := by
        rintro rfl
        rw [find_tail_self ha] at h1; cases h1
      exact ⟨j, v', w', by rwa [find_cons_ne ha e], by rwa [find_cons_ne hb e], h3⟩

open Classical in
theorem eqLoop_eq (a : List (κ × ν)) : ∀ (b : List (κ × ν)) (identical : Bool), SortedKeys a → SortedKeys b →
    eqLoop a b identical = if DistinctL a b then some false else if identical = true ∧ a = b then some true else none := by
  induction a with
  | nil =>
    intro b identical _ _
    rw [if_neg (distinctL_nil b), eqLoop]
    cases b <;> cases identical <;> simp
  | cons p a ih =>
    obtain ⟨k₁, v₁⟩ := p
    intro b
    induction b with
    | nil =>
      intro identical ha hb
      rw [if_neg fun h => distinctL_nil _ h.symm]
      simp [eqLoop, eqInner]
    | cons q b ihb =>
      obtain ⟨k₂, v₂⟩ := q
      intro identical ha hb
      rw [eqLoop, eqInner]
      by_cases e : k₁ = k₂
      · subst e
        rw [if_pos rfl]
        by_cases ev : v₁ = v₂
        · subst ev
          rw [if_neg (by simp), ih b identical ha.tail hb.tail]
          simp [distinctL_cons_eq ha hb]
        · rw [if_pos ev, if_pos ((distinctL_cons_eq ha hb).2 (Or.inl ev))]
      · rw [if_neg e]
        have hne : ¬ ((k₁, v₁) :: a = (k₂, v₂) :: b) := by simp [e]
        split_ifs with h1 h2 h3
        · rw [ih _ false ha.tail hb, if_pos ((distinctL_cons_lt ha h1 hb).1 h2)]
        · exact absurd h3.2 hne
        · rw [ih _ false ha.tail hb, if_neg (fun h => h2 ((distinctL_cons_lt ha h1 hb).2 h))]; simp
        all_goals
          have h1' : k₂ < k₁ := lt_of_le_of_ne (not_lt.1 h1) (Ne.symm e)
          have key : DistinctL ((k₁, v₁) :: a) ((k₂, v₂) :: b) ↔ DistinctL ((k₁, v₁) :: a) b := by
            constructor
            · intro h; exact ((distinctL_cons_lt hb h1' ha).1 h.symm).symm
            · intro h; exact ((distinctL_cons_lt hb h1' ha).2 h.symm).symm
          have := ihb false ha hb.tail
          rw [eqLoop] at this
        · rename_i h2
          rw [this, if_pos (key.1 h2)]
        · rename_i h2 h3
          exact absurd h3.2 hne
        · rename_i h2 h3
          rw [this, if_neg (fun h => h2 (key.2 h))]; simp

/-- C62: `operator==` is true exactly for locations with the same values, false exactly if some variable has different
values in the two locations, and throws otherwise.  `operator!=` is its negation. -/
theorem C62_equal (a b : Loc κ ν) :
    (a.eq b = some true ↔ ∀ k, a.get k = b.get k) ∧
    (a.eq b = some false ↔ Distinct a b) ∧
    (a.eq b = none ↔ (∃ k, a.get k ≠ b.get k) ∧ ¬ Distinct a b) ∧
    (a.ne b = (a.eq b).map not) := by
  classical
  have hs : (a.vals = b.vals) ↔ ∀ k, a.get k = b.get k := C61_map_ext a.sorted b.sorted
  have hd : DistinctL a.vals b.vals ↔ Distinct a b := Iff.rfl
  have hex : (∃ k, a.get k ≠ b.get k) ↔ ¬ a.vals = b.vals := by rw [hs]; push Not; rfl
  have hex' : a.vals = b.vals → ¬ Distinct a b := by
    rintro e ⟨k, v, w, h1, h2, h3⟩
    rw [Loc.get, e] at h1
    rw [Loc.get, h1, Option.some.injEq] at h2
    exact h3 h2
  rw [hex, ← hs]
  refine ⟨?_, ?_, ?_, rfl⟩ <;> rw [Loc.eq, eqLoop_eq _ _ _ a.sorted b.sorted] <;> simp only [hd, true_and] <;>
    split_ifs <;> simp_all

/-- C62: equality is symmetric, including when it throws. -/
theorem C62_equal_symm (a b : Loc κ ν) : a.eq b = b.eq a := by
  classical
  have hd : DistinctL a.vals b.vals ↔ DistinctL b.vals a.vals := ⟨DistinctL.symm, DistinctL.symm⟩
  rw [Loc.eq, Loc.eq, eqLoop_eq _ _ _ a.sorted b.sorted, eqLoop_eq _ _ _ b.sorted a.sorted, hd]
  simp only [true_and, eq_comm]

/-! ### Order -/

theorem ltVals_irrefl (a : List (κ × ν)) : ltVals a a = false := by
  induction a with
  | nil => rfl
  | cons p a ih => obtain ⟨k, v⟩ := p; simp [ltVals, ih]

theorem ltVals_trans (a : List (κ × ν)) : ∀ b c, ltVals a b = true → ltVals b c = true → ltVals a c = true := by
  induction a with
  | nil =>
    intro b c h1 h2
    cases c with
    | nil => cases b <;> simp [ltVals] at h1 h2
    | cons q c => rfl
  | cons p a ih =>
    obtain ⟨k, v⟩ := p
    intro b c h1 h2
    cases b with
    | nil => simp [ltVals] at h1
    | cons q b =>
      obtain ⟨k', v'⟩ := q
      cases c with
      | nil => simp [ltVals] at h2
      | cons r c =>
        obtain ⟨k'', v''⟩ := r
        simp only [ltVals] at h1 h2 ⊢
        by_cases e1 : k = k' <;> by_cases e2 : k' = k''
        · subst e1 e2
          simp only [ne_eq, not_true_eq_false, if_false] at h1 h2 ⊢
          by_cases f1 : v = v' <;> by_cases f2 : v' = v''
          · subst f1 f2
            simp only [not_true_eq_false, if_false] at h1 h2 ⊢
            exact ih _ _ h1 h2
          · subst f1
            simp only [f2, not_false_eq_true, if_true] at h2 ⊢; exact h2
          · subst f2
            simp only [f1, not_false_eq_true, if_true] at h1 ⊢; exact h1
          · simp only [f1, f2, not_false_eq_true, if_true, decide_eq_true_eq] at h1 h2
            have h := h1.trans h2
            rw [if_pos (ne_of_lt h)]; simpa using h
        · subst e1
          simp only [ne_eq, e2, not_false_eq_true, if_true] at h2 ⊢; exact h2
        · subst e2
          simp only [ne_eq, e1, not_false_eq_true, if_true] at h1 ⊢; exact h1
        · simp only [ne_eq, e1, e2, not_false_eq_true, if_true, decide_eq_true_eq] at h1 h2
          have h := h1.trans h2
          rw [if_pos (ne_of_lt h)]; simpa using h

theorem ltVals_total (a : List (κ × ν)) : ∀ b, ltVals a b = false → ltVals b a = false → a = b := by
  induction a with
  | nil =>
    intro b h1 _
    cases b with
    | nil => rfl
    | cons q b => simp [ltVals] at h1
  | cons p a ih =>
    obtain ⟨k, v⟩ := p
    intro b h1 h2
    cases b with
    | nil => simp [ltVals] at h2
    | cons q b =>
      obtain ⟨k', v'⟩ := q
      simp only [ltVals] at h1 h2
      by_cases e : k = k'
      · subst e
        simp only [ne_eq, not_true_eq_false, if_false] at h1 h2
        by_cases f : v = v'
        · subst f
          simp only [not_true_eq_false, if_false] at h1 h2
          rw [ih b h1 h2]
        · simp only [f, Ne.symm f, not_false_eq_true, if_true, decide_eq_false_iff_not, not_lt,
            show ¬ v' = v from fun h => f h.symm] at h1 h2
          exact absurd (le_antisymm h2 h1) f
      · simp only [ne_eq, e, not_false_eq_true, if_true, decide_eq_false_iff_not, not_lt,
          show ¬ k' = k from fun h => e h.symm] at h1 h2
        exact absurd (le_antisymm h2 h1) e

/-- The order of `std::map` and `std::set` of locations is that of `operator<`. -/
instance : IsStrictTotalOrder (Loc κ ν) fun a b => ltVals a.vals b.vals = true where
  irrefl a := by simp [ltVals_irrefl]
  trans a b c := ltVals_trans _ _ _
  trichotomous a b h1 h2 := Loc.ext (ltVals_total _ _ (by simpa using h1) (by simpa using h2))

instance : LinearOrder (Loc κ ν) := linearOrderOfSTO fun a b => ltVals a.vals b.vals = true

theorem Loc.lt_iff (a b : Loc κ ν) : a < b ↔ ltVals a.vals b.vals = true := Iff.rfl

/-- C62: `operator<` is a strict total order on all locations, including those which are indistinguishable: exactly one
of `a<b`, `b<a` and "same values" holds, and the order is transitive. -/
theorem C62_order (a b c : Loc κ ν) :
    ltVals a.vals a.vals = false ∧
    (ltVals a.vals b.vals = true → ltVals b.vals c.vals = true → ltVals a.vals c.vals = true) ∧
    (ltVals a.vals b.vals = true → ltVals b.vals a.vals = false) ∧
    (ltVals a.vals b.vals = false → ltVals b.vals a.vals = false → ∀ k, a.get k = b.get k) := by
  refine ⟨ltVals_irrefl _, ltVals_trans _ _ _, fun h => ?_, fun h1 h2 k => ?_⟩
  · by_contra h'
    have := ltVals_trans _ _ _ h (by simpa using h')
    rw [ltVals_irrefl] at this; cases this
  · rw [Loc.get, Loc.get, ltVals_total _ _ h1 h2]

/-! ### Distinguishability and restriction -/

/-- C62: `are_distinguishable` holds exactly if some variable has different values, and `are_same` exactly if all
variables have the same values. -/
theorem C62_distinguishable (a b : Loc κ ν) :
    (a.areDistinguishable b = true ↔ Distinct a b) ∧ (a.areSame b = true ↔ ∀ k, a.get k = b.get k) := by
  refine ⟨?_, by rw [Loc.areSame, decide_eq_true_eq]; exact C61_map_ext a.sorted b.sorted⟩
  rw [Loc.areDistinguishable, List.any_eq_true]
  constructor
  · rintro ⟨⟨k, v⟩, hm, h⟩
    simp only at h
    cases e : find k b.vals with
    | none => rw [e] at h; simp at h
    | some w =>
      rw [e] at h
      exact ⟨k, v, w, (find_iff a.sorted).2 hm, e, fun hv => by simp [hv] at h⟩
  · rintro ⟨k, v, w, h1, h2, h3⟩
    refine ⟨(k, v), (find_iff a.sorted).1 h1, ?_⟩
    simp only
    rw [show find k b.vals = some w from h2]
    simpa using h3.symm

theorem isRestriction_iff (p f : Loc κ ν) : p.isRestriction f = true ↔ Extends p f := by
  rw [Loc.isRestriction, List.all_eq_true]
  constructor
  · intro h k v hv
    have := h (k, v) ((find_iff p.sorted).1 hv)
    simp only at this
    rw [Loc.get]
    cases e : find k f.vals with
    | none => rw [e] at this; simp at this
    | some w => rw [e] at this; simp only [ne_eq, decide_not, Bool.not_not, decide_eq_true_eq] at this; rw [this]
  · rintro h ⟨k, v⟩ hm
    have := h k v ((find_iff p.sorted).2 hm)
    simp only
    rw [show find k f.vals = some v from this]
    simp

omit [LinearOrder ν] in
theorem Distinct.symm {a b : Loc κ ν} (h : Distinct a b) : Distinct b a := DistinctL.symm h

omit [LinearOrder ν] in
theorem Distinct.irrefl (a : Loc κ ν) : ¬ Distinct a a := by
  rintro ⟨k, v, w, h1, h2, h3⟩
  rw [h1, Option.some.injEq] at h2; exact h3 h2

omit [LinearOrder ν] in
theorem Distinct.mono {a b p q : Loc κ ν} (h : Distinct p q) (hp : Extends p a) (hq : Extends q b) : Distinct a b := by
  obtain ⟨k, v, w, h1, h2, h3⟩ := h
  exact ⟨k, v, w, hp k v h1, hq k w h2, h3⟩

/-- C62: `is_restriction` holds exactly if every value of the first location is a value of the second, and is a partial
order. -/
theorem C62_restriction (a b c : Loc κ ν) :
    (a.isRestriction b = true ↔ Extends a b) ∧
    a.isRestriction a = true ∧
    (a.isRestriction b = true → b.isRestriction c = true → a.isRestriction c = true) ∧
    (a.isRestriction b = true → b.isRestriction a = true → ∀ k, a.get k = b.get k) := by
  simp only [isRestriction_iff]
  refine ⟨trivial, fun _ _ h => h, fun h1 h2 k v h => h2 k v (h1 k v h), fun h1 h2 k => ?_⟩
  cases e : a.get k with
  | some v => exact (h1 k v e).symm
  | none =>
    cases e' : b.get k with
    | none => rfl
    | some w => rw [h2 k w e'] at e; cases e

/-- C62: two restrictions of one location are never distinguishable; distinguishable locations have no common
extension and stay distinguishable when extended. -/
theorem C62_restriction_distinguishable {p q a b : Loc κ ν} (hp : p.isRestriction a = true)
    (hq : q.isRestriction b = true) :
    (p.areDistinguishable q = true → a.areDistinguishable b = true) ∧
    (a = b → p.areDistinguishable q = false) := by
  rw [isRestriction_iff] at hp hq
  refine ⟨fun h => (C62_distinguishable a b).1.2 (Distinct.mono ((C62_distinguishable p q).1.1 h) hp hq), ?_⟩
  rintro rfl
  rw [Bool.eq_false_iff]
  exact fun h => Distinct.irrefl a (Distinct.mono ((C62_distinguishable p q).1.1 h) hp hq)

/-- C62: `join` (and `adjoin`) has the values of the first location, and those of the second for the other variables.
The first is a restriction of the join, and so is the second exactly if the two are not distinguishable; then the join
is the least common extension and does not depend on the order. -/
theorem C62_join (a b : Loc κ ν) :
    (∀ k, (a.join b).get k = (a.get k).or (b.get k)) ∧
    a.isRestriction (a.join b) = true ∧
    (b.isRestriction (a.join b) = true ↔ a.areDistinguishable b = false) ∧
    (a.areDistinguishable b = false → a.join b = b.join a ∧
      ∀ c : Loc κ ν, a.isRestriction c = true → b.isRestriction c = true → (a.join b).isRestriction c = true) := by
  have hg : ∀ a b : Loc κ ν, ∀ k, (a.join b).get k = (a.get k).or (b.get k) :=
    fun a b k => (madjoin_spec a.sorted b.sorted).2 k
  have hd : a.areDistinguishable b = false ↔ ¬ Distinct a b := by
    rw [← (C62_distinguishable a b).1, Bool.not_eq_true]
  simp only [isRestriction_iff, hd]
  refine ⟨hg a b, fun k v h => by rw [hg, h]; rfl, ⟨?_, ?_⟩, fun h => ⟨?_, ?_⟩⟩
  · rintro h ⟨k, v, w, h1, h2, h3⟩
    have := h k w h2
    rw [hg, h1] at this
    simp only [Option.some_or, Option.some.injEq] at this
    exact h3 this
  · intro h k w hw
    rw [hg]
    cases e : a.get k with
    | none => exact hw
    | some v =>
      by_cases e' : v = w
      · subst e'; rfl
      · exact absurd ⟨k, v, w, e, hw, e'⟩ h
  · refine Loc.ext_get fun k => ?_
    rw [hg, hg]
    cases e : a.get k with
    | none => cases b.get k <;> rfl
    | some v =>
      cases e' : b.get k with
      | none => rfl
      | some w =>
        by_cases hvw : v = w
        · rw [hvw]
        · exact absurd ⟨k, v, w, e, e', hvw⟩ h
  · intro c h1 h2 k v hv
    rw [hg] at hv
    cases e : a.get k with
    | none => rw [e] at hv; exact h2 k v hv
    | some w => rw [e] at hv; exact h1 k v (e.trans hv)

/-- C62: `restrict` returns the restriction of the location to the variables, but only when the location has no
other variables, so that the result is always the location itself.  Missing for the full claim: the result for other
sets of variables, for which the assertion fails. -/
theorem C62_restrict_partial (a : Loc κ ν) (vars : List κ) (h : Sorted vars) :
    (∀ r, a.restrict vars h = some r → r = a ∧ ∀ k, r.get k = if k ∈ vars then a.get k else none) ∧
    ((∀ k v, a.get k = some v → k ∈ vars) ↔ a.restrict vars h = some a) := by
  have hkeys : ∀ k, k ∈ keys a.vals ↔ ∃ v, a.get k = some v := fun k => by
    rw [(keys_spec a.vals).2]; exact exists_congr fun v => (find_iff a.sorted).symm
  have hsub : Container.subset (keys a.vals) vars = true ↔ ∀ k v, a.get k = some v → k ∈ vars := by
    rw [Container.subset, List.all_eq_true]
    simp only [contains_iff h, hkeys]
    exact ⟨fun H k v hv => H k ⟨v, hv⟩, fun H k ⟨v, hv⟩ => H k v hv⟩
  have hres : (∀ k v, a.get k = some v → k ∈ vars) →
      (⟨restrictKeys a.vals vars, (restrictKeys_spec a.sorted h).1⟩ : Loc κ ν) = a := by
    intro H
    refine Loc.ext_get fun k => ((restrictKeys_spec a.sorted h).2 k).trans ?_
    split_ifs with hk
    · rfl
    · cases e : a.get k with
      | none => rfl
      | some v => exact absurd (H k v e) hk
  refine ⟨fun r hr => ?_, fun H => ?_, fun H => ?_⟩
  · rw [Loc.restrict] at hr
    split_ifs at hr with hc
    simp only [Option.some.injEq] at hr
    refine ⟨hr ▸ hres (hsub.1 hc), fun k => ?_⟩
    rw [← hr]
    exact (restrictKeys_spec a.sorted h).2 k
  · rw [Loc.restrict, if_pos (hsub.2 H), hres H]
  · rw [Loc.restrict] at H
    split_ifs at H with hc
    exact hsub.1 hc

/-- Two variables; the second location leaves one open. -/
def exampleFull : Loc ℕ ℕ := ⟨[(0, 5), (1, 7)], by unfold SortedKeys; decide⟩
def examplePart : Loc ℕ ℕ := ⟨[(1, 7)], by unfold SortedKeys; decide⟩
def exampleOther : Loc ℕ ℕ := ⟨[(1, 8), (2, 0)], by unfold SortedKeys; decide⟩

/-- C62: restricting the location `0|5, 1|7` to the variable `1` fails, although the documentation says that it
restricts the variables defined (discrete_location.hpp 76). -/
theorem C62_restrict_counterexample :
    exampleFull.restrict [1] (List.pairwise_singleton _ _) = none ∧
    ∃ r : Loc ℕ ℕ, (∀ k, r.get k = if k ∈ [1] then exampleFull.get k else none) ∧ r.isRestriction exampleFull = true := by
  refine ⟨by decide, examplePart, fun k => ?_, by decide⟩
  by_cases h : k = 1
  · subst h; decide
  · rw [if_neg (by simpa using h)]
    simp only [Loc.get, examplePart, find]
    rcases lt_or_gt_of_ne h with h | h
    · rw [if_pos h]
    · rw [if_neg (not_lt_of_gt h), if_pos h]

example : exampleFull.eq exampleFull = some true ∧ exampleFull.eq exampleOther = some false ∧
    exampleFull.eq examplePart = none ∧ examplePart.isRestriction exampleFull = true ∧
    exampleFull.areDistinguishable exampleOther = true ∧ exampleFull.areDistinguishable examplePart = false ∧
    (exampleOther.join exampleFull).vals = [(0, 5), (1, 8), (2, 0)] := by decide

end Verif.Hybrid
