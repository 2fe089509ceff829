import Verif.Reachability.Model
import Mathlib.Algebra.Order.Archimedean.Basic
import Mathlib.Algebra.Order.Sub.Unbundled.Basic
import Mathlib.Data.Nat.Init
import Mathlib.Algebra.Order.Group.Nat
import Mathlib.Data.Finset.Card
import Mathlib.Data.Finset.Prod
import Mathlib.Data.Finset.Image
import Mathlib.Tactic.IntervalCases
import Mathlib.Tactic.Ring
import Mathlib.Algebra.Module.NatInt
import Mathlib.Tactic.Linarith

/-!
# C40-C42: reachability analysis

The dynamics is any relation `R x t y` ("`y` can be reached from `x` in time `t`") such
that motions can be stopped and resumed.  The evolver is assumed to over-approximate.
-/

namespace Ariadne.Reachability

variable {C T S : Type*} [DecidableEq C]

/-- spec: a dynamical system, perhaps non-deterministic -/
structure Dynamics (S T : Type*) [Add T] where
  R : S → T → S → Prop
  split : ∀ {x s t z}, R x (s + t) z → ∃ y, R x s y ∧ R y t z

variable [AddCommMonoid T] [LinearOrder T]

/-- spec: the cells `F` contain the set of points `X` -/
def Covers (box : C → Set S) (F : Finset C) (X : Set S) : Prop := ∀ x ∈ X, ∃ c ∈ F, x ∈ box c

/-- spec: the points reachable from `X` at any time -/
def reachable (D : Dynamics S T) (X : Set S) : Set S := {y | ∃ x ∈ X, ∃ t, D.R x t y}
/-- spec: the points reachable up to time `t` -/
def reachableWithin (D : Dynamics S T) (X : Set S) (t : T) : Set S := {y | ∃ x ∈ X, ∃ s ≤ t, D.R x s y}
/-- spec: the points reachable at time `t` -/
def reachableAt (D : Dynamics S T) (X : Set S) (t : T) : Set S := {y | ∃ x ∈ X, D.R x t y}

/-- assumption on the evolver: orbits over-approximate -/
structure SoundEvolver (A : Analyser C T) (box : C → Set S) (D : Dynamics S T) : Prop where
  reach : ∀ c t, Covers box (A.reach c t) (reachableWithin D (box c) t)
  final : ∀ c t, Covers box (A.final c t) (reachableAt D (box c) t)

theorem Covers.mono {box : C → Set S} {F G : Finset C} {X Y : Set S} (h : Covers box F X) (hF : F ⊆ G) (hX : Y ⊆ X) :
    Covers box G Y := fun x hx => let ⟨c, hc, hxc⟩ := h x (hX hx); ⟨c, hF hc, hxc⟩

omit [DecidableEq C] in
theorem Covers.union_right {box : C → Set S} {F : Finset C} {X Y : Set S} (h : Covers box F X) (h' : Covers box F Y) :
    Covers box F (X ∪ Y) := by
  rintro x (hx | hx)
  · exact h x hx
  · exact h' x hx

variable {A : Analyser C T} {box : C → Set S} {D : Dynamics S T}

theorem reachOf_covers (hA : SoundEvolver A box D) {F : Finset C} {X : Set S} (h : Covers box F X) (t : T) :
    Covers box (A.reachOf F t) (reachableWithin D X t) := by
  rintro y ⟨x, hx, s, hs, hR⟩
  obtain ⟨c, hc, hxc⟩ := h x hx
  obtain ⟨d, hd, hyd⟩ := hA.reach c t y ⟨x, hxc, s, hs, hR⟩
  exact ⟨d, Finset.mem_biUnion.2 ⟨c, hc, hd⟩, hyd⟩

theorem finalOf_covers (hA : SoundEvolver A box D) {F : Finset C} {X : Set S} (h : Covers box F X) (t : T) :
    Covers box (A.finalOf F t) (reachableAt D X t) := by
  rintro y ⟨x, hx, hR⟩
  obtain ⟨c, hc, hxc⟩ := h x hx
  obtain ⟨d, hd, hyd⟩ := hA.final c t y ⟨x, hxc, hR⟩
  exact ⟨d, Finset.mem_biUnion.2 ⟨c, hc, hd⟩, hyd⟩

omit [AddCommMonoid T] [LinearOrder T] in
theorem checkedRestriction_error {F G : Finset C} (h : A.checkedRestriction .error F = .ok G) : G = F := by
  unfold Analyser.checkedRestriction at h
  simp only at h
  split_ifs at h with h1 h2 h3
  · simp only [Except.ok.injEq] at h
    rw [← h]
    simp only [true_and, ne_eq, not_not, Finset.sdiff_eq_empty_iff_subset] at h2
    exact Finset.Subset.antisymm (Finset.inter_subset_left.trans Finset.inter_subset_left) h2
  · simp only [Except.ok.injEq] at h
    rw [← h]
    simp only [true_and, ne_eq, not_not, Finset.sdiff_eq_empty_iff_subset] at h3
    exact Finset.Subset.antisymm Finset.inter_subset_left h3

omit [AddCommMonoid T] [LinearOrder T] in
theorem checkedRestriction_sub {p : Policy} {F G : Finset C} (h : A.checkedRestriction p F = .ok G) :
    G ⊆ F ∧ G ⊆ A.extent := by
  unfold Analyser.checkedRestriction at h
  simp only at h
  split_ifs at h
  · simp only [Except.ok.injEq] at h
    rw [← h]
    exact ⟨Finset.inter_subset_left.trans Finset.inter_subset_left, Finset.inter_subset_left.trans Finset.inter_subset_right⟩
  · simp only [Except.ok.injEq] at h
    rw [← h]; exact ⟨Finset.inter_subset_left, Finset.inter_subset_right⟩

variable [IsOrderedAddMonoid T] [CanonicallyOrderedAdd T] [Sub T] [OrderedSub T]

/-- A set of cells closed under `final` is followed by its `reach` cells forever. -/
theorem closed_covers [Archimedean T] (hA : SoundEvolver A box D) {lock : T} (hl : 0 < lock)
    {acc reach : Finset C} (h1 : A.finalOf acc lock ⊆ acc) (h2 : A.reachOf acc lock ⊆ reach)
    {X : Set S} (hX : Covers box acc X) : Covers box reach (reachable D X) := by
  rintro z ⟨x, hx, t, hR⟩
  obtain ⟨n, hn⟩ := Archimedean.arch t hl
  induction n generalizing t X x with
  | zero =>
    have : t ≤ lock := by rw [zero_nsmul] at hn; exact hn.trans hl.le
    obtain ⟨c, hc, hz⟩ := reachOf_covers hA hX lock z ⟨x, hx, t, this, hR⟩
    exact ⟨c, h2 hc, hz⟩
  | succ n ih =>
    rcases le_total t lock with h | h
    · obtain ⟨c, hc, hz⟩ := reachOf_covers hA hX lock z ⟨x, hx, t, h, hR⟩
      exact ⟨c, h2 hc, hz⟩
    · rw [← add_tsub_cancel_of_le h] at hR
      obtain ⟨y, hy, hR'⟩ := D.split hR
      have hc' := (finalOf_covers hA hX lock).mono h1 (le_refl _)
      refine ih hc' y ⟨x, hx, hy⟩ (t - lock) hR' ?_
      rw [tsub_le_iff_right, ← succ_nsmul]; exact hn

omit [LinearOrder T] [IsOrderedAddMonoid T] [CanonicallyOrderedAdd T] [Sub T] [OrderedSub T] [AddCommMonoid T] in
theorem reachOf_mono {F G : Finset C} (h : F ⊆ G) (t : T) : A.reachOf F t ⊆ A.reachOf G t :=
  Finset.biUnion_subset_biUnion_of_subset_left _ h
omit [LinearOrder T] [IsOrderedAddMonoid T] [CanonicallyOrderedAdd T] [Sub T] [OrderedSub T] [AddCommMonoid T] in
theorem finalOf_mono {F G : Finset C} (h : F ⊆ G) (t : T) : A.finalOf F t ⊆ A.finalOf G t :=
  Finset.biUnion_subset_biUnion_of_subset_left _ h
omit [LinearOrder T] [IsOrderedAddMonoid T] [CanonicallyOrderedAdd T] [Sub T] [OrderedSub T] [AddCommMonoid T] in
theorem reachOf_union (F G : Finset C) (t : T) : A.reachOf (F ∪ G) t = A.reachOf F t ∪ A.reachOf G t :=
  Finset.union_biUnion
omit [LinearOrder T] [IsOrderedAddMonoid T] [CanonicallyOrderedAdd T] [Sub T] [OrderedSub T] [AddCommMonoid T] in
theorem finalOf_union (F G : Finset C) (t : T) : A.finalOf (F ∪ G) t = A.finalOf F t ∪ A.finalOf G t :=
  Finset.union_biUnion

/-- Invariant of the chain loops: all accumulated cells not waiting have been evolved. -/
structure Inv (A : Analyser C T) (lock : T) (reach evolve starting acc : Finset C) : Prop where
  waiting : starting ⊆ acc
  acc_eq : acc = evolve
  reach : A.reachOf (acc \ starting) lock ⊆ reach
  final : A.finalOf (acc \ starting) lock ⊆ acc

omit [LinearOrder T] [IsOrderedAddMonoid T] [CanonicallyOrderedAdd T] [Sub T] [OrderedSub T] [AddCommMonoid T] in
theorem Inv.step {lock : T} {reach evolve starting acc : Finset C} (h : Inv A lock reach evolve starting acc) :
    Inv A lock (reach ∪ A.reachOf starting lock) (evolve ∪ A.finalOf starting lock)
      ((evolve ∪ A.finalOf starting lock) \ acc) (acc ∪ ((evolve ∪ A.finalOf starting lock) \ acc)) := by
  have hacc := h.acc_eq
  subst hacc
  have e : acc ∪ ((acc ∪ A.finalOf starting lock) \ acc) = acc ∪ A.finalOf starting lock := by
    rw [Finset.union_sdiff_self_eq_union, ← Finset.union_assoc, Finset.union_self]
  have e2 : (acc ∪ A.finalOf starting lock) \ ((acc ∪ A.finalOf starting lock) \ acc) = acc := by
    rw [Finset.sdiff_sdiff_self_left]
    exact Finset.inter_eq_right.2 Finset.subset_union_left
  have e3 : acc = (acc \ starting) ∪ starting := (Finset.sdiff_union_of_subset h.waiting).symm
  refine ⟨?_, e, ?_, ?_⟩
  · rw [e]; exact Finset.sdiff_subset
  · rw [e, e2]
    conv_lhs => rw [e3]
    rw [reachOf_union]
    exact Finset.union_subset_union h.reach (le_refl _)
  · rw [e, e2]
    conv_lhs => rw [e3]
    rw [finalOf_union]
    exact Finset.union_subset_union h.final (le_refl _)

omit [LinearOrder T] [IsOrderedAddMonoid T] [CanonicallyOrderedAdd T] [Sub T] [OrderedSub T] [AddCommMonoid T] in
theorem chainLoop_closed (lock : T) : ∀ (n : ℕ) (reach evolve starting acc r : Finset C),
    Inv A lock reach evolve starting acc →
    A.chainLoop .error lock n reach evolve starting acc = some (.ok r) →
    reach ⊆ r ∧ ∃ acc', acc ⊆ acc' ∧ A.finalOf acc' lock ⊆ acc' ∧ A.reachOf acc' lock ⊆ r := by
  intro n
  have stop : ∀ (reach evolve starting acc : Finset C), Inv A lock reach evolve starting acc → starting = ∅ →
      ∃ acc', acc ⊆ acc' ∧ A.finalOf acc' lock ⊆ acc' ∧ A.reachOf acc' lock ⊆ reach := by
    intro reach evolve starting acc hi hs
    refine ⟨acc, le_refl _, ?_, ?_⟩
    · have := hi.final; rwa [hs, Finset.sdiff_empty] at this
    · have := hi.reach; rwa [hs, Finset.sdiff_empty] at this
  induction n with
  | zero =>
    intro reach evolve starting acc r hi h
    rw [Analyser.chainLoop] at h
    by_cases hs : starting = ∅
    · rw [if_pos hs] at h
      simp only [Option.some.injEq, Except.ok.injEq] at h
      subst h
      exact ⟨le_refl _, stop _ _ _ _ hi hs⟩
    · rw [if_neg hs] at h; cases h
  | succ n ih =>
    intro reach evolve starting acc r hi h
    rw [Analyser.chainLoop] at h
    by_cases hs : starting = ∅
    · rw [if_pos hs] at h
      simp only [Option.some.injEq, Except.ok.injEq] at h
      subst h
      exact ⟨le_refl _, stop _ _ _ _ hi hs⟩
    · rw [if_neg hs] at h
      simp only [Analyser.adjoinReachEvolve] at h
      cases hc : A.checkedRestriction .error (evolve ∪ A.finalOf starting lock) with
      | error e => rw [hc] at h; cases h
      | ok ev =>
        rw [hc] at h
        have := checkedRestriction_error hc
        subst this
        obtain ⟨a, acc', b, c⟩ := ih _ _ _ _ _ hi.step h
        exact ⟨Finset.subset_union_left.trans a, acc', Finset.subset_union_left.trans b, c⟩

omit [LinearOrder T] [IsOrderedAddMonoid T] [CanonicallyOrderedAdd T] [Sub T] [OrderedSub T] [AddCommMonoid T] in
theorem Inv.init (lock : T) (reach evolve : Finset C) : Inv A lock reach evolve evolve evolve :=
  ⟨le_refl _, rfl, by simp [Analyser.reachOf], by simp [Analyser.finalOf]⟩

/-- Points reachable at some time are reachable within `t`, or reachable from a point reached at `t`. -/
theorem reachable_transient (D : Dynamics S T) (X : Set S) (t : T) :
    reachable D X ⊆ reachableWithin D X t ∪ reachable D (reachableAt D X t) := by
  rintro z ⟨x, hx, s, hR⟩
  rcases le_total s t with h | h
  · exact Or.inl ⟨x, hx, s, h, hR⟩
  · rw [← add_tsub_cancel_of_le h] at hR
    obtain ⟨y, hy, hR'⟩ := D.split hR
    exact Or.inr ⟨y, ⟨x, hx, hy⟩, _, hR'⟩

/-- C41: with policy `error`, whenever `outer_chain_reach` returns, its cells cover every
point reachable from the initial set at any time. -/
theorem C41_outer_chain_reach [Archimedean T] (hA : SoundEvolver A box D) {lock : T} (hl : 0 < lock)
    (transient : Option T) {init : Finset C} {X : Set S} (hX : Covers box init X) (fuel : ℕ) {r : Finset C}
    (h : A.outerChainReach .error lock transient init fuel = some (.ok r)) :
    Covers box r (reachable D X) := by
  unfold Analyser.outerChainReach at h
  cases hc : A.checkedRestriction .error init with
  | error e => rw [hc] at h; cases h
  | ok init' =>
    rw [hc] at h
    have := checkedRestriction_error hc
    subst this
    have fin : ∀ (reach evolve : Finset C), (match A.chainLoop .error lock fuel reach evolve evolve evolve with
        | none => none
        | some (.error e) => some (.error e)
        | some (.ok reach) => some (A.checkedRestriction .error reach)) = some (.ok r) →
        ∀ Y : Set S, Covers box evolve Y → reach ⊆ r ∧ Covers box r (reachable D Y) := by
      intro reach evolve h Y hY
      cases hl' : A.chainLoop .error lock fuel reach evolve evolve evolve with
      | none => rw [hl'] at h; cases h
      | some o =>
        rw [hl'] at h
        cases o with
        | error e => cases h
        | ok r' =>
          simp only [Option.some.injEq] at h
          have := checkedRestriction_error h
          subst this
          obtain ⟨a, acc', b, c, d⟩ := chainLoop_closed lock _ _ _ _ _ _ (Inv.init lock reach evolve) hl'
          exact ⟨a, closed_covers hA hl c d (hY.mono b (le_refl _))⟩
    cases transient with
    | none => exact (fin ∅ init' h X hX).2
    | some t =>
      simp only [Analyser.adjoinReachEvolve] at h
      cases hc2 : A.checkedRestriction .error (∅ ∪ A.finalOf init' t) with
      | error e => rw [hc2] at h; cases h
      | ok ev =>
        rw [hc2] at h
        have := checkedRestriction_error hc2
        subst this
        obtain ⟨a, b⟩ := fin _ _ h (reachableAt D X t)
          ((finalOf_covers hA hX t).mono (by simp) (le_refl _))
        refine Covers.mono (Covers.union_right ?_ b) (le_refl _) (reachable_transient D X t)
        exact (reachOf_covers hA hX t).mono (Finset.Subset.trans (by simp) a) (le_refl _)

omit [LinearOrder T] [IsOrderedAddMonoid T] [CanonicallyOrderedAdd T] [Sub T] [OrderedSub T] [AddCommMonoid T] in
/-- The chain loop adds at least one accumulated cell within the extent per iteration. -/
theorem chainLoop_terminates (p : Policy) (lock : T) : ∀ (n : ℕ) (reach evolve starting acc : Finset C),
    starting ⊆ acc → acc ⊆ A.extent → A.extent.card < acc.card + n + (if starting = ∅ then 1 else 0) →
    A.chainLoop p lock n reach evolve starting acc ≠ none := by
  intro n
  induction n with
  | zero =>
    intro reach evolve starting acc hs ha hn
    rw [Analyser.chainLoop]
    by_cases h : starting = ∅
    · rw [if_pos h]; simp
    · rw [if_neg h] at hn
      have := Finset.card_le_card ha
      omega
  | succ n ih =>
    intro reach evolve starting acc hs ha hn
    rw [Analyser.chainLoop]
    by_cases h : starting = ∅
    · rw [if_pos h]; simp
    · rw [if_neg h] at hn ⊢
      simp only [Analyser.adjoinReachEvolve]
      cases hc : A.checkedRestriction p (evolve ∪ A.finalOf starting lock) with
      | error e => simp
      | ok ev =>
        simp only
        refine ih _ _ _ _ Finset.subset_union_right
          (Finset.union_subset ha (Finset.sdiff_subset.trans (checkedRestriction_sub hc).2)) ?_
        by_cases h' : ev \ acc = ∅
        · rw [if_pos h', h', Finset.union_empty]; omega
        · rw [if_neg h']
          have h1 : acc.card < (acc ∪ ev \ acc).card := by
            apply Finset.card_lt_card
            refine ⟨Finset.subset_union_left, fun hsub => h' ?_⟩
            rw [Finset.eq_empty_iff_forall_notMem]
            intro x hx
            exact (Finset.mem_sdiff.1 hx).2 (hsub (Finset.subset_union_right hx))
          omega

omit [LinearOrder T] [IsOrderedAddMonoid T] [CanonicallyOrderedAdd T] [Sub T] [OrderedSub T] [AddCommMonoid T] in
/-- C41: `outer_chain_reach` terminates for every evolver, with every policy: the number of
iterations is bounded by the number of cells within the maximum extent. -/
theorem C41_terminates (p : Policy) (lock : T) (transient : Option T) (init : Finset C) (fuel : ℕ)
    (hf : A.extent.card < fuel) : A.outerChainReach p lock transient init fuel ≠ none := by
  unfold Analyser.outerChainReach
  cases hc : A.checkedRestriction p init with
  | error e => simp
  | ok init' =>
    simp only
    have fin : ∀ (reach evolve : Finset C), evolve ⊆ A.extent → (match A.chainLoop p lock fuel reach evolve evolve evolve with
        | none => none
        | some (.error e) => some (.error e)
        | some (.ok reach) => some (A.checkedRestriction p reach)) ≠ none := by
      intro reach evolve he
      have := chainLoop_terminates (A := A) p lock fuel reach evolve evolve evolve (le_refl _) he (by omega)
      cases hl : A.chainLoop p lock fuel reach evolve evolve evolve with
      | none => exact absurd hl this
      | some o => cases o <;> simp
    cases transient with
    | none => exact fin _ _ (checkedRestriction_sub hc).2
    | some t =>
      simp only [Analyser.adjoinReachEvolve]
      cases hc2 : A.checkedRestriction p (∅ ∪ A.finalOf init' t) with
      | error e => simp
      | ok ev => exact fin _ _ (checkedRestriction_sub hc2).2

/-! ### C40 -/

omit [LinearOrder T] [IsOrderedAddMonoid T] [CanonicallyOrderedAdd T] [Sub T] [OrderedSub T] [AddCommMonoid T] in
theorem safetyLoop_closed (lock : T) (safe : Finset C) : ∀ (n : ℕ) (reach evolve starting acc r : Finset C),
    Inv A lock reach evolve starting acc →
    A.safetyLoop lock safe n reach evolve starting acc = some (r, true) →
    reach ⊆ r ∧ ∃ acc', acc ⊆ acc' ∧ A.finalOf acc' lock ⊆ acc' ∧ A.reachOf acc' lock ⊆ r := by
  intro n
  have stop : ∀ (reach evolve starting acc : Finset C), Inv A lock reach evolve starting acc → starting = ∅ →
      ∃ acc', acc ⊆ acc' ∧ A.finalOf acc' lock ⊆ acc' ∧ A.reachOf acc' lock ⊆ reach := by
    intro reach evolve starting acc hi hs
    refine ⟨acc, le_refl _, ?_, ?_⟩
    · have := hi.final; rwa [hs, Finset.sdiff_empty] at this
    · have := hi.reach; rwa [hs, Finset.sdiff_empty] at this
  induction n with
  | zero =>
    intro reach evolve starting acc r hi h
    rw [Analyser.safetyLoop] at h
    by_cases hs : starting = ∅
    · rw [if_pos hs] at h
      simp only [Option.some.injEq, Prod.mk.injEq, and_true] at h
      subst h
      exact ⟨le_refl _, stop _ _ _ _ hi hs⟩
    · rw [if_neg hs] at h; cases h
  | succ n ih =>
    intro reach evolve starting acc r hi h
    rw [Analyser.safetyLoop] at h
    by_cases hs : starting = ∅
    · rw [if_pos hs] at h
      simp only [Option.some.injEq, Prod.mk.injEq, and_true] at h
      subst h
      exact ⟨le_refl _, stop _ _ _ _ hi hs⟩
    · rw [if_neg hs] at h
      by_cases hr : reach ⊆ safe
      · rw [if_neg (not_not.2 hr)] at h
        simp only [Analyser.adjoinReachEvolve] at h
        obtain ⟨a, acc', b, c⟩ := ih _ _ _ _ _ hi.step h
        exact ⟨Finset.subset_union_left.trans a, acc', Finset.subset_union_left.trans b, c⟩
      · rw [if_pos hr] at h; simp at h

/-- C40: a positive certificate always carries cells covering all reachable points; it is
correct if those cells are among its safe cells.  Missing: `verify_safety` does not make that
last check, see the counterexample. -/
theorem C40_verify_safety_partial [Archimedean T] (hA : SoundEvolver A box D) {lock : T} (hl : 0 < lock)
    (transient : Option T) {init safe : Finset C} {X Safe : Set S} (hX : Covers box init X)
    (hsafe : ∀ c ∈ safe, box c ⊆ Safe) (fuel : ℕ) {r s : Finset C}
    (h : A.verifySafety lock transient init safe fuel = some (.ok (.safe r s))) :
    s = safe ∧ init ⊆ safe ∧ Covers box r (reachable D X) ∧ (r ⊆ s → reachable D X ⊆ Safe) := by
  have main : s = safe ∧ init ⊆ safe ∧ Covers box r (reachable D X) := by
    unfold Analyser.verifySafety at h
    cases hc : A.checkedRestriction .error init with
    | error e => rw [hc] at h; cases h
    | ok init' =>
      rw [hc] at h
      have := checkedRestriction_error hc
      subst this
      simp only at h
      by_cases hi : init' ⊆ safe
      swap
      · rw [if_pos hi] at h; simp at h
      rw [if_neg (not_not.2 hi)] at h
      have fin : ∀ (st : Finset C × Finset C), (match A.safetyLoop lock safe fuel st.1 st.2 st.2 st.2 with
          | none => none
          | some (reach, false) => some (.ok (.indeterminate reach safe))
          | some (reach, true) =>
            match A.checkedRestriction .error reach with
            | .error e => some (.error e)
            | .ok reach => some (.ok (.safe reach safe))) = some (Except.ok (Analyser.Certificate.safe r s)) →
          ∀ Y : Set S, Covers box st.2 Y → s = safe ∧ st.1 ⊆ r ∧ Covers box r (reachable D Y) := by
        intro st h Y hY
        cases hl' : A.safetyLoop lock safe fuel st.1 st.2 st.2 st.2 with
        | none => rw [hl'] at h; cases h
        | some o =>
          rw [hl'] at h
          obtain ⟨reach, b⟩ := o
          cases b with
          | false => simp at h
          | true =>
            simp only at h
            cases hc2 : A.checkedRestriction .error reach with
            | error e => rw [hc2] at h; cases h
            | ok r' =>
              rw [hc2] at h
              simp only [Option.some.injEq, Except.ok.injEq, Analyser.Certificate.safe.injEq] at h
              have := checkedRestriction_error hc2
              subst this
              obtain ⟨h1, h2⟩ := h
              subst h1
              obtain ⟨a, acc', b, c, d⟩ := safetyLoop_closed lock safe _ _ _ _ _ _ (Inv.init lock st.1 st.2) hl'
              exact ⟨h2.symm, a, closed_covers hA hl c d (hY.mono b (le_refl _))⟩
      cases transient with
      | none =>
        obtain ⟨a, _, c⟩ := fin _ h X hX
        exact ⟨a, hi, c⟩
      | some t =>
        obtain ⟨a, b, c⟩ := fin _ h (reachableAt D X t)
          ((finalOf_covers hA hX t).mono (by simp [Analyser.adjoinReachEvolve]) (le_refl _))
        refine ⟨a, hi, Covers.mono (Covers.union_right ?_ c) (le_refl _) (reachable_transient D X t)⟩
        exact (reachOf_covers hA hX t).mono (Finset.Subset.trans (by simp [Analyser.adjoinReachEvolve]) b) (le_refl _)
  refine ⟨main.1, main.2.1, main.2.2, fun hrs y hy => ?_⟩
  obtain ⟨c, hc, hyc⟩ := main.2.2 y hy
  exact hsafe c (main.1 ▸ hrs hc) hyc

/-! The systems used in the counterexamples: integer times, points `ℕ`, a map given by `f`. -/

/-- iteration of a map as a dynamical system -/
def mapDynamics (f : ℕ → ℕ) : Dynamics ℕ ℕ where
  R x t y := f^[t] x = y
  split := by
    intro x s t z h
    exact ⟨f^[s] x, rfl, by rw [← h, Nat.add_comm, Function.iterate_add_apply]⟩

/-- the exact evolver of a map on `0..n`, with cells given by a function from points to cells -/
def mapAnalyser (f cell : ℕ → ℕ) (n : ℕ) : Analyser ℕ ℕ where
  reach c t := (((Finset.range n).filter (cell · = c)) ×ˢ (Finset.range (t + 1))).image fun p => cell (f^[p.2] p.1)
  final c t := ((Finset.range n).filter (cell · = c)).image fun x => cell (f^[t] x)
  extent := Finset.range n
  bounding := ∅

theorem mapAnalyser_sound (f cell : ℕ → ℕ) (n : ℕ) :
    SoundEvolver (mapAnalyser f cell n) (fun c => {x | x < n ∧ cell x = c})
      ⟨fun x t y => (∀ s ≤ t, f^[s] x < n) ∧ f^[t] x = y, by
        rintro x s t z ⟨h, h'⟩
        refine ⟨f^[s] x, ⟨fun r hr => h r (by omega), rfl⟩, fun r hr => ?_, ?_⟩
        · rw [← Function.iterate_add_apply]; exact h _ (by omega)
        · rw [← h', Nat.add_comm, Function.iterate_add_apply]⟩ := by
  constructor
  · rintro c t y ⟨x, ⟨hx, hc⟩, s, hs, hb, rfl⟩
    refine ⟨cell (f^[s] x), ?_, hb s (le_refl _), rfl⟩
    refine Finset.mem_image.2 ⟨(x, s), ?_, rfl⟩
    exact Finset.mem_product.2 ⟨by simp [hx, hc], by simp; omega⟩
  · rintro c t y ⟨x, ⟨hx, hc⟩, hb, rfl⟩
    refine ⟨cell (f^[t] x), ?_, hb t (le_refl _), rfl⟩
    exact Finset.mem_image.2 ⟨x, by simp [hx, hc], rfl⟩

/-- the spec dynamics used with `mapAnalyser_sound` -/
def boundedMap (f : ℕ → ℕ) (n : ℕ) : Dynamics ℕ ℕ :=
  ⟨fun x t y => (∀ s ≤ t, f^[s] x < n) ∧ f^[t] x = y, by
    rintro x s t z ⟨h, h'⟩
    refine ⟨f^[s] x, ⟨fun r hr => h r (by omega), rfl⟩, fun r hr => ?_, ?_⟩
    · rw [← Function.iterate_add_apply]; exact h _ (by omega)
    · rw [← h', Nat.add_comm, Function.iterate_add_apply]⟩

/-- C40 fails: a map exchanging the safe point 0 and the unsafe point 1, evolved for two
steps at a time, is certified safe. -/
theorem C40_verify_safety_counterexample :
    let A := mapAnalyser (fun x => 1 - x) id 2
    let D := boundedMap (fun x => 1 - x) 2
    SoundEvolver A (fun c => {x | x < 2 ∧ id x = c}) D ∧
    (∃ r, A.verifySafety 2 none {0} {0} 5 = some (.ok (.safe r {0}))) ∧
    (1 : ℕ) ∈ reachable D {0} := by
  refine ⟨mapAnalyser_sound _ _ _, ⟨_, rfl⟩, ⟨0, rfl, 1, ?_, rfl⟩⟩
  intro s hs
  interval_cases s <;> decide

/-! ### C42 -/

/-- C42: `upper_evolve` covers the points reached at the final time if the number of time
steps is not rounded up. -/
theorem C42_upper_evolve_partial (hA : SoundEvolver A box D) (hz : ∀ x y, D.R x 0 y → x = y) {lock time : T}
    (steps : ℕ) (rem : Option T)
    (hrem : time = steps • lock + rem.getD 0)
    {init : Finset C} {X : Set S} (hX : Covers box init X) :
    Covers box (A.upperEvolve lock steps rem init) (reachableAt D X time) := by
  have iter : ∀ (n : ℕ) (F : Finset C) (Y : Set S), Covers box F Y →
      Covers box ((fun S => A.finalOf S lock)^[n] F) (reachableAt D Y (n • lock)) := by
    intro n
    induction n with
    | zero =>
      rintro F Y hY z ⟨x, hx, hR⟩
      rw [zero_nsmul] at hR
      rw [← hz _ _ hR]; exact hY x hx
    | succ n ih =>
      intro F Y hY
      rw [Function.iterate_succ_apply]
      refine (ih _ _ (finalOf_covers hA hY lock)).mono (le_refl _) ?_
      rintro z ⟨x, hx, hR⟩
      rw [succ_nsmul, add_comm] at hR
      obtain ⟨y, hy, hR'⟩ := D.split hR
      exact ⟨y, ⟨x, hx, hy⟩, hR'⟩
  have h1 := iter steps init X hX
  unfold Analyser.upperEvolve
  cases rem with
  | none => simp only [Option.getD_none, add_zero] at hrem; rw [hrem]; exact h1
  | some r =>
    simp only [Option.getD_some] at hrem ⊢
    have h2 : Covers box (A.finalOf ((fun S => A.finalOf S lock)^[steps] init) r) (reachableAt D X time) := by
      refine (finalOf_covers hA h1 r).mono (le_refl _) ?_
      rintro z ⟨x, hx, hR⟩
      rw [hrem] at hR
      obtain ⟨y, hy, hR'⟩ := D.split hR
      exact ⟨y, ⟨x, hx, hy⟩, hR'⟩
    by_cases he : (fun S => A.finalOf S lock)^[steps] init = ∅
    · rw [if_pos he]
      rw [he] at h2 ⊢
      simpa [Analyser.finalOf] using h2
    · rw [if_neg he]; exact h2

/-- For integer times the hypothesis of the theorem holds iff the quotient is not rounded up. -/
theorem C42_time_steps (time lock : ℕ) (hl : 0 < lock) :
    time = computeTimeSteps time lock • lock + (remainderTime time lock).getD 0 ↔ 2 * (time % lock) < lock := by
  have hd := Nat.div_add_mod time lock
  have hm := Nat.mod_lt time hl
  have hsteps : computeTimeSteps time lock = if 2 * (time % lock) < lock then time / lock else time / lock + 1 := by
    unfold computeTimeSteps
    have e : 2 * time + lock = (2 * (time % lock) + lock) + 2 * lock * (time / lock) := by
      conv_lhs => rw [← hd]
      ring
    rw [e, Nat.add_mul_div_left _ _ (by omega)]
    by_cases h : 2 * (time % lock) < lock
    · rw [if_pos h, Nat.div_eq_of_lt (by omega)]; omega
    · rw [if_neg h]
      have : (2 * (time % lock) + lock) / (2 * lock) = 1 := by
        apply Nat.div_eq_of_lt_le <;> omega
      omega
  by_cases h : 2 * (time % lock) < lock
  · simp only [h, iff_true]
    rw [if_pos h] at hsteps
    unfold remainderTime
    rw [hsteps, smul_eq_mul]
    have hc : (time / lock) * lock + time % lock = time := by rw [mul_comm]; exact hd
    have hle : (time / lock) * lock ≤ time := by omega
    split_ifs with hp
    · simp only [Option.getD_some]; omega
    · simp only [Option.getD_none]
      have : ((time / lock * lock : ℕ) : ℤ) = (time / lock : ℕ) * (lock : ℤ) := by push_cast; ring
      omega
  · simp only [h, iff_false]
    rw [if_neg h] at hsteps
    have hlt : time < computeTimeSteps time lock * lock := by
      rw [hsteps, add_mul, one_mul, mul_comm]; omega
    have : ((computeTimeSteps time lock * lock : ℕ) : ℤ) = (computeTimeSteps time lock : ℕ) * (lock : ℤ) := by push_cast; ring
    have hnone : remainderTime time lock = none := by
      unfold remainderTime
      rw [if_neg (by omega)]
    rw [hnone, smul_eq_mul, Option.getD_none]
    omega

/-- C42 fails: with time 2 and lock-to-grid time 3, `upper_evolve` evolves for time 3. -/
theorem C42_upper_evolve_counterexample :
    let A := mapAnalyser (· + 1) id 5
    let D := boundedMap (· + 1) 5
    SoundEvolver A (fun c => {x | x < 5 ∧ id x = c}) D ∧
    A.upperEvolve 3 (computeTimeSteps 2 3) (remainderTime 2 3) {0} = {3} ∧
    (2 : ℕ) ∈ reachableAt D {0} 2 := by
  refine ⟨mapAnalyser_sound _ _ _, by decide +kernel, ⟨0, rfl, ?_, rfl⟩⟩
  intro s hs
  interval_cases s <;> decide

omit [LinearOrder T] [IsOrderedAddMonoid T] [CanonicallyOrderedAdd T] [Sub T] [OrderedSub T] [AddCommMonoid T] in
theorem upperReachEvolveLoop_mono (lock : T) : ∀ (n : ℕ) (s : Finset C × Finset C × Finset C),
    s.1 ⊆ (A.upperReachEvolveLoop lock n s).1 ∧ s.2.1 ⊆ (A.upperReachEvolveLoop lock n s).2.1 ∧
    s.2.2 ⊆ (A.upperReachEvolveLoop lock n s).2.2 := by
  intro n
  induction n with
  | zero => intro s; exact ⟨le_refl _, le_refl _, le_refl _⟩
  | succ n ih =>
    rintro ⟨f, e, r⟩
    obtain ⟨a, b, c⟩ := ih (f ∪ A.reachOf e lock, e ∪ A.finalOf e lock, r ∪ (f ∪ A.reachOf e lock))
    exact ⟨Finset.subset_union_left.trans a, Finset.subset_union_left.trans b, Finset.subset_union_left.trans c⟩

theorem upperReachEvolveLoop_covers (hA : SoundEvolver A box D) (lock : T) : ∀ (n : ℕ)
    (f e r : Finset C) (Y : Set S), Covers box e Y → Covers box r Y →
    (∀ k ≤ n, ∀ t ≤ lock, k ≠ n → Covers box (A.upperReachEvolveLoop lock n (f, e, r)).2.2 (reachableAt D Y (k • lock + t))) ∧
    (∀ k ≤ n, k ≠ 0 → Covers box (A.upperReachEvolveLoop lock n (f, e, r)).2.1 (reachableAt D Y (k • lock))) := by
  intro n
  induction n with
  | zero =>
    intro f e r Y _ _
    exact ⟨fun k hk _ _ h => absurd (Nat.le_zero.1 hk) h, fun k hk h => absurd (Nat.le_zero.1 hk) h⟩
  | succ n ih =>
    intro f e r Y he hr
    have hfin : Covers box (e ∪ A.finalOf e lock) (reachableAt D Y lock) :=
      (finalOf_covers hA he lock).mono Finset.subset_union_right (le_refl _)
    have hrea : Covers box (r ∪ (f ∪ A.reachOf e lock)) (reachableWithin D Y lock) :=
      (reachOf_covers hA he lock).mono (Finset.subset_union_right.trans Finset.subset_union_right) (le_refl _)
    have hat : reachableAt D Y lock ⊆ reachableWithin D Y lock := fun z ⟨x, hx, hR⟩ => ⟨x, hx, lock, le_refl _, hR⟩
    obtain ⟨i1, i2⟩ := ih (f ∪ A.reachOf e lock) (e ∪ A.finalOf e lock) (r ∪ (f ∪ A.reachOf e lock)) (reachableAt D Y lock)
      hfin (hrea.mono (le_refl _) hat)
    obtain ⟨_, m2, m3⟩ := upperReachEvolveLoop_mono (A := A) lock n (f ∪ A.reachOf e lock, e ∪ A.finalOf e lock, r ∪ (f ∪ A.reachOf e lock))
    have shift : ∀ (k : ℕ) (t : T), reachableAt D Y ((k + 1) • lock + t) ⊆ reachableAt D (reachableAt D Y lock) (k • lock + t) := by
      rintro k t z ⟨x, hx, hR⟩
      rw [succ_nsmul, add_comm (k • lock), add_assoc] at hR
      obtain ⟨y, hy, hR'⟩ := D.split hR
      exact ⟨y, ⟨x, hx, hy⟩, hR'⟩
    constructor
    · intro k hk t ht hne
      cases k with
      | zero =>
        refine hrea.mono m3 ?_
        rintro z ⟨x, hx, hR⟩
        rw [zero_nsmul, zero_add] at hR
        exact ⟨x, hx, t, ht, hR⟩
      | succ k => exact (i1 k (by omega) t ht (by omega)).mono (le_refl _) (shift k t)
    · intro k hk hne
      cases k with
      | zero => exact absurd rfl hne
      | succ k =>
        have hsh := shift k 0
        rw [add_zero, add_zero] at hsh
        cases k with
        | zero =>
          refine hfin.mono m2 ?_
          rintro z ⟨x, hx, hR⟩
          rw [zero_add, one_nsmul] at hR
          exact ⟨x, hx, hR⟩
        | succ k => exact (i2 (k + 1) (by omega) (by omega)).mono (le_refl _) hsh

/-- Every time up to `n` steps lies within one of the steps. -/
theorem time_in_step {lock t : T} : ∀ {n : ℕ}, 0 < n → t ≤ n • lock → ∃ k < n, ∃ s ≤ lock, t = k • lock + s := by
  intro n
  induction n with
  | zero => intro h; omega
  | succ n ih =>
    intro _ ht
    rcases le_total t (n • lock) with h | h
    · cases n with
      | zero =>
        rw [zero_add, one_nsmul] at ht
        exact ⟨0, by omega, t, ht, by rw [zero_nsmul, zero_add]⟩
      | succ n =>
        obtain ⟨k, hk, s, hs, e⟩ := ih (by omega) h
        exact ⟨k, by omega, s, hs, e⟩
    · refine ⟨n, by omega, t - n • lock, ?_, (add_tsub_cancel_of_le h).symm⟩
      rw [tsub_le_iff_right, add_comm, ← succ_nsmul]; exact ht

/-- C42: the first set of `upper_reach_evolve` covers the points reached up to the final time,
however the number of steps is rounded. -/
theorem C42_upper_reach_evolve_reach (hA : SoundEvolver A box D) (hz : ∀ x y, D.R x 0 y → x = y) {lock time : T}
    (steps : ℕ) (rem : Option T)
    (hrem : time ≤ steps • lock + rem.getD 0)
    {init : Finset C} {X : Set S} (hX : Covers box init X) :
    Covers box (A.upperReachEvolve lock steps rem init).1 (reachableWithin D X time) := by
  obtain ⟨i1, i2⟩ := upperReachEvolveLoop_covers hA lock steps ∅ init init X hX hX
  obtain ⟨_, m2, m3⟩ := upperReachEvolveLoop_mono (A := A) lock steps (∅, init, init)
  simp only at m2 m3
  -- evolve covers the points at the last grid time
  have hev : Covers box (A.upperReachEvolveLoop lock steps (∅, init, init)).2.1 (reachableAt D X (steps • lock)) := by
    rcases Nat.eq_zero_or_pos steps with h | h
    · rintro z ⟨x, hx, hR⟩
      rw [h, zero_nsmul] at hR
      obtain ⟨c, hc, hxc⟩ := hX x hx
      exact ⟨c, m2 hc, hz _ _ hR ▸ hxc⟩
    · exact i2 steps (le_refl _) (by omega)
  -- reach covers the points before
  have hre : Covers box (A.upperReachEvolveLoop lock steps (∅, init, init)).2.2 (reachableWithin D X (steps • lock)) := by
    rintro z ⟨x, hx, s, hs, hR⟩
    rcases Nat.eq_zero_or_pos steps with h | h
    · rw [h, zero_nsmul] at hs
      rw [le_antisymm hs zero_le] at hR
      obtain ⟨c, hc, hxc⟩ := hX x hx
      exact ⟨c, m3 hc, hz _ _ hR ▸ hxc⟩
    · obtain ⟨k, hk, t, ht, e⟩ := time_in_step h hs
      exact i1 k (by omega) t ht (by omega) z ⟨x, hx, e ▸ hR⟩
  unfold Analyser.upperReachEvolve
  cases rem with
  | none =>
    simp only [Option.getD_none, add_zero] at hrem ⊢
    refine hre.mono (le_refl _) ?_
    rintro z ⟨x, hx, s, hs, hR⟩
    exact ⟨x, hx, s, hs.trans hrem, hR⟩
  | some r =>
    simp only [Option.getD_some] at hrem ⊢
    have hr2 := reachOf_covers hA hev r
    have split : reachableWithin D X time ⊆ reachableWithin D X (steps • lock) ∪ reachableWithin D (reachableAt D X (steps • lock)) r := by
      rintro z ⟨x, hx, s, hs, hR⟩
      rcases le_total s (steps • lock) with h | h
      · exact Or.inl ⟨x, hx, s, h, hR⟩
      · rw [← add_tsub_cancel_of_le h] at hR
        obtain ⟨y, hy, hR'⟩ := D.split hR
        refine Or.inr ⟨y, ⟨x, hx, hy⟩, _, ?_, hR'⟩
        rw [tsub_le_iff_left]; exact hs.trans hrem
    by_cases he : (A.upperReachEvolveLoop lock steps (∅, init, init)).2.1 = ∅
    · rw [if_pos he]
      refine Covers.mono (Covers.union_right hre ?_) (le_refl _) split
      rintro z hz'
      obtain ⟨c, hc, _⟩ := hr2 z hz'
      rw [he] at hc; simp [Analyser.reachOf] at hc
    · rw [if_neg he]
      simp only [Analyser.adjoinReachEvolve]
      refine Covers.mono (Covers.union_right (hre.mono Finset.subset_union_left (le_refl _)) (hr2.mono ?_ (le_refl _)))
        (le_refl _) split
      exact Finset.subset_union_right.trans Finset.subset_union_right

/-- C42: the second set of `upper_reach_evolve` covers the points reached at the final time if
the number of steps is not rounded up. -/
theorem C42_upper_reach_evolve_final_partial (hA : SoundEvolver A box D) (hz : ∀ x y, D.R x 0 y → x = y) {lock time : T}
    (steps : ℕ) (rem : Option T)
    (hrem : time = steps • lock + rem.getD 0)
    {init : Finset C} {X : Set S} (hX : Covers box init X) :
    Covers box (A.upperReachEvolve lock steps rem init).2 (reachableAt D X time) := by
  obtain ⟨_, i2⟩ := upperReachEvolveLoop_covers hA lock steps ∅ init init X hX hX
  obtain ⟨_, m2, _⟩ := upperReachEvolveLoop_mono (A := A) lock steps (∅, init, init)
  simp only at m2
  have hev : Covers box (A.upperReachEvolveLoop lock steps (∅, init, init)).2.1 (reachableAt D X (steps • lock)) := by
    rcases Nat.eq_zero_or_pos steps with h | h
    · rintro z ⟨x, hx, hR⟩
      rw [h, zero_nsmul] at hR
      obtain ⟨c, hc, hxc⟩ := hX x hx
      exact ⟨c, m2 hc, hz _ _ hR ▸ hxc⟩
    · exact i2 steps (le_refl _) (by omega)
  unfold Analyser.upperReachEvolve
  cases rem with
  | none => simp only [Option.getD_none, add_zero] at hrem ⊢; rw [hrem]; exact hev
  | some r =>
    simp only [Option.getD_some] at hrem ⊢
    have h2 : Covers box (A.finalOf (A.upperReachEvolveLoop lock steps (∅, init, init)).2.1 r) (reachableAt D X time) := by
      refine (finalOf_covers hA hev r).mono (le_refl _) ?_
      rintro z ⟨x, hx, hR⟩
      rw [hrem] at hR
      obtain ⟨y, hy, hR'⟩ := D.split hR
      exact ⟨y, ⟨x, hx, hy⟩, hR'⟩
    by_cases he : (A.upperReachEvolveLoop lock steps (∅, init, init)).2.1 = ∅
    · rw [if_pos he]
      rintro z hz'
      obtain ⟨c, hc, _⟩ := h2 z hz'
      rw [he] at hc; simp [Analyser.finalOf] at hc
    · rw [if_neg he]
      exact h2.mono Finset.subset_union_right (le_refl _)

/-- C42: `upper_reach` covers the points reached up to the final time if there is at most one
full time step, or two and no remainder.  Missing: more steps, see the counterexample. -/
theorem C42_upper_reach_partial (hA : SoundEvolver A box D) (hz : ∀ x y, D.R x 0 y → x = y) {lock time : T}
    (steps : ℕ) (rem : Option T) (hsteps : steps ≤ 1 ∨ (steps = 2 ∧ rem = none))
    (hrem : time ≤ steps • lock + rem.getD 0)
    {init : Finset C} {X : Set S} (hX : Covers box init X) :
    Covers box (A.upperReach lock steps rem init) (reachableWithin D X time) := by
  have r1 := reachOf_covers hA hX lock
  have f1 := finalOf_covers hA hX lock
  have split : ∀ (Y : Set S) (a b : T), reachableWithin D Y (a + b) ⊆ reachableWithin D Y a ∪ reachableWithin D (reachableAt D Y a) b := by
    rintro Y a b z ⟨x, hx, s, hs, hR⟩
    rcases le_total s a with h | h
    · exact Or.inl ⟨x, hx, s, h, hR⟩
    · rw [← add_tsub_cancel_of_le h] at hR
      obtain ⟨y, hy, hR'⟩ := D.split hR
      refine Or.inr ⟨y, ⟨x, hx, hy⟩, _, ?_, hR'⟩
      rw [tsub_le_iff_left]; exact hs
  have wmono : ∀ (Y : Set S) {a b : T}, a ≤ b → reachableWithin D Y a ⊆ reachableWithin D Y b := by
    rintro Y a b hab z ⟨x, hx, s, hs, hR⟩
    exact ⟨x, hx, s, hs.trans hab, hR⟩
  have w0 : reachableWithin D X 0 ⊆ X := by
    rintro z ⟨x, hx, s, hs, hR⟩
    rw [le_antisymm hs zero_le] at hR
    exact hz _ _ hR ▸ hx
  -- an empty set of evolved cells covers nothing
  have hempty : ∀ {F : Finset C} {Y : Set S} (t : T), Covers box F Y → F = ∅ → reachableWithin D Y t = ∅ := by
    rintro F Y t h rfl
    rw [Set.eq_empty_iff_forall_notMem]
    rintro z ⟨x, hx, _⟩
    obtain ⟨c, hc, _⟩ := h x hx
    simp at hc
  have fin1 : ∀ (rem : Option T) (s : Finset C × Finset C × Finset C × Finset C), s.2.2.2 ⊆ A.upperReachFinish rem s := by
    rintro rem ⟨f, e, a, r⟩
    cases rem with
    | none => exact Finset.subset_union_left
    | some t =>
      simp only [Analyser.upperReachFinish, Analyser.adjoinReachEvolve]
      split_ifs
      · exact Finset.subset_union_left
      · exact Finset.subset_union_left.trans Finset.subset_union_left
  have fin2 : ∀ (t : T) (s : Finset C × Finset C × Finset C × Finset C),
      A.reachOf s.2.1 t ⊆ A.upperReachFinish (some t) s := by
    rintro t ⟨f, e, a, r⟩
    simp only [Analyser.upperReachFinish, Analyser.adjoinReachEvolve]
    by_cases he : e = ∅
    · rw [he]; simp [Analyser.reachOf]
    · rw [if_neg he]
      exact (Finset.subset_union_right.trans Finset.subset_union_right).trans Finset.subset_union_left
  have hl1 : ∀ n, A.upperReachLoop lock (n + 1) (∅, init, ∅, init) =
      if init ∪ A.finalOf init lock = ∅ then
        (A.reachOf init lock, init ∪ A.finalOf init lock, init ∪ A.finalOf init lock, init ∪ A.reachOf init lock)
      else A.upperReachLoop lock n
        (A.reachOf init lock, init ∪ A.finalOf init lock, init ∪ A.finalOf init lock, init ∪ A.reachOf init lock) := by
    intro n
    have h0 : (A.adjoinReachEvolve ∅ init init lock).2 \ (∅ ∪ ∅) = init ∪ A.finalOf init lock := by
      simp [Analyser.adjoinReachEvolve]
    have h1 : (A.adjoinReachEvolve ∅ init init lock).1 = A.reachOf init lock := by
      simp [Analyser.adjoinReachEvolve]
    rw [Analyser.upperReachLoop]
    rw [h0, h1, Finset.empty_union, Finset.empty_union]
  have hf : Covers box (init ∪ A.finalOf init lock) (reachableAt D X lock) :=
    f1.mono Finset.subset_union_right (le_refl _)
  have hs3 : steps = 0 ∨ steps = 1 ∨ (steps = 2 ∧ rem = none) := by
    rcases hsteps with h | h
    · rcases Nat.le_one_iff_eq_zero_or_eq_one.1 h with h | h
      · exact Or.inl h
      · exact Or.inr (Or.inl h)
    · exact Or.inr (Or.inr h)
  unfold Analyser.upperReach
  rcases hs3 with rfl | rfl | ⟨rfl, rfl⟩
  · cases rem with
    | none =>
      simp only [zero_nsmul, zero_add, Option.getD_none] at hrem
      exact hX.mono (fin1 none (∅, init, ∅, init)) ((wmono X hrem).trans w0)
    | some r =>
      simp only [zero_nsmul, zero_add, Option.getD_some] at hrem
      exact (reachOf_covers hA hX r).mono (fin2 r (∅, init, ∅, init)) (wmono X hrem)
  · have hl : A.upperReachLoop lock 1 (∅, init, ∅, init) =
        (A.reachOf init lock, init ∪ A.finalOf init lock, init ∪ A.finalOf init lock, init ∪ A.reachOf init lock) := by
      have h1 := hl1 0
      rw [zero_add] at h1
      rw [h1]
      by_cases he : init ∪ A.finalOf init lock = ∅
      · rw [if_pos he]
      · rw [if_neg he]; rfl
    rw [hl]
    have q1 : Covers box (A.upperReachFinish rem (A.reachOf init lock, init ∪ A.finalOf init lock, init ∪ A.finalOf init lock, init ∪ A.reachOf init lock))
        (reachableWithin D X lock) := r1.mono (Finset.Subset.trans Finset.subset_union_right
          (fin1 rem (A.reachOf init lock, init ∪ A.finalOf init lock, init ∪ A.finalOf init lock, init ∪ A.reachOf init lock))) (le_refl _)
    cases rem with
    | none =>
      simp only [one_nsmul, Option.getD_none, add_zero] at hrem
      exact q1.mono (le_refl _) (wmono X hrem)
    | some r =>
      simp only [one_nsmul, Option.getD_some] at hrem
      refine Covers.mono (Covers.union_right q1 ?_) (le_refl _) ((wmono X hrem).trans (split X lock r))
      exact (reachOf_covers hA hf r).mono
        (fin2 r (A.reachOf init lock, init ∪ A.finalOf init lock, init ∪ A.finalOf init lock, init ∪ A.reachOf init lock)) (le_refl _)
  · simp only [two_nsmul, Option.getD_none, add_zero] at hrem
    refine Covers.mono ?_ (le_refl _) ((wmono X hrem).trans (split X lock lock))
    have h1 : A.upperReachLoop lock 2 (∅, init, ∅, init) = _ := hl1 1
    rw [h1]
    by_cases he : init ∪ A.finalOf init lock = ∅
    · rw [if_pos he, hempty lock hf he, Set.union_empty]
      exact r1.mono (Finset.Subset.trans Finset.subset_union_right
        (fin1 none (A.reachOf init lock, init ∪ A.finalOf init lock, init ∪ A.finalOf init lock, init ∪ A.reachOf init lock))) (le_refl _)
    · rw [if_neg he]
      have h2 : ∀ s : Finset C × Finset C × Finset C × Finset C,
          s.2.2.2 ∪ A.reachOf s.2.1 lock ⊆ (A.upperReachLoop lock 1 s).2.2.2 := by
        rintro ⟨f, e, a, r⟩
        rw [Analyser.upperReachLoop]
        by_cases he' : (A.adjoinReachEvolve f e e lock).2 \ (a ∪ f) = ∅
        · rw [if_pos he']; exact Finset.union_subset_union (le_refl _) Finset.subset_union_right
        · rw [if_neg he']; exact Finset.union_subset_union (le_refl _) Finset.subset_union_right
      have h3 := (h2 (A.reachOf init lock, init ∪ A.finalOf init lock, init ∪ A.finalOf init lock, init ∪ A.reachOf init lock)).trans
        (fin1 none _)
      apply Covers.union_right
      · exact r1.mono ((Finset.subset_union_right.trans Finset.subset_union_left).trans h3) (le_refl _)
      · exact (reachOf_covers hA hf lock).mono (Finset.subset_union_right.trans h3) (le_refl _)

/-- C42 fails for `upper_reach`: cells met within a time step are not evolved when the motion
enters them again at the end of a later step.  Map `x ↦ x+1`, points 1 and 4 in the same
cell, time 6 in steps of 2: point 5 is missed. -/
theorem C42_upper_reach_counterexample :
    let cell := fun x => if x = 4 then 1 else x
    let A := mapAnalyser (· + 1) cell 9
    let D := boundedMap (· + 1) 9
    SoundEvolver A (fun c => {x | x < 9 ∧ cell x = c}) D ∧
    computeTimeSteps 6 2 = 3 ∧ remainderTime 6 2 = none ∧
    (5 : ℕ) ∈ reachableWithin D {0} 6 ∧ ∀ c ∈ A.upperReach 2 3 none {0}, 5 ∉ {x | x < 9 ∧ cell x = c} := by
  refine ⟨mapAnalyser_sound _ _ _, by decide +kernel, by decide +kernel, ⟨0, rfl, 5, by norm_num, ?_, rfl⟩, ?_⟩
  · intro s hs
    interval_cases s <;> decide
  · have : (mapAnalyser (· + 1) (fun x => if x = 4 then 1 else x) 9).upperReach 2 3 none {0} = {0, 1, 2, 3} := by decide +kernel
    rw [this]
    intro c hc h
    have h2 : (5 : ℕ) = c := h.2
    rw [← h2] at hc
    revert hc; decide

/-- Non-vacuity: a sound evolver with a chain reach computation that returns. -/
example : SoundEvolver (mapAnalyser (fun x => x / 2) id 9) (fun c => {x | x < 9 ∧ id x = c}) (boundedMap (fun x => x / 2) 9) ∧
    ((mapAnalyser (fun x => x / 2) id 9).outerChainReach .error 1 none {7} 10).map (fun o => match o with
      | .ok r => decide (r = {0, 1, 3, 7}) | .error _ => false) = some true :=
  ⟨mapAnalyser_sound _ _ _, by decide +kernel⟩
example : ((mapAnalyser (fun x => x / 2) id 9).outerChainReach .error 1 (some 2) {7} 10).map (fun o => match o with
      | .ok r => decide (r = {0, 1, 3, 7}) | .error _ => false) = some true := by
  decide +kernel

end Ariadne.Reachability
