import Verif.InclusionEvolver.Model
import Mathlib.Data.Fintype.Basic
import Mathlib.Algebra.BigOperators.Group.Finset.Basic
import Mathlib.Tactic.Linarith
import Mathlib.Tactic.Ring

/-!
# The schedule of approximations

In every step at least one approximation with rigorous reachable sets is tried, the loops over the schedule
terminate, no approximation is lost, each is tried again when its delay is over, and the numbers stay small.
-/

namespace Verif.InclusionEvolver

instance : Fintype Kind where
  elems := {.zero, .constant, .affine, .sinusoidal, .piecewise}
  complete a := by cases a <;> decide

/-! ### Lists of entries -/

/-- For an increasing list of entries from `k` on, the entries for the step `k` are used. -/
theorem useBack_eq {k : ℕ} {l : List Entry} (hs : l.Pairwise fun a b => a.step ≤ b.step)
    (hk : ∀ e ∈ l, k ≤ e.step) : useBack k l = (l.filter fun e => e.step = k).map Entry.appr := by
  induction l with
  | nil => rfl
  | cons e r ih =>
    rw [List.pairwise_cons] at hs
    have h1 := hk e (List.mem_cons_self ..)
    unfold useBack
    by_cases h : e.step = k
    · rw [if_pos h, ih hs.2 fun e he => hk e (List.mem_cons_of_mem _ he),
        List.filter_cons_of_pos (by simpa using h), List.map_cons]
    · rw [if_neg h, if_pos (by omega), List.filter_eq_nil_iff.2]
      · rfl
      · intro e' he'
        rcases List.mem_cons.1 he' with rfl | he'
        · simpa using h
        · have := hs.1 e' he'
          simp only [decide_eq_true_eq]
          omega

/-- For an increasing list of entries from `k` on, the entries for the step `k` are removed. -/
theorem popBack_eq {k : ℕ} {l : List Entry} (hs : l.Pairwise fun a b => a.step ≤ b.step)
    (hk : ∀ e ∈ l, k ≤ e.step) : popBack k l = some (l.filter fun e => k < e.step) := by
  induction l with
  | nil => rfl
  | cons e r ih =>
    rw [List.pairwise_cons] at hs
    have h1 := hk e (List.mem_cons_self ..)
    unfold popBack
    by_cases h : e.step = k
    · rw [if_pos h, ih hs.2 fun e he => hk e (List.mem_cons_of_mem _ he),
        List.filter_cons_of_neg (by simp; omega)]
    · rw [if_neg h, if_pos (by omega)]
      congr 1
      symm
      rw [List.filter_eq_self]
      intro e' he'
      rcases List.mem_cons.1 he' with rfl | he'
      · simp only [decide_eq_true_eq]
        omega
      · have := hs.1 e' he'
        simp only [decide_eq_true_eq]
        omega

theorem reschedule_appr (best : Kind) (mx k : ℕ) (as : List Kind) (d : Kind → ℕ) :
    (reschedule best mx k as d).2.map Entry.appr = as := by
  induction as generalizing d with
  | nil => rfl
  | cons a as ih => simp [reschedule, ih]

theorem reschedule_later {best : Kind} {mx k : ℕ} {as : List Kind} {d : Kind → ℕ} {e : Entry}
    (he : e ∈ (reschedule best mx k as d).2) : k < e.step := by
  induction as generalizing d with
  | nil => simp [reschedule] at he
  | cons a as ih =>
    simp only [reschedule, List.mem_cons] at he
    rcases he with rfl | he
    · have : 0 < 2 ^ newDelay best mx a (d a) := by positivity
      simp only
      omega
    · exact ih he

/-- Approximations whose delay is reset are scheduled for the next step. -/
theorem reschedule_reset {best : Kind} {mx k : ℕ} {as : List Kind} {d : Kind → ℕ} {a : Kind} (ha : a ∈ as)
    (h0 : ∀ n, newDelay best mx a n = 0) : (⟨k + 1, a⟩ : Entry) ∈ (reschedule best mx k as d).2 := by
  induction as generalizing d with
  | nil => simp at ha
  | cons b as ih =>
    rcases List.mem_cons.1 ha with rfl | ha
    · simp only [reschedule, List.mem_cons]
      left
      rw [h0, pow_zero]
    · exact List.mem_cons_of_mem _ (ih ha)

theorem reschedule_delay_of_notMem {best : Kind} {mx k : ℕ} {as : List Kind} {d : Kind → ℕ} {a : Kind}
    (ha : a ∉ as) : (reschedule best mx k as d).1 a = d a := by
  induction as generalizing d with
  | nil => rfl
  | cons b as ih =>
    rw [List.mem_cons, not_or] at ha
    show (reschedule best mx k as _).1 a = _
    rw [ih ha.2, Function.update_of_ne ha.1]

/-- Without repetitions, the new delays and the new entries. -/
theorem reschedule_nodup {best : Kind} {mx k : ℕ} {as : List Kind} {d : Kind → ℕ} (hn : as.Nodup) :
    (∀ a ∈ as, (reschedule best mx k as d).1 a = newDelay best mx a (d a)) ∧
      ∀ e, e ∈ (reschedule best mx k as d).2 ↔ e.appr ∈ as ∧ e.step = k + 2 ^ newDelay best mx e.appr (d e.appr) := by
  induction as generalizing d with
  | nil => simp [reschedule]
  | cons b as ih =>
    rw [List.nodup_cons] at hn
    have ih' := ih (d := Function.update d b (newDelay best mx b (d b))) hn.2
    constructor
    · intro a ha
      show (reschedule best mx k as _).1 a = _
      rcases List.mem_cons.1 ha with rfl | ha'
      · rw [reschedule_delay_of_notMem hn.1, Function.update_self]
      · rw [ih'.1 a ha', Function.update_of_ne]
        rintro rfl
        exact hn.1 ha'
    · intro e
      show e ∈ _ :: (reschedule best mx k as _).2 ↔ _
      rw [List.mem_cons, ih'.2 e, List.mem_cons]
      constructor
      · rintro (rfl | ⟨h1, h2⟩)
        · exact ⟨Or.inl rfl, rfl⟩
        · have : e.appr ≠ b := by
            rintro h
            exact hn.1 (h ▸ h1)
          rw [Function.update_of_ne this] at h2
          exact ⟨Or.inr h1, h2⟩
      · rintro ⟨h1 | h1, h2⟩
        · left
          obtain ⟨st, ap⟩ := e
          simp only at h1 h2
          subst h1
          rw [h2]
        · right
          have : e.appr ≠ b := by
            rintro h
            exact hn.1 (h ▸ h1)
          rw [Function.update_of_ne this]
          exact ⟨h1, h2⟩

theorem foldl_max_ge (as : List Kind) (k : ℕ) :
    k ≤ as.foldl (fun k a => if a.rigorous then max k a.index else k) k ∧
      ((as.foldl (fun k a => if a.rigorous then max k a.index else k) k = k ∧
        ∀ a ∈ as, a.rigorous → a.index ≤ k) ∨
        ∃ a ∈ as, a.rigorous ∧ a.index = as.foldl (fun k a => if a.rigorous then max k a.index else k) k) := by
  induction as generalizing k with
  | nil => simp
  | cons a as ih =>
    rw [List.foldl_cons]
    by_cases ha : a.rigorous = true
    · rw [if_pos ha]
      obtain ⟨h1, h2⟩ := ih (max k a.index)
      refine ⟨(le_max_left _ _).trans h1, ?_⟩
      rcases h2 with ⟨h2, h3⟩ | ⟨b, h2, h3, h4⟩
      · rcases le_total a.index k with h | h
        · left
          rw [max_eq_left h] at h2 h3 ⊢
          refine ⟨h2, fun b hb hr => ?_⟩
          rcases List.mem_cons.1 hb with rfl | hb
          · exact h
          · exact h3 b hb hr
        · right
          refine ⟨a, List.mem_cons_self .., ha, ?_⟩
          rw [h2, max_eq_right h]
      · exact Or.inr ⟨b, List.mem_cons_of_mem _ h2, h3, h4⟩
    · rw [if_neg ha]
      obtain ⟨h1, h2⟩ := ih k
      refine ⟨h1, ?_⟩
      rcases h2 with ⟨h2, h3⟩ | ⟨b, h2, h3, h4⟩
      · left
        refine ⟨h2, fun b hb hr => ?_⟩
        rcases List.mem_cons.1 hb with rfl | hb
        · exact absurd hr ha
        · exact h3 b hb hr
      · exact Or.inr ⟨b, List.mem_cons_of_mem _ h2, h3, h4⟩

/-- The largest index of a rigorous approximation is that of a rigorous approximation. -/
theorem exists_maxRigorous {as : List Kind} (h : ∃ a ∈ as, a.rigorous = true) :
    ∃ a ∈ as, a.rigorous = true ∧ a.index = maxRigorous as := by
  obtain ⟨h1, h2⟩ := foldl_max_ge as 0
  rcases h2 with ⟨h2, h3⟩ | h2
  · obtain ⟨a, ha, hr⟩ := h
    refine ⟨a, ha, hr, ?_⟩
    unfold maxRigorous
    rw [h2]
    have := h3 a ha hr
    omega
  · exact h2

/-! ### Rounds -/

/-- A round of the loop of `orbit`, as far as the schedule is concerned: some approximation that was used is the best,
and the counts since the last reduction may be reset. -/
def Round (sort : List Entry → List Entry) (s s' : State) : Prop :=
  ∃ best ∈ toUse s, ∃ c, nextStep { updateWithBest sort s best with localCount := c } = some s'

/-- The states that are reached for given approximations. -/
inductive Reachable (sort : List Entry → List Entry) (as : List Kind) : State → Prop
  | init : Reachable sort as (init as)
  | round {s s'} : Reachable sort as s → Round sort s s' → Reachable sort as s'

/-- The invariant of the schedule. -/
structure Inv (as : List Kind) (s : State) : Prop where
  sorted : s.schedule.Pairwise fun a b => b.step ≤ a.step
  later : ∀ e ∈ s.schedule, s.step ≤ e.step
  perm : (s.schedule.map Entry.appr).Perm (withRigorous as)
  rig : ∃ e ∈ s.schedule, e.step = s.step ∧ e.appr.rigorous = true

theorem Inv.toUse {as : List Kind} {s : State} (hs : Inv as s) :
    toUse s = (s.schedule.reverse.filter fun e => e.step = s.step).map Entry.appr :=
  useBack_eq (List.pairwise_reverse.2 hs.sorted) fun e he => hs.later e (List.mem_reverse.1 he)

theorem Inv.mem_toUse {as : List Kind} {s : State} (hs : Inv as s) {a : Kind} :
    a ∈ InclusionEvolver.toUse s ↔ (⟨s.step, a⟩ : Entry) ∈ s.schedule := by
  rw [hs.toUse]
  simp only [List.mem_map, List.mem_filter, List.mem_reverse, decide_eq_true_eq]
  constructor
  · rintro ⟨e, ⟨h1, h2⟩, rfl⟩
    rw [← h2]
    exact h1
  · intro h
    exact ⟨_, ⟨h, rfl⟩, rfl⟩

theorem init_inv (as : List Kind) : Inv as (init as) where
  sorted := by
    simp only [init, List.pairwise_map]
    exact List.pairwise_of_forall fun _ _ => le_rfl
  later e he := Nat.zero_le _
  perm := by
    simp only [init, List.map_map]
    rw [show Entry.appr ∘ (fun a => (⟨0, a⟩ : Entry)) = id from rfl, List.map_id]
  rig := by
    obtain ⟨a, ha, hr⟩ : ∃ a ∈ withRigorous as, a.rigorous = true := by
      unfold withRigorous
      by_cases h : as.any Kind.rigorous = true
      · rw [if_pos h]
        exact List.any_eq_true.1 h
      · rw [if_neg h]
        exact ⟨.constant, by simp, rfl⟩
    exact ⟨⟨0, a⟩, List.mem_map.2 ⟨a, ha, rfl⟩, rfl, hr⟩

variable {sort : List Entry → List Entry} {as : List Kind}

/-- The new entries of a round. -/
def newEntries (s : State) (best : Kind) : List Entry :=
  (reschedule best (maxRigorous (toUse s)) s.step (toUse s) s.delay).2

/-- A round does terminate, and gives the entries for later steps and the new ones. -/
theorem Inv.next (hsort : Sorts sort) {s : State} (hs : Inv as s) (best : Kind) (c : Kind → ℕ) :
    ∃ s', nextStep { updateWithBest sort s best with localCount := c } = some s' ∧ s'.step = s.step + 1 ∧
      s'.schedule.Perm ((s.schedule.filter fun e => s.step < e.step) ++ newEntries s best) ∧
      (s'.schedule.Pairwise fun a b => b.step ≤ a.step) ∧
      s'.delay = (reschedule best (maxRigorous (InclusionEvolver.toUse s)) s.step (InclusionEvolver.toUse s)
        s.delay).1 ∧
      s'.globalCount = Function.update s.globalCount best (s.globalCount best + 1) := by
  obtain ⟨h1, h2⟩ := hsort (s.schedule ++ newEntries s best)
  have h3 : ∀ e ∈ sort (s.schedule ++ newEntries s best), s.step ≤ e.step := by
    intro e he
    rcases List.mem_append.1 (h1.mem_iff.1 he) with h | h
    · exact hs.later e h
    · exact (reschedule_later h).le
  have h4 := popBack_eq (k := s.step) (List.pairwise_reverse.2 h2)
    (fun e he => h3 e (List.mem_reverse.1 he))
  refine ⟨_, by
    show (popBack s.step (sort (s.schedule ++ newEntries s best)).reverse).map _ = _
    rw [h4]
    rfl, rfl, ?_, ?_, rfl, rfl⟩
  · show (List.filter _ (sort (s.schedule ++ newEntries s best)).reverse).reverse.Perm _
    rw [← List.filter_reverse, List.reverse_reverse]
    refine (h1.filter _).trans ?_
    rw [List.filter_append]
    have : (newEntries s best).filter (fun e => decide (s.step < e.step)) = newEntries s best :=
      List.filter_eq_self.2 fun e he => by simpa using reschedule_later he
    rw [this]
  · show (List.filter _ (sort (s.schedule ++ newEntries s best)).reverse).reverse.Pairwise _
    rw [← List.filter_reverse, List.reverse_reverse]
    exact h2.filter _

theorem Inv.round (hsort : Sorts sort) {s s' : State} (hs : Inv as s) (h : Round sort s s') : Inv as s' := by
  obtain ⟨best, hb, c, h⟩ := h
  obtain ⟨s'', h1, h2, h3, h4, -⟩ := hs.next hsort best c
  obtain rfl := Option.some.inj (h1.symm.trans h)
  refine ⟨h4, fun e he => ?_, ?_, ?_⟩
  · rw [h2]
    rcases List.mem_append.1 (h3.mem_iff.1 he) with h5 | h5
    · have := (List.mem_filter.1 h5).2
      rw [decide_eq_true_eq] at this
      exact this
    · exact reschedule_later h5
  · refine ((h3.map Entry.appr).trans ?_).trans hs.perm
    rw [List.map_append, newEntries, reschedule_appr, hs.toUse]
    have e1 : (s.schedule.reverse.filter fun e => decide (e.step = s.step)).Perm
        (s.schedule.filter fun e => decide (e.step = s.step)) := (List.reverse_perm _).filter _
    refine (((e1.map Entry.appr).append_left _).trans ?_)
    rw [← List.map_append]
    refine List.Perm.map _ ?_
    have e2 : (s.schedule.filter fun e => decide (e.step = s.step)) =
        s.schedule.filter fun e => !decide (s.step < e.step) := by
      refine List.filter_congr fun e he => ?_
      have := hs.later e he
      by_cases h : e.step = s.step
      · simp [h]
      · simp only [h, decide_false]
        symm
        simp only [Bool.not_eq_false', decide_eq_true_eq]
        omega
    rw [e2]
    exact List.filter_append_perm _ _
  · obtain ⟨e, he, hst, hr⟩ := hs.rig
    have hex : ∃ a ∈ InclusionEvolver.toUse s, a.rigorous = true :=
      ⟨e.appr, hs.mem_toUse.2 (by rw [← hst]; exact he), hr⟩
    by_cases hbr : best.rigorous = true
    · refine ⟨⟨s.step + 1, best⟩, h3.mem_iff.2 (List.mem_append.2 (Or.inr ?_)), h2.symm, hbr⟩
      exact reschedule_reset hb fun n => by simp [newDelay]
    · obtain ⟨a, ha, har, hai⟩ := exists_maxRigorous hex
      refine ⟨⟨s.step + 1, a⟩, h3.mem_iff.2 (List.mem_append.2 (Or.inr ?_)), h2.symm, har⟩
      refine reschedule_reset ha fun n => ?_
      simp [newDelay, hbr, hai]

theorem Reachable.inv (hsort : Sorts sort) {s : State} (h : Reachable sort as s) : Inv as s := by
  induction h with
  | init => exact init_inv as
  | round _ hr ih => exact ih.round hsort hr

/-! ### Properties -/

/-- **C82** (rigorous reachable sets).  In every step an approximation with rigorous reachable sets is tried. -/
theorem C82_rigorous (hsort : Sorts sort) {s : State} (h : Reachable sort as s) :
    ∃ a ∈ toUse s, a.rigorous = true := by
  have hs := h.inv hsort
  obtain ⟨e, he, hst, hr⟩ := hs.rig
  exact ⟨e.appr, hs.mem_toUse.2 (by rw [← hst]; exact he), hr⟩

/-- **C82** (termination).  Whatever approximation is the best, the loop over the schedule terminates and the next step
is reached. -/
theorem C82_progress (hsort : Sorts sort) {s : State} (h : Reachable sort as s) (best : Kind) (c : Kind → ℕ) :
    ∃ s', nextStep { updateWithBest sort s best with localCount := c } = some s' ∧ s'.step = s.step + 1 := by
  obtain ⟨s', h1, h2, -⟩ := (h.inv hsort).next hsort best c
  exact ⟨s', h1, h2⟩

/-- **C82** (conservation).  In every step the schedule has each approximation as often as the configuration. -/
theorem C82_conserved (hsort : Sorts sort) {s : State} (h : Reachable sort as s) :
    (s.schedule.map Entry.appr).Perm (withRigorous as) :=
  (h.inv hsort).perm

/-- A sequence of rounds. -/
inductive Rounds (sort : List Entry → List Entry) : State → State → Prop
  | refl (s) : Rounds sort s s
  | tail {s s' s''} : Rounds sort s s' → Round sort s' s'' → Rounds sort s s''

theorem Rounds.reachable {s s' : State} (h : Rounds sort s s') (hs : Reachable sort as s) :
    Reachable sort as s' := by
  induction h with
  | refl => exact hs
  | tail _ hr ih => exact ih.round hr

/-- **C82** (retries).  An approximation is tried in the step for which it is scheduled. -/
theorem C82_retry (hsort : Sorts sort) {s s' : State} (h : Reachable sort as s) (hr : Rounds sort s s') {e : Entry}
    (he : e ∈ s.schedule) (hst : s'.step = e.step) : e.appr ∈ toUse s' := by
  have key : s'.step ≤ e.step → e ∈ s'.schedule := by
    clear hst
    induction hr with
    | refl => exact fun _ => he
    | tail hr hlast ih =>
      intro hle
      obtain ⟨best, hb, c, hn⟩ := hlast
      obtain ⟨s'', h1, h2, h3, -⟩ := ((hr.reachable h).inv hsort).next hsort best c
      obtain rfl := Option.some.inj (h1.symm.trans hn)
      refine h3.mem_iff.2 (List.mem_append.2 (Or.inl (List.mem_filter.2 ⟨ih (by omega), ?_⟩)))
      simp only [decide_eq_true_eq]
      omega
  rw [((hr.reachable h).inv hsort).mem_toUse, hst]
  exact key hst.le

/-- **C82** (delays).  After a step, the best approximation is tried in the next step, and any other approximation
after a delay that is doubled, unless it was needed for its reachable sets. -/
theorem C82_delay (hsort : Sorts sort) (hn : (withRigorous as).Nodup) {s s' : State} (h : Reachable sort as s)
    {best : Kind} (hb : best ∈ toUse s) {c : Kind → ℕ}
    (hs' : nextStep { updateWithBest sort s best with localCount := c } = some s') {a : Kind} (ha : a ∈ toUse s) :
    (a = best ∧ s'.delay a = 0 ∨ a ≠ best ∧ s'.delay a = 0 ∧ a.rigorous = true ∧ best.rigorous = false ∨
      a ≠ best ∧ s'.delay a = s.delay a + 1) ∧ (⟨s.step + 2 ^ s'.delay a, a⟩ : Entry) ∈ s'.schedule := by
  have hs := h.inv hsort
  obtain ⟨s'', h1, h2, h3, h4, h5, -⟩ := hs.next hsort best c
  obtain rfl := Option.some.inj (h1.symm.trans hs')
  have hnd : (toUse s).Nodup := by
    rw [hs.toUse]
    have : (s.schedule.map Entry.appr).Nodup := (hs.perm.nodup_iff).2 hn
    have h6 : (s.schedule.reverse.map Entry.appr).Nodup := by
      rw [List.map_reverse, List.nodup_reverse]
      exact this
    exact h6.sublist (List.filter_sublist.map _)
  obtain ⟨r1, r2⟩ := reschedule_nodup (best := best) (mx := maxRigorous (toUse s)) (k := s.step) (d := s.delay) hnd
  have hd : s''.delay a = newDelay best (maxRigorous (toUse s)) a (s.delay a) := by rw [h5, r1 a ha]
  refine ⟨?_, ?_⟩
  · rw [hd]
    unfold newDelay
    by_cases hba : best = a
    · rw [if_pos hba]
      exact Or.inl ⟨hba.symm, rfl⟩
    · rw [if_neg hba]
      by_cases hx : (!best.rigorous && decide (a.index = maxRigorous (toUse s))) = true
      · rw [if_pos hx]
        simp only [Bool.and_eq_true, Bool.not_eq_true', decide_eq_true_eq] at hx
        obtain ⟨b, hb1, hb2, hb3⟩ := exists_maxRigorous (C82_rigorous hsort h)
        have : a = b := by
          have : a.index = b.index := hx.2.trans hb3.symm
          revert this
          cases a <;> cases b <;> simp [Kind.index]
        exact Or.inr (Or.inl ⟨fun hh => hba hh.symm, rfl, this ▸ hb2, hx.1⟩)
      · rw [if_neg hx]
        exact Or.inr (Or.inr ⟨fun hh => hba hh.symm, rfl⟩)
  · refine h3.mem_iff.2 (List.mem_append.2 (Or.inr ?_))
    exact (r2 _).2 ⟨ha, by rw [hd]⟩

/-- **C82** (no overflow).  If no approximation is given twice, then steps in the schedule are at most twice the current
step, and the delays at most its logarithm.  So no shift and no sum overflows in the first `2^31-1` steps. -/
theorem C82_no_overflow (hsort : Sorts sort) (hn : (withRigorous as).Nodup) {s : State}
    (h : Reachable sort as s) {e : Entry} (he : e ∈ s.schedule) :
    e.step ≤ 2 * s.step ∧ 2 ^ s.delay e.appr ≤ s.step + 1 := by
  have key : ∀ e ∈ s.schedule, e.step ≤ 2 * s.step ∧ 2 ^ s.delay e.appr ≤ s.step + 1 ∧
      2 ^ (s.delay e.appr + 1) ≤ e.step + 2 := by
    clear he e
    induction h with
    | init =>
      intro e he
      obtain ⟨a, ha, rfl⟩ := List.mem_map.1 he
      exact ⟨le_rfl, le_rfl, le_rfl⟩
    | @round s s' hr hround ih =>
      obtain ⟨best, hb, c, hs'⟩ := hround
      have hs := hr.inv hsort
      obtain ⟨s'', h1, h2, h3, h4, h5, -⟩ := hs.next hsort best c
      obtain rfl := Option.some.inj (h1.symm.trans hs')
      have hall : (s.schedule.map Entry.appr).Nodup := (hs.perm.nodup_iff).2 hn
      have hnd : (toUse s).Nodup := by
        rw [hs.toUse]
        have h6 : (s.schedule.reverse.map Entry.appr).Nodup := by
          rw [List.map_reverse, List.nodup_reverse]
          exact hall
        exact h6.sublist (List.filter_sublist.map _)
      obtain ⟨r1, r2⟩ := reschedule_nodup (best := best) (mx := maxRigorous (toUse s)) (k := s.step)
        (d := s.delay) hnd
      intro e he
      rw [h2]
      rcases List.mem_append.1 (h3.mem_iff.1 he) with h6 | h6
      · obtain ⟨h7, h8⟩ := List.mem_filter.1 h6
        rw [decide_eq_true_eq] at h8
        have h9 : e.appr ∉ toUse s := by
          intro h10
          have h11 := hs.mem_toUse.1 h10
          have := List.inj_on_of_nodup_map hall h7 h11 rfl
          rw [this] at h8
          exact lt_irrefl _ h8
        rw [h5, reschedule_delay_of_notMem h9]
        obtain ⟨i1, i2, i3⟩ := ih e h7
        exact ⟨by omega, by omega, i3⟩
      · obtain ⟨h7, h8⟩ := (r2 e).1 h6
        rw [h5, r1 _ h7]
        obtain ⟨i1, i2, i3⟩ := ih _ (hs.mem_toUse.1 h7)
        simp only at i1 i2 i3
        have hnew : 2 ^ newDelay best (maxRigorous (toUse s)) e.appr (s.delay e.appr) ≤ s.step + 2 ∧
            2 ^ (newDelay best (maxRigorous (toUse s)) e.appr (s.delay e.appr) + 1) ≤
              s.step + 2 ^ newDelay best (maxRigorous (toUse s)) e.appr (s.delay e.appr) + 2 := by
          unfold newDelay
          split_ifs
          · simp
          · simp
          · refine ⟨i3, ?_⟩
            rw [pow_succ (n := s.delay e.appr + 1)]
            omega
        rw [h8]
        exact ⟨by omega, by omega, hnew.2⟩
  exact ⟨(key e he).1, (key e he).2.1⟩

/-- **C82** (statistics).  The approximations were the best as often as there were steps. -/
theorem C82_counts (hsort : Sorts sort) {s : State} (h : Reachable sort as s) :
    ∑ a, s.globalCount a = s.step := by
  induction h with
  | init => simp [init]
  | @round s s' hr hround ih =>
    obtain ⟨best, hb, c, hs'⟩ := hround
    obtain ⟨s'', h1, h2, -, -, -, h3⟩ := (hr.inv hsort).next hsort best c
    obtain rfl := Option.some.inj (h1.symm.trans hs')
    rw [h2, h3, ← ih, ← Finset.add_sum_erase _ _ (Finset.mem_univ best),
      ← Finset.add_sum_erase Finset.univ s.globalCount (Finset.mem_univ best), Function.update_self,
      Finset.sum_congr rfl fun a ha => Function.update_of_ne (Finset.ne_of_mem_erase ha) _ _]
    ring

end Verif.InclusionEvolver
