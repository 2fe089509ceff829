import Verif.Enclosure.Ops

/-!
# Property C72, second part: constraints, tests, splitting, reconditioning and products
-/

namespace Verif.Enclosure

open Ariadne Ariadne.Logical Verif.ConstraintSolver
open Verif.FunctionSet (over interBox subsetIvl over_contains mem_interBox subsetIvl_sound)
open Ariadne.Ext (fin)

variable {n m k : ℕ} {K : Type*} [Field K] [LinearOrder K] [IsStrictOrderedRing K]
variable {C : Calc K} {E : Encl n m K} {R : Rounding K}

/-! ## Constraints -/

/-- One more constraint. -/
theorem at_new {f : Patch n K} {b : Bounds K} {u : Bool} {p x t d} :
    ({ E with full := u, cs := E.cs ++ [(f, b)] } : Encl n m K).At p x t d ↔
      E.At p x t d ∧ ∃ y, f.has p y ∧ b.Contains y := by
  constructor
  · intro h
    obtain ⟨h1, h2⟩ := holds_append.1 h.cs
    exact ⟨⟨h.mem, h.fn, h.time, h.dwell, h1⟩, holds_single.1 h2⟩
  · rintro ⟨h, h2⟩
    exact ⟨h.mem, h.fn, h.time, h.dwell, holds_append.2 ⟨h.cs, holds_single.2 h2⟩⟩

/-- **C72**: a state constraint keeps the points which may satisfy it. -/
theorem C72_state_constraint (hC : C.Sound) (g : Patch m K) (b : Bounds K) :
    (∀ q ∈ E.pts, ∀ y, g.has q.1 y → b.Contains y → q ∈ (E.newStateConstraint C g b).pts) ∧
      (E.newStateConstraint C g b).pts ⊆ E.pts :=
  ⟨fun _ ⟨p, h⟩ y hy hb => ⟨p, at_new.2 ⟨h, y, hC.compose h.mem h.fn hy, hb⟩⟩, fun _ ⟨p, h⟩ => ⟨p, (at_new.1 h).1⟩⟩

theorem C72_state_constraint_exact (hC : C.Sound) (hX : C.Exact) (hE : E.Fun) (g : Patch m K) (b : Bounds K) :
    (E.newStateConstraint C g b).pts = {q ∈ E.pts | ∃ y, g.has q.1 y ∧ b.Contains y} := by
  ext q
  constructor
  · rintro ⟨p, h⟩
    obtain ⟨h1, y, hy, hb⟩ := at_new.1 h
    exact ⟨⟨p, h1⟩, y, compose_fun hX hE.fn h1.mem h1.fn hy, hb⟩
  · rintro ⟨hq, y, hy, hb⟩
    exact (C72_state_constraint hC g b).1 q hq y hy hb

/-- **C72**: a constraint on the state and the time. -/
theorem C72_state_time_constraint (hC : C.Sound) (g : Patch (m + 1) K) (b : Bounds K) :
    (∀ q ∈ E.pts, ∀ y, g.has (ext q.1 q.2.1) y → b.Contains y → q ∈ (E.newStateTimeConstraint C g b).pts) ∧
      (E.newStateTimeConstraint C g b).pts ⊆ E.pts :=
  ⟨fun _ ⟨p, h⟩ y hy hb => ⟨p, at_new.2 ⟨h, y, hC.compose h.mem (has_ext.2 ⟨h.fn, h.time⟩) hy, hb⟩⟩,
    fun _ ⟨p, h⟩ => ⟨p, (at_new.1 h).1⟩⟩

theorem C72_state_time_constraint_exact (hC : C.Sound) (hX : C.Exact) (hE : E.Fun) (g : Patch (m + 1) K) (b : Bounds K) :
    (E.newStateTimeConstraint C g b).pts = {q ∈ E.pts | ∃ y, g.has (ext q.1 q.2.1) y ∧ b.Contains y} := by
  ext q
  constructor
  · rintro ⟨p, h⟩
    obtain ⟨h1, y, hy, hb⟩ := at_new.1 h
    exact ⟨⟨p, h1⟩, y, compose_fun hX (ext_isFun hE.fn hE.time) h1.mem (has_ext.2 ⟨h1.fn, h1.time⟩) hy, hb⟩
  · rintro ⟨hq, y, hy, hb⟩
    exact (C72_state_time_constraint hC g b).1 q hq y hy hb

/-- **C72**: a bound on the time depending on the state. -/
theorem C72_state_time_bound (hC : C.Sound) (g : Patch m K) :
    (∀ q ∈ E.pts, ∀ y, g.has q.1 y → y ≤ q.2.1 → q ∈ (E.newStateTimeBound C g).pts) ∧
      (E.newStateTimeBound C g).pts ⊆ E.pts :=
  ⟨fun _ ⟨p, h⟩ _ hy hb => ⟨p, at_new.2 ⟨h, _, hC.sub (hC.compose h.mem h.fn hy) h.time, trivial, sub_nonpos.2 hb⟩⟩,
    fun _ ⟨p, h⟩ => ⟨p, (at_new.1 h).1⟩⟩

theorem C72_state_time_bound_exact (hC : C.Sound) (hX : C.Exact) (hE : E.Fun) (g : Patch m K) :
    (E.newStateTimeBound C g).pts = {q ∈ E.pts | ∃ y, g.has q.1 y ∧ y ≤ q.2.1} := by
  ext q
  constructor
  · rintro ⟨p, h⟩
    obtain ⟨h1, y, hy, -, hb⟩ := at_new.1 h
    obtain ⟨a, t, ha, ht, e⟩ := hX.sub hy
    refine ⟨⟨p, h1⟩, a, compose_fun hX hE.fn h1.mem h1.fn ha, ?_⟩
    have hb' : y ≤ 0 := hb
    rw [(hE.time p h1.mem).unique h1.time ht]
    exact sub_nonpos.1 (e ▸ hb')
  · rintro ⟨hq, y, hy, hb⟩
    exact (C72_state_time_bound hC g).1 q hq y hy hb

/-- **C72**: a constraint on the parameters. -/
theorem C72_parameter_constraint (hC : C.Sound) (hX : C.Exact) (g : Patch n K) (b : Bounds K) (p x t d) :
    (E.newParameterConstraint C g b).At p x t d ↔ E.At p x t d ∧ ∃ y, g.has p y ∧ b.Contains y := by
  refine at_new.trans ⟨?_, ?_⟩
  · rintro ⟨h1, y, hy, hb⟩
    exact ⟨h1, y, hX.create h1.mem hy, hb⟩
  · rintro ⟨h1, y, hy, hb⟩
    exact ⟨h1, y, hC.create h1.mem hy, hb⟩

theorem C72_parameter_constraint_sound (hC : C.Sound) (g : Patch n K) (b : Bounds K) (p x t d)
    (h : E.At p x t d) (y : K) (hy : g.has p y) (hb : b.Contains y) : (E.newParameterConstraint C g b).At p x t d :=
  at_new.2 ⟨h, y, hC.create h.mem hy, hb⟩

/-- **C72**: the named kinds of constraints are the sign conditions they name. -/
theorem C72_sign_constraints (g : Patch m K) (f : Patch n K) :
    E.newPositiveStateConstraint C g = E.newStateConstraint C g ⟨fin 0, .pinf⟩ ∧
    E.newNegativeStateConstraint C g = E.newStateConstraint C g ⟨.ninf, fin 0⟩ ∧
    E.newZeroStateConstraint C g = E.newStateConstraint C g (between 0 0) ∧
    E.newNegativeParameterConstraint C f = E.newParameterConstraint C f ⟨.ninf, fin 0⟩ ∧
    E.newZeroParameterConstraint C f = E.newParameterConstraint C f (between 0 0) ∧
    (∀ y : K, ((⟨fin 0, .pinf⟩ : Bounds K).Contains y ↔ 0 ≤ y) ∧ ((⟨.ninf, fin 0⟩ : Bounds K).Contains y ↔ y ≤ 0) ∧
      ((between 0 0 : Bounds K).Contains y ↔ y = 0)) := by
  refine ⟨rfl, rfl, rfl, rfl, rfl, fun y => ⟨⟨fun h => h.1, fun h => ⟨h, trivial⟩⟩, ⟨fun h => h.2, fun h => ⟨trivial, h⟩⟩, ?_⟩⟩
  rw [contains_between]
  exact ⟨fun h => le_antisymm h.2 h.1, fun h => ⟨h.ge, h.le⟩⟩

/-- **C72**: clearing the time sets time and dwell time to zero. -/
theorem C72_clear_time (hC : C.Sound) (q) (hq : q ∈ E.pts) : (q.1, 0, 0) ∈ (E.clearTime C).pts :=
  hq.imp fun _ h => ⟨h.mem, h.fn, hC.const _ h.mem, hC.const _ h.mem, h.cs⟩

theorem C72_clear_time_exact (hC : C.Sound) (hX : C.Exact) (hE : E.Fun) :
    (E.clearTime C).pts = {r | r.2 = (0, 0) ∧ ∃ q ∈ E.pts, q.1 = r.1} := by
  ext ⟨x, t, d⟩
  constructor
  · rintro ⟨p, h⟩
    have hm : Mem E.dom p := h.mem
    obtain ⟨t0, ht0, -⟩ := hE.time p hm
    obtain ⟨d0, hd0, -⟩ := hE.dwell p hm
    exact ⟨Prod.ext (hX.const hm h.time) (hX.const hm h.dwell), (x, t0, d0), ⟨p, hm, h.fn, ht0, hd0, h.cs⟩, rfl⟩
  · rintro ⟨e, q, hq, e2⟩
    simp only at e e2
    subst e2; rw [e]
    exact C72_clear_time hC q hq

/-! ## The reduced domain -/

/-- The reduced domain contains every parameter of the domain which satisfies the constraints. -/
structure Inv (R : Rounding K) (E : Encl n m K) : Prop where
  good : GoodBox R E.dom
  red : ∀ p, Mem E.dom p → Holds E.cs p → Mem E.red p

theorem Inv.mem_red (h : Inv R E) {p x t d} (hp : E.At p x t d) : Mem E.red p := h.red p hp.mem hp.cs

theorem good_ext {D : Box n K} {b : Bounds K} (hD : GoodBox R D)
    (hb : ∃ u v, b = ⟨fin u, fin v⟩ ∧ R.Rep u ∧ R.Rep v ∧ u ≤ v) : GoodBox R (ext D b) := by
  intro i
  refine Fin.addCases (fun i => ?_) (fun i => ?_) i
  · simpa using hD i
  · simpa using hb

theorem good_append {D : Box n K} {B : Box k K} (hD : GoodBox R D) (hB : GoodBox R B) : GoodBox R (Fin.append D B) := by
  intro i
  refine Fin.addCases (fun i => ?_) (fun i => ?_) i
  · simpa using hD i
  · simpa using hB i

/-- The contractors of `reduce` remove no parameter satisfying the constraints. -/
theorem hulls_sound (hC : C.Sound) (E : Encl n m K) :
    ∀ H ∈ E.hulls (.ofRounding R) C, ∀ B p, Mem B p → Holds E.cs p → Mem (H B) p := by
  intro H hH B p hB hp
  obtain ⟨c, hc, rfl⟩ := List.mem_map.1 hH
  obtain ⟨y, hy, hb⟩ := hp c hc
  exact hC.hull hB hy (over_contains hb)

/-- The parts of an enclosure which its points depend on. -/
def SameSet (E' E : Encl n m K) : Prop :=
  E'.dom = E.dom ∧ E'.fn = E.fn ∧ E'.time = E.time ∧ E'.dwell = E.dwell ∧ E'.cs = E.cs

theorem SameSet.pts {E' : Encl n m K} (h : SameSet E' E) : E'.pts = E.pts := by
  obtain ⟨h1, h2, h3, h4, h5⟩ := h
  ext q
  constructor <;> rintro ⟨p, hp⟩ <;> refine ⟨p, ?_, ?_, ?_, ?_, ?_⟩
  · exact h1 ▸ hp.mem
  · exact h2 ▸ hp.fn
  · exact h3 ▸ hp.time
  · exact h4 ▸ hp.dwell
  · exact h5 ▸ hp.cs
  · exact h1 ▸ hp.mem
  · exact h2 ▸ hp.fn
  · exact h3 ▸ hp.time
  · exact h4 ▸ hp.dwell
  · exact h5 ▸ hp.cs

theorem SameSet.trans {E1 E2 E3 : Encl n m K} (h : SameSet E1 E2) (h' : SameSet E2 E3) : SameSet E1 E3 :=
  ⟨h.1.trans h'.1, h.2.1.trans h'.2.1, h.2.2.1.trans h'.2.2.1, h.2.2.2.1.trans h'.2.2.2.1, h.2.2.2.2.trans h'.2.2.2.2⟩

/-- **C72**: `reduce` changes neither the set nor the promise about the reduced domain. -/
theorem C72_reduce (hC : C.Sound) (h : Inv R E) (E' : Encl n m K) (he : E.reduce (.ofRounding R) C = some E') :
    SameSet E' E ∧ Inv R E' := by
  simp only [Encl.reduce, Option.map_eq_some_iff] at he
  obtain ⟨r, hr, rfl⟩ := he
  refine ⟨⟨rfl, rfl, rfl, rfl, rfl⟩, h.good, fun p hp hc i => ?_⟩
  have := (C56_reduce_list (hulls_sound hC E) hr p (h.red p hp hc) hc).2
  simp only
  split_ifs
  · exact hp i
  · exact this i

theorem any_disjoint_empty (hr : ∀ p, Mem E.dom p → Holds E.cs p → Mem E.red p)
    (h : (E.cs.any fun c => disjoint (ConstraintSolver.apply c.1.ev E.red) (over (.ofRounding R) c.2)) = true)
    (p : Fin n → K) (hp : Mem E.dom p) (hc : Holds E.cs p) : False := by
  obtain ⟨c, hcs, hd⟩ := List.any_eq_true.1 h
  obtain ⟨y, hy, hb⟩ := hc c hcs
  have hm := hr p hp hc
  rw [apply_eq hm, disjoint_false (c.1.ok p y hy _ hm) (over_contains hb)] at hd
  cases hd

/-- **C72**: if `is_empty` answers true then the enclosure is empty; and whatever it answers, the set it leaves
in the enclosure is the same. -/
theorem C72_is_empty (hC : C.Sound) (h : Inv R E) (r : LV) (E' : Encl n m K)
    (he : E.isEmpty (.ofRounding R) C = some (r, E')) :
    (r = .true_ → E.pts = ∅) ∧ SameSet E' E ∧ Inv R E' := by
  simp only [Encl.isEmpty] at he
  have hred : ∀ (E0 : Encl n m K), SameSet E0 E → Inv R E0 → boxEmpty E0.red = true → E.pts = ∅ := by
    intro E0 hs h0 hb
    rw [← hs.pts]
    refine Set.eq_empty_of_forall_notMem fun q ⟨p, hp⟩ => ?_
    rw [boxEmpty_false (h0.mem_red hp)] at hb
    cases hb
  by_cases h1 : boxEmpty E.red = true
  · rw [if_pos h1] at he
    obtain ⟨rfl, rfl⟩ := Prod.mk.injEq _ _ _ _ ▸ Option.some.inj he
    exact ⟨fun _ => hred _ ⟨rfl, rfl, rfl, rfl, rfl⟩ h h1, ⟨rfl, rfl, rfl, rfl, rfl⟩, h⟩
  rw [if_neg h1] at he
  by_cases h2 : E.cs.isEmpty = true
  · rw [if_pos h2] at he
    obtain ⟨rfl, rfl⟩ := Prod.mk.injEq _ _ _ _ ▸ Option.some.inj he
    refine ⟨fun hb => Set.eq_empty_of_forall_notMem fun q ⟨p, hp⟩ => ?_, ⟨rfl, rfl, rfl, rfl, rfl⟩, h⟩
    rw [boxEmpty_false hp.mem] at hb
    cases hb
  rw [if_neg h2] at he
  obtain ⟨E0, h0, e0⟩ := Option.map_eq_some_iff.1 he
  have hE0 : SameSet E0 E ∧ Inv R E0 := by
    by_cases hf : E.full = true
    · rw [if_pos hf] at h0
      obtain rfl := Option.some.inj h0
      exact ⟨⟨rfl, rfl, rfl, rfl, rfl⟩, h⟩
    · rw [if_neg hf] at h0
      obtain ⟨E1, h1, h0⟩ := Option.bind_eq_some_iff.1 h0
      obtain ⟨E2, h2, h0⟩ := Option.bind_eq_some_iff.1 h0
      obtain ⟨s1, i1⟩ := C72_reduce hC h E1 h1
      obtain ⟨s2, i2⟩ := C72_reduce hC i1 E2 h2
      obtain ⟨s3, i3⟩ := C72_reduce hC i2 E0 h0
      exact ⟨s3.trans (s2.trans s1), i3⟩
  obtain ⟨hs, hi⟩ := hE0
  by_cases h3 : (E0.cs.any fun c => disjoint (ConstraintSolver.apply c.1.ev E0.red) (over (.ofRounding R) c.2)) = true
  · rw [if_pos h3] at e0
    obtain ⟨rfl, rfl⟩ := Prod.mk.injEq _ _ _ _ ▸ e0
    refine ⟨fun _ => ?_, hs, hi.good, fun p hp hc => (any_disjoint_empty hi.red h3 p hp hc).elim⟩
    rw [← hs.pts]
    exact Set.eq_empty_of_forall_notMem fun q ⟨p, hp⟩ => any_disjoint_empty hi.red h3 p hp.mem hp.cs
  rw [if_neg h3] at e0
  by_cases h4 : boxEmpty E0.red = true
  · rw [if_pos h4] at e0
    obtain ⟨rfl, rfl⟩ := Prod.mk.injEq _ _ _ _ ▸ e0
    exact ⟨fun _ => hred _ hs hi h4, hs, hi⟩
  · rw [if_neg h4] at e0
    obtain ⟨rfl, rfl⟩ := Prod.mk.injEq _ _ _ _ ▸ e0
    exact ⟨fun h => (by cases h), hs, hi⟩

/-- **C72**: an enclosure without constraints is never reported to be empty if it is not. -/
theorem C72_is_empty_unconstrained (X : XRounding K) (hcs : E.cs = []) (hr : boxEmpty E.red = false)
    (hd : boxEmpty E.dom = false) : E.isEmpty X C = some (.false_, E) := by
  simp [Encl.isEmpty, hcs, hr, hd, LV.ofBool]

/-- **C72**: `bounding_box` contains the states. -/
theorem C72_bounding_box (hC : C.Sound) (q) (hq : q ∈ E.pts) : Mem (E.boundingBox C) q.1 := by
  obtain ⟨p, h⟩ := hq
  exact fun i => hC.range h.mem (h.fn i)

theorem codomain_mem (hC : C.Sound) {eps : K} (h0 : 0 ≤ eps) (q) (hq : q ∈ E.pts) :
    Mem (E.codomain (.ofRounding R) C eps) q.1 := by
  intro i
  have := C72_bounding_box hC q hq i
  simp only [Encl.boundingBox] at this
  simp only [Encl.codomain]
  generalize C.range E.dom (E.fn i) = b at this
  obtain ⟨l, u⟩ := b
  obtain ⟨h1, h2⟩ := this
  constructor
  · cases l with
    | fin l =>
      have h1' : l ≤ q.1 i := h1
      exact le_trans (R.down_le _) (by linarith)
    | _ => exact h1
  · cases u with
    | fin u =>
      have h2' : q.1 i ≤ u := h2
      exact le_trans (by linarith) (R.le_up _)
    | _ => exact h2

theorem lt_sound_upper {b : Bounds K} {c y : K} (h : Ext.lt b.u (fin c) = true) (hy : b.Contains y) : y < c := by
  obtain ⟨l, u⟩ := b
  obtain ⟨-, h2⟩ := hy
  cases u with
  | fin u => exact lt_of_le_of_lt h2 (of_decide_eq_true h)
  | ninf => exact h2.elim
  | pinf => cases h
  | nan => cases h

theorem lt_sound_lower {b : Bounds K} {c y : K} (h : Ext.lt (fin c) b.l = true) (hy : b.Contains y) : c < y := by
  obtain ⟨l, u⟩ := b
  obtain ⟨h1, -⟩ := hy
  cases l with
  | fin l => exact lt_of_lt_of_le (of_decide_eq_true h) h1
  | pinf => exact h1.elim
  | ninf => cases h
  | nan => cases h

/-- **C72**: `satisfies(function)`: true if the function is positive on the enclosure, false if it is negative. -/
theorem C72_satisfies_function (hC : C.Sound) {eps : K} (h0 : 0 ≤ eps) (g : Patch m K) (q) (hq : q ∈ E.pts) (y : K)
    (hy : g.has q.1 y) :
    (E.satisfiesFn (.ofRounding R) C eps g = .true_ → 0 < y) ∧
      (E.satisfiesFn (.ofRounding R) C eps g = .false_ → y < 0) := by
  have hm := codomain_mem (R := R) hC h0 q hq
  simp only [Encl.satisfiesFn, apply_eq hm]
  have hb := g.ok _ _ hy _ hm
  split_ifs with h1 h2
  · exact ⟨fun h => (by cases h), fun _ => lt_sound_upper h1 hb⟩
  · exact ⟨fun _ => lt_sound_lower h2 hb, fun h => (by cases h)⟩
  · exact ⟨fun h => (by cases h), fun h => (by cases h)⟩

theorem inv_new (h : Inv R E) {f : Patch n K} {b : Bounds K} {u : Bool} :
    Inv R ({ E with full := u, cs := E.cs ++ [(f, b)] } : Encl n m K) :=
  ⟨h.good, fun p hp hc => h.red p hp (holds_append.1 hc).1⟩

/-- **C72**: `satisfies(constraint)`: false if no point of the enclosure satisfies the constraint; it never
answers true. -/
theorem C72_satisfies (hC : C.Sound) (h : Inv R E) (g : Patch m K) (b : Bounds K) (r : LV)
    (hr : E.satisfies (.ofRounding R) C g b = some r) :
    (r = .false_ → ∀ q ∈ E.pts, ∀ y, g.has q.1 y → ¬b.Contains y) ∧ (r = .false_ ∨ r = .indeterminate) := by
  simp only [Encl.satisfies, Option.map_eq_some_iff] at hr
  obtain ⟨⟨v, E'⟩, h1, rfl⟩ := hr
  have := (C72_is_empty hC (inv_new h) v E' h1).1
  cases v <;> simp [LV.definitely] at this ⊢
  intro x t d hq y hy hb
  have hm := (C72_state_constraint hC g b).1 _ hq y hy hb
  simp only [Encl.newStateConstraint] at hm
  rw [this] at hm
  exact hm.elim

theorem image_subset (h : Inv R E) {bx : Box m K} (hs : E.imageSubset bx = true) (q) (hq : q ∈ E.pts) :
    Mem bx q.1 := by
  obtain ⟨p, hp⟩ := hq
  intro i
  have h1 : subsetIvl (ConstraintSolver.apply (E.fn i).ev E.red) (bx i) = true := by
    simp only [Encl.imageSubset, List.all_eq_true, List.mem_finRange, true_implies] at hs
    exact hs i
  have hm := h.mem_red hp
  rw [apply_eq hm] at h1
  exact subsetIvl_sound h1 ((E.fn i).ok p _ (hp.fn i) _ hm)

/-- **C72**: if `inside` answers true then every state is in the box. -/
theorem C72_inside (h : Inv R E) (bx : Box m K) (hs : E.inside bx = true) (q) (hq : q ∈ E.pts) : Mem bx q.1 :=
  image_subset h hs q hq

/-- **C72**: if `subset` answers true then every state is in the box. -/
theorem C72_subset (hC : C.Sound) (h : Inv R E) (bx : Box m K) (r : Bool) (E' : Encl n m K)
    (hs : E.subset (.ofRounding R) C bx = some (r, E')) :
    (r = true → ∀ q ∈ E.pts, Mem bx q.1) ∧ SameSet E' E ∧ Inv R E' := by
  simp only [Encl.subset, Option.map_eq_some_iff] at hs
  obtain ⟨E0, h0, e⟩ := hs
  obtain ⟨rfl, rfl⟩ := Prod.mk.injEq _ _ _ _ ▸ e
  obtain ⟨hs, hi⟩ := C72_reduce hC h E0 h0
  exact ⟨fun hr q hq => image_subset hi hr q (hs.pts ▸ hq), hs, hi⟩

theorem not_true {v : LV} (h : LV.not_ v = .true_) : v = .false_ := by
  cases v <;> first | rfl | cases h

/-- **C72**: if `separated` answers true then no state is in the box. -/
theorem C72_separated (hC : C.Sound) (h : Inv R E) (bx : Box m K) (r : LV) (E' : Encl n m K)
    (hs : E.separated (.ofRounding R) C bx = some (r, E')) :
    (r = .true_ → ∀ q ∈ E.pts, ¬Mem bx q.1) ∧ SameSet E' E ∧ Inv R E' := by
  simp only [Encl.separated] at hs
  obtain ⟨s, hs1, hs2⟩ := Option.bind_eq_some_iff.1 hs
  have hred : ∀ p, Mem E.dom p → Holds E.cs p → Mem s.2 p := fun p hp hc =>
    (C56_reduce_list (hulls_sound hC E) hs1 p (h.red p hp hc) hc).2
  have hi : Inv R { E with red := s.2 } := ⟨h.good, hred⟩
  by_cases h1 : boxEmpty s.2 = true
  · rw [if_pos h1] at hs2
    obtain ⟨rfl, rfl⟩ := Prod.mk.injEq _ _ _ _ ▸ Option.some.inj hs2
    refine ⟨fun _ q ⟨p, hp⟩ => ?_, ⟨rfl, rfl, rfl, rfl, rfl⟩, hi⟩
    rw [boxEmpty_false (hred p hp.mem hp.cs)] at h1
    cases h1
  rw [if_neg h1] at hs2
  obtain ⟨v, hv, e⟩ := Option.map_eq_some_iff.1 hs2
  obtain ⟨rfl, rfl⟩ := Prod.mk.injEq _ _ _ _ ▸ e
  refine ⟨fun hr q ⟨p, hp⟩ hbx => ?_, ⟨rfl, rfl, rfl, rfl, rfl⟩, hi⟩
  have hf := not_true hr
  have hm := hred p hp.mem hp.cs
  simp only [feasibleList] at hv
  by_cases hl : (E.stateConstraints bx).length = 0
  · rw [if_pos hl, boxEmpty_false hm] at hv
    obtain rfl := Option.some.inj hv
    cases hf
  rw [if_neg hl] at hv
  obtain ⟨w, hw, rfl⟩ := Option.map_eq_some_iff.1 hv
  have hfuel : C.fuel ≠ 0 := by
    intro h0
    rw [h0, feasible] at hw
    cases hw
  obtain ⟨fu, hfu⟩ := Nat.exists_eq_succ_of_ne_zero hfuel
  rw [hfu] at hw
  obtain ⟨w', hw', h2, -⟩ := C56_feasible_actual (.ofRounding R) (txg := fun _ _ _ => ⟨.ninf, .pinf⟩)
    (H := fun _ _ B => B) (F := fun j => ((E.stateConstraints bx).get j).1.ev)
    (c := fun j => over (.ofRounding R) ((E.stateConstraints bx).get j).2) hl fu s.2
  have ew : w = w' := Option.some.inj (hw.symm.trans hw')
  subst ew
  obtain ⟨j, hj⟩ := h2.1 hf
  obtain ⟨y, hy, hb⟩ : ∃ y, ((E.stateConstraints bx).get j).1.has p y ∧ ((E.stateConstraints bx).get j).2.Contains y := by
    have hmem := List.get_mem (E.stateConstraints bx) j
    generalize (E.stateConstraints bx).get j = c at hmem
    simp only [Encl.stateConstraints, List.mem_append, List.mem_flatMap, List.mem_finRange, true_and] at hmem
    rcases hmem with hmem | ⟨i, hmem⟩
    · exact hp.cs c hmem
    · rcases List.mem_cons.1 hmem with rfl | hmem
      · exact ⟨q.1 i, hp.fn i, (hbx i).1, trivial⟩
      · obtain rfl := List.mem_singleton.1 hmem
        exact ⟨q.1 i, hp.fn i, trivial, (hbx i).2⟩
  rw [apply_eq hm, disjoint_false (((E.stateConstraints bx).get j).1.ok p y hy _ hm) (over_contains hb)] at hj
  cases hj

/-! ## Splitting and restriction -/

theorem at_piece (hC : C.Sound) {u : Bool} {d : Box n K} {p x t s} (h : E.At p x t s) (hd : Mem d p) :
    (E.piece C u d).At p x t s :=
  ⟨hd, fun i => hC.create hd (hC.restrict hd (h.fn i)), hC.restrict hd h.time, hC.restrict hd h.dwell,
    holds_map (fun _ _ hf => hC.restrict hd hf) h.cs⟩

theorem at_piece_exact (hX : C.Exact) {u : Bool} {d : Box n K} (hd : ∀ p, Mem d p → Mem E.dom p) {p x t s}
    (h : (E.piece C u d).At p x t s) : E.At p x t s :=
  have hm : Mem d p := h.mem
  ⟨hd p hm, fun i => hX.restrict hm (hX.create hm (h.fn i)), hX.restrict hm h.time, hX.restrict hm h.dwell,
    holds_of_map (fun _ _ hf => hX.restrict hm hf) h.cs⟩

/-- **C72**: the two parts of an enclosure together contain its points. -/
theorem C72_split_at (hC : C.Sound) (h : GoodBox R E.dom) (u : Bool) (j : Fin n) :
    E.pts ⊆ (E.splitAt (.ofRounding R) C u j).1.pts ∪ (E.splitAt (.ofRounding R) C u j).2.pts := by
  rintro q ⟨p, hp⟩
  rcases ((C56_split_at h j).2.2 p).1 hp.mem with h1 | h1
  · exact Or.inl ⟨p, at_piece hC hp h1⟩
  · exact Or.inr ⟨p, at_piece hC hp h1⟩

theorem C72_split_at_exact (hC : C.Sound) (hX : C.Exact) (h : GoodBox R E.dom) (u : Bool) (j : Fin n) :
    (E.splitAt (.ofRounding R) C u j).1.pts ∪ (E.splitAt (.ofRounding R) C u j).2.pts = E.pts := by
  refine Set.Subset.antisymm ?_ (C72_split_at hC h u j)
  rintro q (⟨p, hp⟩ | ⟨p, hp⟩)
  · exact ⟨p, at_piece_exact hX (fun p hp => ((C56_split_at h j).2.2 p).2 (Or.inl hp)) hp⟩
  · exact ⟨p, at_piece_exact hX (fun p hp => ((C56_split_at h j).2.2 p).2 (Or.inr hp)) hp⟩

/-- **C72**: `split` without an index, when it succeeds. -/
theorem C72_split (hC : C.Sound) (h : GoodBox R E.dom) (up : K → K) (rad : Bounds K → K) (u : Bool) (P)
    (hs : E.split (.ofRounding R) C up rad u = some P) : E.pts ⊆ P.1.pts ∪ P.2.pts := by
  simp only [Encl.split, Option.map_eq_some_iff] at hs
  obtain ⟨j, -, rfl⟩ := hs
  exact C72_split_at hC h u j

theorem splitting_none (up : K → K) (rad : Bounds K → K) (E : Encl n m K) (l : List (Fin n))
    (h : ∀ j ∈ l, E.columnNorm C up rad j ≤ 0) :
    l.foldl (fun (r : Option (Fin n) × K) j =>
      if r.2 < E.columnNorm C up rad j then (some j, E.columnNorm C up rad j) else r) (none, 0) = (none, 0) := by
  induction l with
  | nil => rfl
  | cons j l ih =>
    rw [List.foldl_cons, if_neg (not_lt.2 (h j (by simp)))]
    exact ih fun j hj => h j (List.mem_cons_of_mem _ hj)

/-- **C72, negative**: `split` fails if no parameter has an influence on the state, for example on a set with
one state. -/
theorem C72_split_fails (X : XRounding K) (up : K → K) (rad : Bounds K → K) (u : Bool)
    (h : ∀ j, E.columnNorm C up rad j ≤ 0) : E.split X C up rad u = none := by
  simp [Encl.split, Encl.splittingIndex, splitting_none up rad E _ fun j _ => h j]

/-- The fold of `splittingIndex` returns a column of greatest norm. -/
theorem splitting_fold (up : K → K) (rad : Bounds K → K) (E : Encl n m K) (l : List (Fin n)) (r : Option (Fin n) × K) :
    let s := l.foldl (fun (r : Option (Fin n) × K) j =>
      if r.2 < E.columnNorm C up rad j then (some j, E.columnNorm C up rad j) else r) r
    (∀ j ∈ l, E.columnNorm C up rad j ≤ s.2) ∧ r.2 ≤ s.2 ∧
      (s = r ∨ ∃ j ∈ l, s.1 = some j ∧ s.2 = E.columnNorm C up rad j) := by
  induction l generalizing r with
  | nil => exact ⟨by simp, le_rfl, Or.inl rfl⟩
  | cons j l ih =>
    simp only [List.foldl_cons]
    by_cases hj : r.2 < E.columnNorm C up rad j
    · rw [if_pos hj]
      obtain ⟨h1, h2, h3⟩ := ih (some j, E.columnNorm C up rad j)
      refine ⟨fun i hi => ?_, hj.le.trans h2, Or.inr ?_⟩
      · rcases List.mem_cons.1 hi with rfl | hi
        · exact h2
        · exact h1 i hi
      · rcases h3 with h3 | ⟨i, hi, h3⟩
        · exact ⟨j, by simp, by rw [h3], by rw [h3]⟩
        · exact ⟨i, List.mem_cons_of_mem _ hi, h3⟩
    · rw [if_neg hj]
      obtain ⟨h1, h2, h3⟩ := ih r
      refine ⟨fun i hi => ?_, h2, h3.imp_right fun ⟨i, hi, h⟩ => ⟨i, List.mem_cons_of_mem _ hi, h⟩⟩
      rcases List.mem_cons.1 hi with rfl | hi
      · exact (not_lt.1 hj).trans h2
      · exact h1 i hi

/-- **C72**: `split` succeeds if some parameter has an influence, and chooses one with greatest influence. -/
theorem C72_splitting_index (up : K → K) (rad : Bounds K → K) (h : ∃ j, 0 < E.columnNorm C up rad j) :
    ∃ j, E.splittingIndex C up rad = some j ∧ ∀ i, E.columnNorm C up rad i ≤ E.columnNorm C up rad j := by
  obtain ⟨i, hi⟩ := h
  obtain ⟨h1, h2, h3⟩ := splitting_fold (C := C) up rad E (List.finRange n) (none, 0)
  rcases h3 with h3 | ⟨j, -, h3, h4⟩
  · have := h1 i (List.mem_finRange i)
    rw [h3] at this
    exact absurd hi (not_lt.2 this)
  · exact ⟨j, h3, fun i => h4 ▸ h1 i (List.mem_finRange i)⟩

/-- **C72**: restricting the parameters keeps the points given by parameters of the subdomain.  The promise about
the reduced domain is kept if restriction adds no values: the reduced domain of the whole enclosure is used for
the restricted constraints. -/
theorem C72_restrict (hC : C.Sound) (h : Inv R E) (d : Box n K) (hd : GoodBox R d) (E' : Encl n m K)
    (he : E.restrict (.ofRounding R) C d = some E') :
    (∀ p x t s, E.At p x t s → Mem d p → E'.At p x t s) ∧
      (C.Exact → (∀ p x t s, E'.At p x t s → E.At p x t s ∧ Mem d p) ∧ Inv R E') := by
  simp only [Encl.restrict] at he
  split_ifs at he with hs
  have hsub : ∀ p, Mem d p → Mem E.dom p := by
    intro p hp i
    simp only [List.all_eq_true, List.mem_finRange, true_implies] at hs
    exact subsetIvl_sound (hs i) (hp i)
  simp only [Encl.reduce, Option.map_eq_some_iff] at he
  obtain ⟨r, hr, rfl⟩ := he
  refine ⟨fun p x t s hp hpd => ⟨hpd, fun i => hC.restrict hpd (hp.fn i), hC.restrict hpd hp.time,
    hC.restrict hpd hp.dwell, holds_map (fun _ _ hf => hC.restrict hpd hf) hp.cs⟩, fun hX => ⟨fun p x t s hp => ?_, hd, ?_⟩⟩
  · have hm : Mem d p := hp.mem
    exact ⟨⟨hsub p hm, fun i => hX.restrict hm (hp.fn i), hX.restrict hm hp.time, hX.restrict hm hp.dwell,
      holds_of_map (fun _ _ hf => hX.restrict hm hf) hp.cs⟩, hm⟩
  · intro p hp hc i
    have hm : Mem d p := hp
    have h1 : Holds E.cs p := holds_of_map (fun _ _ hf => hX.restrict hm hf) hc
    have := (C56_reduce_list (hulls_sound hC _) hr p (mem_interBox (h.red p (hsub p hm) h1) hm) hc).2
    simp only
    split_ifs
    · exact hp i
    · exact this i

/-! ## Reconditioning -/

theorem at_error_recondition (hC : C.Sound) (l : List (Fin m)) {p x t d} (h : E.At p x t d) :
    ∃ s : Fin l.length → K, Mem (fun _ => between (-1) 1) s ∧ (E.errorRecondition C l).At (Fin.append p s) x t d := by
  have hex : ∀ i : Fin m, ∃ c : K, |c| ≤ 1 ∧ ∃ y, (C.clobber (E.fn i)).has p y ∧ x i = y + c * C.error (E.fn i) := by
    intro i
    obtain ⟨y, hy, hb⟩ := hC.clobber (h.fn i)
    by_cases h0 : C.error (E.fn i) = 0
    · refine ⟨0, by simp, y, hy, ?_⟩
      rw [h0] at hb ⊢
      have := abs_nonpos_iff.1 hb
      linarith
    · have hpos : 0 < C.error (E.fn i) := lt_of_le_of_ne ((abs_nonneg _).trans hb) (Ne.symm h0)
      refine ⟨(x i - y) / C.error (E.fn i), ?_, y, hy, ?_⟩
      · rw [abs_div, abs_of_pos hpos]
        exact (div_le_one hpos).2 hb
      · rw [div_mul_cancel₀ _ h0]
        ring
  choose c hc y hy e using hex
  let s : Fin l.length → K := fun j => c (l.get j)
  have hs : Mem (fun _ : Fin l.length => between (-1) 1) s := fun j => contains_between.2 (abs_le.1 (hc _))
  have hm : Mem (Fin.append E.dom fun _ : Fin l.length => between (-1) 1) (Fin.append p s) := mem_append.2 ⟨h.mem, hs⟩
  refine ⟨s, hs, hm, fun i => ?_, hC.embed s h.time, hC.embed s h.dwell,
    holds_map (fun _ _ hf => hC.embed s hf) h.cs⟩
  simp only [Encl.errorRecondition]
  split_ifs with hi
  · rw [e i]
    refine hC.add (hC.clobber_embed s (hy i)) (hC.scale ?_)
    have := hC.coord (Fin.natAdd n ⟨l.idxOf i, List.idxOf_lt_length_of_mem hi⟩) hm
    rw [Fin.append_right] at this
    have e2 : s ⟨l.idxOf i, List.idxOf_lt_length_of_mem hi⟩ = c i := by
      simp only [s, List.get_eq_getElem, List.getElem_idxOf]
    rwa [e2] at this
  · exact hC.embed s (h.fn i)

/-- **C72**: replacing the uniform errors of some components by new parameters keeps all points. -/
theorem C72_error_recondition (hC : C.Sound) (l : List (Fin m)) : E.pts ⊆ (E.errorRecondition C l).pts := by
  rintro q ⟨p, h⟩
  obtain ⟨s, -, hs⟩ := at_error_recondition hC l h
  exact ⟨_, hs⟩

theorem C72_error_recondition_exact (hC : C.Sound) (hX : C.Exact) (l : List (Fin m)) (h0 : ∀ i, 0 ≤ C.error (E.fn i)) :
    (E.errorRecondition C l).pts = E.pts := by
  refine Set.Subset.antisymm ?_ (C72_error_recondition hC l)
  rintro q ⟨r, h⟩
  obtain ⟨p, s, rfl⟩ := append_cases r
  have hm := mem_append.1 h.mem
  refine ⟨p, hm.1, fun i => ?_, hC.embed_inv h.time, hC.embed_inv h.dwell, holds_of_map (fun _ _ hf => hC.embed_inv hf) h.cs⟩
  have hf := h.fn i
  simp only [Encl.errorRecondition] at hf
  split_ifs at hf with hi
  · obtain ⟨a, b, ha, hb, e⟩ := hX.add hf
    obtain ⟨c, hc, e2⟩ := hX.scale hb
    have e3 := hX.coord h.mem hc
    rw [Fin.append_right] at e3
    have h1 : |c| ≤ 1 := by
      rw [e3]
      exact abs_le.2 (contains_between.1 (hm.2 _))
    have h2 : (C.embed l.length (E.fn i)).has (Fin.append p s) (q.1 i) := by
      refine hX.clobber ha ?_
      rw [hC.error_embed, e, e2, add_sub_cancel_left, abs_mul, abs_of_nonneg (h0 i)]
      exact mul_le_of_le_one_left (h0 i) h1
    exact hC.embed_inv h2
  · exact hC.embed_inv hf

/-- **C72**: `uniform_error_recondition` keeps all points; every component whose error was large is replaced. -/
theorem C72_uniform_error_recondition (hC : C.Sound) (ε : K) : E.pts ⊆ (E.uniformErrorRecondition C ε).2.pts :=
  C72_error_recondition hC _

theorem C72_large_errors (ε : K) (i : Fin m) : i ∈ E.largeErrors C ε ↔ ε < C.error (E.fn i) := by
  simp [Encl.largeErrors]

/-! ## Products -/

/-- **C72**: the product with a box. -/
theorem C72_prod_box (hC : C.Sound) (u : Bool) (bx : Box k K) (q) (hq : q ∈ E.pts) (y : Fin k → K) (hy : Mem bx y) :
    (Fin.append q.1 y, q.2) ∈ (E.prodBox C u bx).pts := by
  obtain ⟨p, h⟩ := hq
  have hm : Mem (Fin.append E.dom bx) (Fin.append p y) := mem_append.2 ⟨h.mem, hy⟩
  refine ⟨_, hm, fun i => hC.create hm ?_, hC.embed _ h.time, hC.embed _ h.dwell, holds_map (fun _ _ hf => hC.embed _ hf) h.cs⟩
  refine has_append.2 ⟨fun i => hC.embed _ (h.fn i), fun j => ?_⟩ i
  simpa using hC.coord (Fin.natAdd n j) hm

theorem C72_prod_box_exact (hC : C.Sound) (hX : C.Exact) (u : Bool) (bx : Box k K) :
    (E.prodBox C u bx).pts = {r | ∃ q ∈ E.pts, ∃ y, Mem bx y ∧ r = (Fin.append q.1 y, q.2)} := by
  ext ⟨z, t, d⟩
  constructor
  · rintro ⟨r, h⟩
    obtain ⟨p, y, rfl⟩ := append_cases r
    obtain ⟨x, y', rfl⟩ := append_cases z
    obtain ⟨h1, h2⟩ := mem_append.1 h.mem
    obtain ⟨h3, h4⟩ := has_append.1 fun i => hX.create h.mem (h.fn i)
    have : y' = y := funext fun j => by simpa using hX.coord h.mem (h4 j)
    exact ⟨(x, t, d), ⟨p, h1, fun i => hC.embed_inv (h3 i), hC.embed_inv h.time, hC.embed_inv h.dwell,
      holds_of_map (fun _ _ hf => hC.embed_inv hf) h.cs⟩, y, h2, by rw [this]⟩
  · rintro ⟨q, hq, y, hy, e⟩
    rw [e]
    exact C72_prod_box hC u bx q hq y hy

/-- **C72**: the product of two enclosures has the times of the first. -/
theorem C72_prod {n₂ m₂ : ℕ} {E₂ : Encl n₂ m₂ K} (hC : C.Sound) (u : Bool) (P) (hP : E.prod C u E₂ = some P)
    (q) (hq : q ∈ E.pts) (q') (hq' : q' ∈ E₂.pts) : (Fin.append q.1 q'.1, q.2) ∈ P.pts := by
  simp only [Encl.prod] at hP
  split_ifs at hP
  obtain rfl := Option.some.inj hP
  obtain ⟨p, h⟩ := hq
  obtain ⟨p', h'⟩ := hq'
  have hm : Mem (Fin.append E.dom E₂.dom) (Fin.append p p') := mem_append.2 ⟨h.mem, h'.mem⟩
  exact ⟨_, hm, fun i => hC.create hm
      (has_append.2 ⟨fun i => hC.embed _ (h.fn i), fun j => hC.embedLeft _ (h'.fn j)⟩ i),
    hC.embed _ h.time, hC.embed _ h.dwell,
    holds_append.2 ⟨holds_map (fun _ _ hf => hC.embed _ hf) h.cs, holds_map (fun _ _ hf => hC.embedLeft _ hf) h'.cs⟩⟩

theorem C72_prod_exact {n₂ m₂ : ℕ} {E₂ : Encl n₂ m₂ K} (hC : C.Sound) (hX : C.Exact) (hE : E₂.Fun) (u : Bool) (P)
    (hP : E.prod C u E₂ = some P) :
    P.pts = {r | ∃ q ∈ E.pts, ∃ q' ∈ E₂.pts, r = (Fin.append q.1 q'.1, q.2)} := by
  ext ⟨z, t, d⟩
  constructor
  · simp only [Encl.prod] at hP
    split_ifs at hP
    obtain rfl := Option.some.inj hP
    rintro ⟨r, h⟩
    obtain ⟨p, p', rfl⟩ := append_cases r
    obtain ⟨x, y, rfl⟩ := append_cases z
    obtain ⟨h1, h2⟩ := mem_append.1 h.mem
    obtain ⟨h3, h4⟩ := has_append.1 fun i => hX.create h.mem (h.fn i)
    obtain ⟨h5, h6⟩ := holds_append.1 h.cs
    obtain ⟨t', ht', -⟩ := hE.time p' h2
    obtain ⟨d', hd', -⟩ := hE.dwell p' h2
    exact ⟨(x, t, d), ⟨p, h1, fun i => hC.embed_inv (h3 i), hC.embed_inv h.time, hC.embed_inv h.dwell,
      holds_of_map (fun _ _ hf => hC.embed_inv hf) h5⟩, (y, t', d'), ⟨p', h2, fun i => hC.embedLeft_inv (h4 i), ht', hd',
      holds_of_map (fun _ _ hf => hC.embedLeft_inv hf) h6⟩, rfl⟩
  · rintro ⟨q, hq, q', hq', e⟩
    rw [e]
    exact C72_prod hC u P hP q hq q' hq'

/-! ## All enclosures -/

/-- The enclosures made by the operations. -/
inductive Made (R : Rounding K) (C : Calc K) : ∀ {n m : ℕ}, Encl n m K → Prop
  | box {n : ℕ} (d : Box n K) (hd : GoodBox R d) : Made R C (ofBox C d)
  | set {n : ℕ} (d : Box n K) (hd : GoodBox R d) (e cs) : Made R C (ofSet C d e cs)
  | stateTimeBound {n m : ℕ} {E : Encl n m K} (h : Made R C E) (g) : Made R C (E.newStateTimeBound C g)
  | state {n m : ℕ} {E : Encl n m K} (h : Made R C E) (g b) : Made R C (E.newStateConstraint C g b)
  | stateTime {n m : ℕ} {E : Encl n m K} (h : Made R C E) (g b) : Made R C (E.newStateTimeConstraint C g b)
  | parameter {n m : ℕ} {E : Encl n m K} (h : Made R C E) (g b) : Made R C (E.newParameterConstraint C g b)
  | clear {n m : ℕ} {E : Encl n m K} (h : Made R C E) : Made R C (E.clearTime C)
  | map {n m k : ℕ} {E : Encl n m K} (h : Made R C E) (f : Fin k → Patch m K) : Made R C (E.applyMap C f)
  | mapStep {n m : ℕ} {E : Encl n m K} (h : Made R C E) (f) : Made R C (E.applyMapStep C f)
  | fixed {n m : ℕ} {E : Encl n m K} (h : Made R C E) (u φ s) : Made R C (E.applyFixedEvolveStep C u φ s)
  | space {n m : ℕ} {E : Encl n m K} (h : Made R C E) (φ τ) : Made R C (E.applySpaceEvolveStep C φ τ)
  | spacetime {n m : ℕ} {E : Encl n m K} (h : Made R C E) (φ τ) : Made R C (E.applySpacetimeEvolveStep C φ τ)
  | parameterEvolve {n m : ℕ} {E : Encl n m K} (h : Made R C E) (φ τ) : Made R C (E.applyParameterEvolveStep C φ τ)
  | finishing {n m : ℕ} {E : Encl n m K} (h : Made R C E) (φ ω) :
      Made R C (E.applyFinishingParameterEvolveStep C φ ω)
  | reach {n m : ℕ} {E : Encl n m K} (h : Made R C E) (φ : Flow m K) (hφ : R.Rep φ.h) (h0 : 0 ≤ φ.h) (elps) :
      Made R C (E.applyParameterReachStep C φ elps)
  | reduce {n m : ℕ} {E E' : Encl n m K} (h : Made R C E) (he : E.reduce (.ofRounding R) C = some E') : Made R C E'
  | tested {n m : ℕ} {E E' : Encl n m K} (h : Made R C E) (r) (he : E.isEmpty (.ofRounding R) C = some (r, E')) : Made R C E'
  | separated {n m : ℕ} {E E' : Encl n m K} (h : Made R C E) (bx r)
      (he : E.separated (.ofRounding R) C bx = some (r, E')) : Made R C E'
  | part {n m : ℕ} {E : Encl n m K} (h : Made R C E) (u) (d : Box n K) (hd : GoodBox R d) : Made R C (E.piece C u d)
  | recondition {n m : ℕ} {E : Encl n m K} (h : Made R C E) (l) : Made R C (E.errorRecondition C l)
  | prodBox {n m k : ℕ} {E : Encl n m K} (h : Made R C E) (u) (bx : Box k K) (hb : GoodBox R bx) :
      Made R C (E.prodBox C u bx)
  | prod {n m n₂ m₂ : ℕ} {E : Encl n m K} {E₂ : Encl n₂ m₂ K} (h : Made R C E) (h₂ : Made R C E₂) (u P)
      (he : E.prod C u E₂ = some P) : Made R C P

/-- **C72**: in every enclosure made by these operations the reduced domain contains every parameter which gives a
point of the set, and the domain is a box which can be split. -/
theorem C72_made (hC : C.Sound) {n m : ℕ} {E : Encl n m K} (h : Made R C E) : Inv R E := by
  induction h with
  | box d hd => exact ⟨hd, fun p hp _ => hp⟩
  | set d hd e cs => exact ⟨hd, fun p hp _ => hp⟩
  | stateTimeBound _ g ih => exact inv_new ih
  | state _ g b ih => exact inv_new ih
  | stateTime _ g b ih => exact inv_new ih
  | parameter _ g b ih => exact inv_new ih
  | clear _ ih => exact ⟨ih.good, ih.red⟩
  | map _ f ih => exact ⟨ih.good, ih.red⟩
  | mapStep _ f ih => exact ⟨ih.good, ih.red⟩
  | fixed _ u φ s ih => exact ⟨ih.good, ih.red⟩
  | space _ φ τ ih => exact ⟨ih.good, ih.red⟩
  | spacetime _ φ τ ih => exact ⟨ih.good, ih.red⟩
  | parameterEvolve _ φ τ ih => exact ⟨ih.good, ih.red⟩
  | finishing _ φ ω ih => exact ⟨ih.good, ih.red⟩
  | @reach n m E _ φ hφ h0 elps ih =>
    have hg : GoodBox R (ext E.dom (between 0 φ.h)) := good_ext ih.good ⟨0, φ.h, rfl, R.rep_zero, hφ, h0⟩
    have hr : ∀ p, Mem (ext E.dom (between 0 φ.h)) p → Holds (E.cs.map fun c => (C.embed 1 c.1, c.2)) p →
        Mem (ext E.red (between 0 φ.h)) p := by
      intro r hr hc
      obtain ⟨p, t, rfl⟩ := ext_cases r
      obtain ⟨h2, h3⟩ := mem_ext.1 hr
      exact mem_ext.2 ⟨ih.red p h2 (holds_of_map (fun _ _ hf => hC.embed_inv hf) hc), h3⟩
    simp only [Encl.applyParameterReachStep]
    split_ifs
    · exact ⟨hg, fun p hp hc => hr p hp (holds_append.1 hc).1⟩
    · exact ⟨hg, hr⟩
  | reduce _ he ih => exact (C72_reduce hC ih _ he).2
  | tested _ r he ih => exact (C72_is_empty hC ih r _ he).2.2
  | separated _ bx r he ih => exact (C72_separated hC ih bx r _ he).2.2
  | part _ u d hd ih => exact ⟨hd, fun p hp _ => hp⟩
  | @recondition n m E _ l ih =>
    have hb : GoodBox R fun _ : Fin l.length => (between (-1) 1 : Bounds K) := fun _ =>
      ⟨-1, 1, rfl, R.rep_neg 1 R.rep_one, R.rep_one, by linarith [one_pos (α := K)]⟩
    refine ⟨good_append ih.good hb, ?_⟩
    intro r hr hc
    obtain ⟨p, t, rfl⟩ := append_cases r
    obtain ⟨h2, h3⟩ := mem_append.1 hr
    exact mem_append.2 ⟨ih.red p h2 (holds_of_map (fun _ _ hf => hC.embed_inv hf) hc), h3⟩
  | prodBox _ u bx hb ih => exact ⟨good_append ih.good hb, fun p hp _ => hp⟩
  | prod _ _ u P he ih ih₂ =>
    simp only [Encl.prod] at he
    split_ifs at he
    obtain rfl := Option.some.inj he
    exact ⟨good_append ih.good ih₂.good, fun p hp _ => hp⟩

end Verif.Enclosure
