import Verif.FunctionSet.Props

/-!
# C69: sets given as the image of a box under constraints

Specification: `VSet.pts` and `ISet.pts` are the images of the points of the domain which satisfy the
constraints, in exact arithmetic.  The reduced domain does not appear.
-/

namespace Verif.FunctionSet

open Ariadne Ariadne.Logical Verif.ConstraintSolver
open Ariadne.Ext (fin)

variable {n m k : ℕ} {K : Type*} [Field K] [LinearOrder K] [IsStrictOrderedRing K]

/-- The value of a vector function. -/
def vval (f : Fin m → Func n K) (p : Fin n → K) : Fin m → K := fun i => (f i).val p

/-- The points of a validated constrained image set. -/
def VSet.pts (s : VSet n m K) : Set (Fin m → K) := {y | ∃ p, Mem s.dom p ∧ Sat s.cs p ∧ vval s.fn p = y}

/-- The points of a constrained image set. -/
def ISet.pts (s : ISet n m K) : Set (Fin m → K) := {y | ∃ p, Mem s.dom p ∧ Sat s.cs p ∧ vval s.fn p = y}

variable {R : Rounding K} {T : Tools n K}

theorem compose_ok {h : Func m K} {f : Fin m → Func n K} (hh : h.Ok) (hf : ∀ i, (f i).Ok) :
    (compose h f).Ok := fun p B hB => hh _ _ fun i => hf i p B hB

/-! ## The invariant of validated sets -/

/-- What holds of the sets a program can make: the functions are enclosed by their evaluations, the
domain is bounded or empty, and the reduced domain still contains every point of the domain which satisfies the
constraints. -/
structure Inv (R : Rounding K) (s : VSet n m K) : Prop where
  fnOk : ∀ i, (s.fn i).Ok
  csOk : ∀ c ∈ s.cs, c.fn.Ok
  dom : RepBox R s.dom ∨ boxEmpty s.dom = true
  keep : ∀ p, Mem s.dom p → Sat s.cs p → Mem s.red p
  red : RepBox R s.red ∨ boxEmpty s.red = true

/-- The sets that can be made from bounded boxes and functions by the operations of the class, where a
set is split only if its domain is not empty. -/
inductive Made (R : Rounding K) (T : Tools n K) : ∀ {m : ℕ}, VSet n m K → Prop
  | make {m : ℕ} {d : Box n K} {f : Fin m → Func n K} {cs : List (Constr n K)} :
      RepBox R d → (∀ i, (f i).Ok) → (∀ c ∈ cs, c.fn.Ok) → Made R T (VSet.make d f cs)
  | apply {m k : ℕ} {s : VSet n m K} {h : Fin k → Func m K} : Made R T s → (∀ i, (h i).Ok) → Made R T (s.apply h)
  | param {m : ℕ} {s : VSet n m K} {c : Constr n K} : Made R T s → c.fn.Ok → Made R T (s.newParameterConstraint c)
  | space {m : ℕ} {s : VSet n m K} {c : Constr m K} : Made R T s → c.fn.Ok → Made R T (s.newSpaceConstraint c)
  | reduce {m : ℕ} {s s' : VSet n m K} : Made R T s → s.reduce (.ofRounding R) T = some s' → Made R T s'
  | first {m : ℕ} {s : VSet n m K} {j : Fin n} : Made R T s → GoodBox R s.dom → Made R T (s.splitAt (.ofRounding R) j).1
  | second {m : ℕ} {s : VSet n m K} {j : Fin n} : Made R T s → GoodBox R s.dom → Made R T (s.splitAt (.ofRounding R) j).2
  | restriction {m : ℕ} {s s' : VSet n m K} {d : Box n K} : Made R T s → RepBox R d →
      s.restriction d = some s' → Made R T s'

theorem sat_singleton {c : Constr n K} {p : Fin n → K} : Sat [c] p ↔ c.bnd.Contains (c.fn.val p) := by
  simp [Sat]

theorem goodBox_or_empty {d : Box n K} (h : RepBox R d) : GoodBox R d ∨ boxEmpty d = true := by
  cases he : boxEmpty d with
  | true => exact Or.inr rfl
  | false =>
    refine Or.inl fun i => ?_
    obtain ⟨a, b, e, ha, hb⟩ := h i
    refine ⟨a, b, e, ha, hb, ?_⟩
    simp only [boxEmpty, List.any_eq_false, List.mem_finRange, true_implies] at he
    have := he i
    rw [e, ConstraintSolver.isEmpty_iff, not_lt] at this
    exact this

theorem goodBox_of_mem {d : Box n K} (h : RepBox R d) {p : Fin n → K} (hp : Mem d p) : GoodBox R d := by
  rcases goodBox_or_empty h with h | h
  · exact h
  · rw [boxEmpty_false hp] at h
    exact absurd h (by simp)

theorem value_rep {a b : K} : ∃ v, Bounds.value (.ofRounding R) ⟨fin a, fin b⟩ = fin v ∧ R.Rep v :=
  ⟨R.near (a + b) / 2, rfl, R.rep_half _ (rep_near _)⟩

theorem rep_splitAt {B : Box n K} (h : RepBox R B) (k : Fin n) :
    RepBox R (splitAt (.ofRounding R) B k).1 ∧ RepBox R (splitAt (.ofRounding R) B k).2 := by
  obtain ⟨a, b, e, ha, hb⟩ := h k
  obtain ⟨v, hv, hr⟩ := value_rep (R := R) (a := a) (b := b)
  simp only [splitAt, e, hv]
  constructor <;> intro i <;> by_cases hi : i = k
  · subst hi; exact ⟨a, v, by simp, ha, hr⟩
  · simpa [hi] using h i
  · subst hi; exact ⟨v, b, by simp, hr, hb⟩
  · simpa [hi] using h i

theorem inter_rep_or_empty {A B : Box n K} (hA : RepBox R A) (hB : RepBox R B ∨ boxEmpty B = true) :
    RepBox R (interBox A B) ∨ boxEmpty (interBox A B) = true := by
  rcases hB with hB | hB
  · exact Or.inl (rep_interBox hA hB)
  · right
    simp only [boxEmpty, List.any_eq_true, List.mem_finRange, true_and] at hB ⊢
    obtain ⟨i, hi⟩ := hB
    refine ⟨i, ?_⟩
    obtain ⟨a, b, e, -, -⟩ := hA i
    simp only [isEmpty, interBox, e, Bounds.refinement] at hi ⊢
    revert hi
    cases (B i).u <;> cases (B i).l <;> simp [Ext.lt, Ext.max, Ext.min] <;>
      (try (intro h; split_ifs <;> simp [Ext.lt] <;> linarith)) <;> (try (split_ifs <;> simp [Ext.lt]))

/-- The operations keep the invariant. -/
theorem made_inv (hT : HullSound R T) {m : ℕ} {s : VSet n m K} (h : Made R T s) : Inv R s := by
  induction h with
  | make hd hf hc => exact ⟨hf, hc, Or.inl hd, fun p hp _ => hp, Or.inl hd⟩
  | apply _ hh ih => exact ⟨fun i => compose_ok (hh i) ih.fnOk, ih.csOk, ih.dom, ih.keep, ih.red⟩
  | param _ hc ih =>
    refine ⟨ih.fnOk, fun c h => ?_, ih.dom, fun p hp hs => ih.keep p hp (sat_append.1 hs).1, ih.red⟩
    rcases List.mem_append.1 h with h | h
    · exact ih.csOk c h
    · rw [List.mem_singleton.1 h]; exact hc
  | space _ hc ih =>
    refine ⟨ih.fnOk, fun c h => ?_, ih.dom, fun p hp hs => ih.keep p hp (sat_append.1 hs).1, ih.red⟩
    rcases List.mem_append.1 h with h | h
    · exact ih.csOk c h
    · rw [List.mem_singleton.1 h]; exact compose_ok hc ih.fnOk
  | @reduce _ s s' _ h ih =>
    simp only [VSet.reduce, Option.map_eq_some_iff] at h
    obtain ⟨r, h1, rfl⟩ := h
    refine ⟨ih.fnOk, ih.csOk, ih.dom, fun p hp hs => ?_, ?_⟩
    · have hr := ih.keep p hp hs
      have hrep : RepBox R s.red := by
        rcases ih.red with h | h
        · exact h
        · rw [boxEmpty_false hr] at h; exact absurd h (by simp)
      refine (reduceAll_sound hT ?_ hrep h1 hr ?_).2 <;> intro c hc <;>
        simp only [VSet.conds, List.mem_map] at hc <;> obtain ⟨d, hd, rfl⟩ := hc
      · exact ih.csOk d hd
      · exact over_contains (hs d hd)
    · cases he : boxEmpty r.2 with
      | true => exact Or.inr rfl
      | false =>
        left
        rcases ih.red with h | h
        · exact reduceAll_rep hT h h1 he
        · rw [reduceAll, ConstraintSolver.reduce, if_pos h] at h1
          cases h1
          rw [h] at he
          exact absurd he (by simp)
  | @first _ s j _ hg ih =>
    have h1 := inter_rep_or_empty (rep_splitAt hg.rep j).1 ih.red
    exact ⟨ih.fnOk, ih.csOk, h1, fun p hp _ => hp, h1⟩
  | @second _ s j _ hg ih =>
    have h1 := inter_rep_or_empty (rep_splitAt hg.rep j).2 ih.red
    exact ⟨ih.fnOk, ih.csOk, h1, fun p hp _ => hp, h1⟩
  | restriction _ hd h ih =>
    rw [VSet.restriction] at h
    split_ifs at h
    cases h
    exact ⟨ih.fnOk, ih.csOk, Or.inl hd, fun p hp _ => hp, Or.inl hd⟩

/-! ## Operations -/

/-- **C69**: applying a function to a set gives the image of its points. -/
theorem C69_apply (s : VSet n m K) (h : Fin k → Func m K) : (s.apply h).pts = vval h '' s.pts := by
  ext z
  constructor
  · rintro ⟨p, hp, hs, rfl⟩
    exact ⟨_, ⟨p, hp, hs, rfl⟩, rfl⟩
  · rintro ⟨_, ⟨p, hp, hs, rfl⟩, rfl⟩
    exact ⟨p, hp, hs, rfl⟩

/-- **C69**: a new constraint on the space keeps exactly the points which satisfy it. -/
theorem C69_new_space_constraint (s : VSet n m K) (c : Constr m K) :
    (s.newSpaceConstraint c).pts = s.pts ∩ {y | c.bnd.Contains (c.fn.val y)} := by
  ext z
  constructor
  · rintro ⟨p, hp, hs, rfl⟩
    have h := sat_append.1 hs
    exact ⟨⟨p, hp, h.1, rfl⟩, (sat_singleton (p := p)).1 h.2⟩
  · rintro ⟨⟨p, hp, hs, rfl⟩, hc⟩
    exact ⟨p, hp, sat_append.2 ⟨hs, sat_singleton.2 hc⟩, rfl⟩

/-- **C69**: a new constraint on the parameters keeps exactly the images of the parameters which satisfy
it. -/
theorem C69_new_parameter_constraint (s : VSet n m K) (c : Constr n K) :
    (s.newParameterConstraint c).pts =
      {y | ∃ p, Mem s.dom p ∧ Sat s.cs p ∧ c.bnd.Contains (c.fn.val p) ∧ vval s.fn p = y} := by
  ext z
  constructor
  · rintro ⟨p, hp, hs, rfl⟩
    have h := sat_append.1 hs
    exact ⟨p, hp, h.1, sat_singleton.1 h.2, rfl⟩
  · rintro ⟨p, hp, hs, hc, rfl⟩
    exact ⟨p, hp, sat_append.2 ⟨hs, sat_singleton.2 hc⟩, rfl⟩

/-- **C69**: reducing the domain does not change the set. -/
theorem C69_reduce (hT : HullSound R T) {s s' : VSet n m K} (h : Made R T s)
    (hr : s.reduce (.ofRounding R) T = some s') :
    s'.pts = s.pts ∧ Made R T s' ∧ ∀ p, Mem s.dom p → Sat s.cs p → Mem s'.red p := by
  have h2 : Made R T s' := .reduce h hr
  have h3 := (made_inv hT h2).keep
  simp only [VSet.reduce, Option.map_eq_some_iff] at hr
  obtain ⟨r, h1, rfl⟩ := hr
  exact ⟨rfl, h2, h3⟩

/-- **C69**: a set reported to be empty has no points. -/
theorem C69_is_empty (hT : HullSound R T) {s : VSet n m K} (h : Made R T s) {r : LV × VSet n m K}
    (hr : s.isEmpty (.ofRounding R) T = some r) (ht : r.1 = .true_) : s.pts = ∅ := by
  simp only [VSet.isEmpty, Option.map_eq_some_iff] at hr
  obtain ⟨s', h1, rfl⟩ := hr
  have h2 := (C69_reduce hT h h1).2.2
  refine Set.eq_empty_iff_forall_notMem.2 ?_
  rintro y ⟨p, hp, hs, -⟩
  rw [boxEmpty_false (h2 p hp hs)] at ht
  simp [LV.ofBool] at ht

theorem Inv.redRep {s : VSet n m K} (h : Inv R s) {p : Fin n → K} (hp : Mem s.red p) : RepBox R s.red := by
  rcases h.red with h | h
  · exact h
  · rw [boxEmpty_false hp] at h
    exact absurd h (by simp)

/-- **C69**: the bounding box contains the set, after any sequence of operations. -/
theorem C69_bounding_box (hT : HullSound R T) {s : VSet n m K} (h : Made R T s) {y : Fin m → K}
    (hy : y ∈ s.pts) : Mem s.boundingBox y := by
  obtain ⟨p, hp, hs, rfl⟩ := hy
  have hi := made_inv hT h
  have hr := hi.keep p hp hs
  intro i
  simp only [VSet.boundingBox, apply_eq hr]
  exact hi.fnOk i p _ hr

/-- **C69**: a set reported to be inside a box lies in a box which is strictly inside it. -/
theorem C69_inside (hT : HullSound R T) {s : VSet n m K} (h : Made R T s) {bx : Box m K}
    (hb : s.inside bx = true) :
    ∃ B : Box m K, (∀ y ∈ s.pts, Mem B y) ∧ ∀ y, Mem B y → Inside bx y :=
  ⟨s.boundingBox, fun _ => C69_bounding_box hT h, fun _ hy => insideBox_sound hb hy⟩

/-- **C69**: a box reported to be separated from a set has no point in it. -/
theorem C69_separated (hT : HullSound R T) {s : VSet n m K} (h : Made R T s) {bx : Box m K}
    (hb : s.separated (.ofRounding R) T bx = some true) {y : Fin m → K} (hy : y ∈ s.pts) : ¬ Mem bx y := by
  obtain ⟨p, hp, hs, rfl⟩ := hy
  intro hm
  have hi := made_inv hT h
  have hr := hi.keep p hp hs
  simp only [VSet.separated, Option.map_eq_some_iff] at hb
  obtain ⟨r, h1, h2⟩ := hb
  have := (reduceAll_sound hT (by
    intro c hc
    simp only [VSet.joined, VSet.conds, List.mem_append, List.mem_map] at hc
    rcases hc with ⟨i, -, rfl⟩ | ⟨d, hd, rfl⟩
    · exact hi.fnOk i
    · exact hi.csOk d hd) (hi.redRep hr) h1 hr (by
    intro c hc
    simp only [VSet.joined, VSet.conds, List.mem_append, List.mem_map] at hc
    rcases hc with ⟨i, -, rfl⟩ | ⟨d, hd, rfl⟩
    · exact hm i
    · exact over_contains (hs d hd))).2
  rw [boxEmpty_false this] at h2
  exact absurd h2 (by simp)

theorem contains_left {a b : Bounds K} {x : K} (h : (Bounds.refinement a b).Contains x) : a.Contains x := by
  obtain ⟨al, au⟩ := a
  obtain ⟨bl, bu⟩ := b
  obtain ⟨h1, h2⟩ := h
  simp only [Bounds.refinement, Ext.max, Ext.min] at h1 h2
  constructor
  · split_ifs at h1 with h3
    · cases al <;> cases bl <;> simp [Ext.lt, IsLower] at h1 h3 ⊢
      linarith
    · exact h1
  · split_ifs at h2 with h3
    · cases au <;> cases bu <;> simp [Ext.lt, IsUpper] at h2 h3 ⊢
      linarith
    · exact h2

/-- **C69**: a box reported to overlap a set has a point of the set in it, if the bounds of the
constraints are floating-point numbers, the reduced domain is part of the domain and the optimiser can be
trusted.  What is missing is a constraint whose bounds are not floating-point numbers. -/
theorem C69_overlaps_partial (hT : OptimiserSound T) {s : VSet n m K} (hd : GoodBox R s.red)
    (hsub : ∀ p, Mem s.red p → Mem s.dom p) (hc : ∀ c ∈ s.cs, c.Exact R) {bx : Box m K}
    (hb : s.overlaps (.ofRounding R) T bx = some true) : ∃ y ∈ s.pts, Mem bx y := by
  obtain ⟨d, hd, p, hp, hcs⟩ := overlapsLoop_sound hT _ _ (by simpa using hd) hb
  simp only [List.mem_singleton] at hd
  subst hd
  refine ⟨vval s.fn p, ⟨p, hsub p hp, fun c hcc => ?_, rfl⟩, fun i => ?_⟩
  · have h1 := hcs (c.fn, Bounds.refinement (over (.ofRounding R) c.bnd) (ConstraintSolver.apply c.fn.ev s.red)) (by
      simp only [VSet.joined, VSet.conds, List.mem_append, List.mem_map]
      exact Or.inr ⟨_, ⟨c, hcc, rfl⟩, rfl⟩)
    have h2 := contains_left h1
    rwa [over_exact (hc c hcc).1 (hc c hcc).2] at h2
  · exact hcs (s.fn i, bx i) (by
      simp only [VSet.joined, List.mem_append, List.mem_map]
      exact Or.inl ⟨i, List.mem_finRange i, rfl⟩)

/-- **C69**: the two parts of a set split at any parameter make up the set exactly. -/
theorem C69_split_at (hT : HullSound R T) {s : VSet n m K} (h : Made R T s) (hd : GoodBox R s.dom)
    (j : Fin n) :
    (s.splitAt (.ofRounding R) j).1.pts ∪ (s.splitAt (.ofRounding R) j).2.pts = s.pts := by
  obtain ⟨-, -, g3⟩ := C56_split_at hd j
  ext y
  constructor
  · rintro (⟨p, hp, hs, rfl⟩ | ⟨p, hp, hs, rfl⟩)
    · exact ⟨p, (g3 p).2 (Or.inl fun i => contains_left (hp i)), hs, rfl⟩
    · exact ⟨p, (g3 p).2 (Or.inr fun i => contains_left (hp i)), hs, rfl⟩
  · rintro ⟨p, hp, hs, rfl⟩
    have hr := (made_inv hT h).keep p hp hs
    rcases (g3 p).1 hp with h1 | h1
    · exact Or.inl ⟨p, mem_interBox h1 hr, hs, rfl⟩
    · exact Or.inr ⟨p, mem_interBox h1 hr, hs, rfl⟩

theorem widest_some {d : Box n K} (hd : GoodBox R d) (hn : 0 < n) :
    ∃ j, VSet.widest (.ofRounding R) d = some j ∧
      ∀ i, Ext.le (VSet.radius (.ofRounding R) (d i)) (VSet.radius (.ofRounding R) (d j)) = true := by
  have hf : ∀ i, ∃ r, VSet.radius (.ofRounding R) (d i) = fin r := by
    intro i
    obtain ⟨a, b, e, -⟩ := hd i
    obtain ⟨v, hv, -⟩ := value_rep (R := R) (a := a) (b := b)
    have : ∀ x y : K, ∃ z, Ext.max (fin x) (fin y) = fin z := by
      intro x y
      simp only [Ext.max]
      split_ifs
      · exact ⟨y, rfl⟩
      · exact ⟨x, rfl⟩
    rw [VSet.radius, e, hv]
    exact this _ _
  choose r hr using hf
  have key : ∀ (l : List (Fin n)) (acc : Option (Fin n) × Ext K) (seen : List (Fin n)),
      ((acc.1 = none ∧ acc.2 = .ninf ∧ seen = []) ∨
        ∃ j, acc = (some j, fin (r j)) ∧ ∀ i ∈ seen, r i ≤ r j) → (seen ++ l) ≠ [] →
      ∃ j, (l.foldl (fun (q : Option (Fin n) × Ext K) j =>
        if Ext.lt q.2 (VSet.radius (.ofRounding R) (d j)) then
          (some j, VSet.radius (.ofRounding R) (d j)) else q) acc).1 = some j ∧ ∀ i ∈ seen ++ l, r i ≤ r j := by
    intro l
    induction l with
    | nil =>
      rintro acc seen (⟨-, -, rfl⟩ | ⟨j, rfl, hj⟩) hne
      · simp at hne
      · exact ⟨j, rfl, by simpa using hj⟩
    | cons x l ih =>
      rintro acc seen hacc hne
      have := ih (if Ext.lt acc.2 (VSet.radius (.ofRounding R) (d x)) then
          (some x, VSet.radius (.ofRounding R) (d x)) else acc) (seen ++ [x]) ?_ (by simp)
      · obtain ⟨j, h1, h2⟩ := this
        exact ⟨j, h1, by simpa using h2⟩
      · right
        rcases hacc with ⟨-, h2, rfl⟩ | ⟨j, rfl, hj⟩
        · rw [h2, hr x]
          exact ⟨x, by simp [Ext.lt], by simp⟩
        · rw [hr x]
          simp only [Ext.lt, decide_eq_true_eq]
          split_ifs with h3
          · refine ⟨x, rfl, fun i hi => ?_⟩
            rcases List.mem_append.1 hi with hi | hi
            · exact le_trans (hj i hi) h3.le
            · rw [List.mem_singleton.1 hi]
          · refine ⟨j, rfl, fun i hi => ?_⟩
            rcases List.mem_append.1 hi with hi | hi
            · exact hj i hi
            · rw [List.mem_singleton.1 hi]; exact not_lt.1 h3
  obtain ⟨j, h1, h2⟩ := key (List.finRange n) (none, .ninf) [] (Or.inl ⟨rfl, rfl, rfl⟩) (by
    have : List.finRange n ≠ [] := by
      intro h
      have := congrArg List.length h
      simp at this
      omega
    simpa using this)
  refine ⟨j, h1, fun i => ?_⟩
  rw [hr i, hr j]
  exact decide_eq_true (h2 i (by simp))

/-- **C69**: a set with parameters and a domain which is not empty can be split, at a parameter whose
range is widest; and the two parts make up the set exactly. -/
theorem C69_split (hT : HullSound R T) {s : VSet n m K} (h : Made R T s) (hd : GoodBox R s.dom)
    (hn : 0 < n) :
    ∃ j, s.split (.ofRounding R) = some (s.splitAt (.ofRounding R) j) ∧
      (∀ i, Ext.le (VSet.radius (.ofRounding R) (s.dom i)) (VSet.radius (.ofRounding R) (s.dom j)) = true) ∧
      (s.splitAt (.ofRounding R) j).1.pts ∪ (s.splitAt (.ofRounding R) j).2.pts = s.pts := by
  obtain ⟨j, h1, h2⟩ := widest_some hd hn
  exact ⟨j, by simp [VSet.split, h1], h2, C69_split_at hT h hd j⟩

/-- Splitting a set without parameters reads out of range. -/
theorem C69_split_none (s : VSet 0 m K) : s.split (.ofRounding R) = none := rfl

/-- **C69**: the restriction to a smaller domain is the image of that domain, and is part of the set. -/
theorem C69_restriction {s s' : VSet n m K} {d : Box n K} (h : s.restriction d = some s') :
    s'.pts = {y | ∃ p, Mem d p ∧ Sat s.cs p ∧ vval s.fn p = y} ∧ s'.pts ⊆ s.pts := by
  rw [VSet.restriction] at h
  split_ifs at h with hs
  cases h
  refine ⟨rfl, ?_⟩
  rintro y ⟨p, hp, hsat, rfl⟩
  refine ⟨p, fun i => ?_, hsat, rfl⟩
  simp only [List.all_eq_true, List.mem_finRange, true_implies, subsetIvl, Bool.and_eq_true] at hs
  obtain ⟨h1, h2⟩ := hs i
  obtain ⟨g1, g2⟩ := hp i
  simp only [VSet.make] at g1 g2
  constructor
  · revert h1 g1
    cases (d i).l <;> cases (s.dom i).l <;> simp [Ext.le, IsLower]
    intro a b; linarith
  · revert h2 g2
    cases (d i).u <;> cases (s.dom i).u <;> simp [Ext.le, IsUpper]
    intro a b; linarith

/-! ## `satisfies` -/

/-- What C56 asks of the optimiser of the constraint solver, for every list of constraints. -/
def SolverSound (R : Rounding K) (T : Tools n K) : Prop :=
  ∀ cs, DualSound R (T.opt cs) (T.txg cs) (T.dhull cs) (fun j => (cs.get j).1.val) fun j => (cs.get j).2

theorem over_noNaN {b : Bounds K} (h : b.NoNaN) : (over (.ofRounding R) b).NoNaN := by
  obtain ⟨l, u⟩ := b
  obtain ⟨h1, h2⟩ := h
  constructor
  · cases l <;> simp_all [over, roundExt, XRounding.ofRounding]
  · cases u <;> simp_all [over, roundExt, XRounding.ofRounding]

theorem feasibleAll_good (hT : SolverSound R T) {cs : List (Constr n K)} (hne : cs ≠ [])
    (hf : ∀ c ∈ cs, c.fn.Ok) (hc : ∀ c ∈ cs, c.bnd.NoNaN) {d : Box n K} (hd : GoodBox R d) {r : LV}
    (h : feasibleAll (.ofRounding R) T cs d = some r) :
    (r = .true_ → ∃ p, Mem d p ∧ ∀ c ∈ cs, Strictly (over (.ofRounding R) c.bnd) (c.fn.val p)) ∧
    (r = .false_ → ¬ ∃ p, Mem d p ∧ ∀ c ∈ cs, (over (.ofRounding R) c.bnd).Contains (c.fn.val p)) := by
  simp only [feasibleAll, Option.map_eq_some_iff] at h
  obtain ⟨⟨r0, y0⟩, h, rfl⟩ := h
  rw [feasibleList, if_neg (by simpa using hne)] at h
  simp only [Option.map_eq_some_iff] at h
  obtain ⟨⟨r1, y1⟩, h, e⟩ := h
  cases e
  have key := C56_feasible_strict (f := fun j => ((cs.map fun c : Constr n K => (c.fn, over (.ofRounding R) c.bnd)).get j).1.val)
    (fun j p => by
      have hj := List.get_mem (cs.map fun c : Constr n K => (c.fn, over (.ofRounding R) c.bnd)) j
      generalize (cs.map fun c : Constr n K => (c.fn, over (.ofRounding R) c.bnd)).get j = x at hj ⊢
      obtain ⟨c, hcs, rfl⟩ := List.mem_map.1 hj
      exact hf c hcs p)
    (fun j => by
      have hj := List.get_mem (cs.map fun c : Constr n K => (c.fn, over (.ofRounding R) c.bnd)) j
      generalize (cs.map fun c : Constr n K => (c.fn, over (.ofRounding R) c.bnd)).get j = x at hj ⊢
      obtain ⟨c, hcs, rfl⟩ := List.mem_map.1 hj
      exact over_noNaN (hc c hcs))
    (hT _) _ d _ hd h
  obtain ⟨k1, k2, -⟩ := key
  constructor
  · intro ht
    obtain ⟨p, hp, hs⟩ := k1 ht
    refine ⟨p, hp, fun c hcs => ?_⟩
    obtain ⟨j, hj⟩ := List.get_of_mem (List.mem_map_of_mem (f := fun c : Constr n K => (c.fn, over (.ofRounding R) c.bnd)) hcs)
    have := hs j
    rw [hj] at this
    exact this
  · rintro hfl ⟨p, hp, hs⟩
    refine k2 hfl ⟨p, hp, fun j => ?_⟩
    beta_reduce
    have hj := List.get_mem (cs.map fun c : Constr n K => (c.fn, over (.ofRounding R) c.bnd)) j
    generalize (cs.map fun c : Constr n K => (c.fn, over (.ofRounding R) c.bnd)).get j = x at hj ⊢
    obtain ⟨c, hcs, rfl⟩ := List.mem_map.1 hj
    exact hs c hcs

/-- On an empty domain the answer is false, if some bound is finite. -/
theorem feasibleAll_empty {X : XRounding K} {cs : List (Constr n K)} {d : Box n K} (hd : boxEmpty d = true)
    {c : Constr n K} (hc : c ∈ cs)
    (hb : Ext.lt (over X c.bnd).u .pinf = true ∨ Ext.lt .ninf (over X c.bnd).l = true) {r : LV}
    (h : feasibleAll X T cs d = some r) : r = .false_ := by
  simp only [feasibleAll, Option.map_eq_some_iff] at h
  obtain ⟨⟨r0, y0⟩, h, rfl⟩ := h
  have hne : ¬ (cs.map fun c : Constr n K => (c.fn, over X c.bnd)).length = 0 := by
    rintro h0
    rw [List.length_map, List.length_eq_zero_iff] at h0
    rw [h0] at hc
    simp at hc
  rw [feasibleList, if_neg hne] at h
  simp only [Option.map_eq_some_iff] at h
  obtain ⟨⟨r1, y1⟩, h, e⟩ := h
  cases e
  cases hfuel : T.fuel with
  | zero => rw [hfuel, feasible] at h; exact absurd h (by simp)
  | succ f =>
    rw [hfuel, feasible, if_neg hne, if_pos] at h
    · cases h; rfl
    · simp only [List.any_eq_true, List.mem_finRange, true_and]
      obtain ⟨j, hj⟩ := List.get_of_mem (List.mem_map_of_mem (f := fun c : Constr n K => (c.fn, over X c.bnd)) hc)
      refine ⟨j, ?_⟩
      rw [hj]
      simp only [ConstraintSolver.apply, hd, if_true, disjoint, emptyInterval, Bool.or_eq_true]
      exact hb

theorem feasibleAll_sound (hT : SolverSound R T) {cs : List (Constr n K)} {c0 : Constr n K}
    (hb : Ext.lt (over (.ofRounding R) c0.bnd).u .pinf = true ∨ Ext.lt .ninf (over (.ofRounding R) c0.bnd).l = true)
    (hf : ∀ c ∈ cs ++ [c0], c.fn.Ok) (hc : ∀ c ∈ cs ++ [c0], c.bnd.NoNaN) {d : Box n K}
    (hd : RepBox R d ∨ boxEmpty d = true) {r : LV}
    (h : feasibleAll (.ofRounding R) T (cs ++ [c0]) d = some r) :
    (r = .true_ → ∃ p, Mem d p ∧ (∀ c ∈ cs, Strictly (over (.ofRounding R) c.bnd) (c.fn.val p)) ∧
      Strictly (over (.ofRounding R) c0.bnd) (c0.fn.val p)) ∧
    (r = .false_ → ∀ p, Mem d p → Sat cs p → ¬ (over (.ofRounding R) c0.bnd).Contains (c0.fn.val p)) := by
  have he : boxEmpty d = true → (r = .true_ → ∃ p, Mem d p ∧
      (∀ c ∈ cs, Strictly (over (.ofRounding R) c.bnd) (c.fn.val p)) ∧
      Strictly (over (.ofRounding R) c0.bnd) (c0.fn.val p)) ∧
    (r = .false_ → ∀ p, Mem d p → Sat cs p → ¬ (over (.ofRounding R) c0.bnd).Contains (c0.fn.val p)) := by
    intro he
    rw [feasibleAll_empty he (by simp) hb h]
    refine ⟨by simp, fun _ p hp => ?_⟩
    rw [boxEmpty_false hp] at he
    exact absurd he (by simp)
  rcases hd with hd | hd
  · rcases goodBox_or_empty hd with hd | hd
    · obtain ⟨h1, h2⟩ := feasibleAll_good hT (by simp) hf hc hd h
      constructor
      · intro ht
        obtain ⟨p, hp, hs⟩ := h1 ht
        exact ⟨p, hp, fun c hcs => hs c (by simp [hcs]), hs c0 (by simp)⟩
      · intro hfl p hp hs hc0
        refine h2 hfl ⟨p, hp, fun c hcs => ?_⟩
        rcases List.mem_append.1 hcs with hcs | hcs
        · exact over_contains (hs c hcs)
        · rw [List.mem_singleton.1 hcs]; exact hc0
    · exact he hd
  · exact he hd

/-- Bounds of a constraint: a number or minus infinity below, a number or plus infinity above. -/
def Proper (b : Bounds K) : Prop := (b.l = .ninf ∨ ∃ l, b.l = fin l) ∧ (b.u = .pinf ∨ ∃ u, b.u = fin u)

theorem Proper.noNaN {b : Bounds K} (h : Proper b) : b.NoNaN := by
  obtain ⟨h1 | ⟨l, h1⟩, h2 | ⟨u, h2⟩⟩ := h <;> exact ⟨by simp [h1], by simp [h2]⟩

theorem Proper.over {b : Bounds K} (h : Proper b) : Proper (over (.ofRounding R) b) := by
  obtain ⟨l, u⟩ := b
  obtain ⟨h1 | ⟨x, h1⟩, h2 | ⟨y, h2⟩⟩ := h <;> simp only at h1 h2 <;> subst h1 h2
  · exact ⟨Or.inl rfl, Or.inl rfl⟩
  · exact ⟨Or.inl rfl, Or.inr ⟨_, rfl⟩⟩
  · exact ⟨Or.inr ⟨_, rfl⟩, Or.inl rfl⟩
  · exact ⟨Or.inr ⟨_, rfl⟩, Or.inr ⟨_, rfl⟩⟩

/-- The second part of `satisfies`.  If the answer is true then the bounds hold at every point; if it is
false and there is an upper bound, then one of the rounded bounds is violated at some point. -/
theorem satisfiesBounds_sound (hT : SolverSound R T) {cs : List (Constr n K)} {g : Func n K} {b : Bounds K}
    (hf : ∀ c ∈ cs, c.fn.Ok) (hc : ∀ c ∈ cs, c.bnd.NoNaN) (hg : g.Ok) (hb : Proper b) {d : Box n K}
    (hd : RepBox R d ∨ boxEmpty d = true) {r : LV}
    (h : satisfiesBounds (.ofRounding R) T cs g b d = some r) :
    (r = .true_ → ∀ p, Mem d p → Sat cs p → b.Contains (g.val p)) ∧
    (r = .false_ → b.u ≠ .pinf → ∃ p, Mem d p ∧
      (∀ c ∈ cs, Strictly (over (.ofRounding R) c.bnd) (c.fn.val p)) ∧
      ((∃ u, b.u = fin u ∧ R.down u < g.val p) ∨ ∃ l, b.l = fin l ∧ g.val p < R.up l)) := by
  have ok : ∀ x : Bounds K, ∀ c ∈ cs ++ [⟨g, x⟩], c.fn.Ok := by
    intro x c h
    rcases List.mem_append.1 h with h | h
    · exact hf c h
    · rw [List.mem_singleton.1 h]; exact hg
  have nn : ∀ x : Bounds K, x.NoNaN → ∀ c ∈ cs ++ [⟨g, x⟩], c.bnd.NoNaN := by
    intro x hx c h
    rcases List.mem_append.1 h with h | h
    · exact hc c h
    · rw [List.mem_singleton.1 h]; exact hx
  -- the upper bound
  have up : ∀ u : K, ∀ {r1 : LV},
      feasibleAll (.ofRounding R) T (cs ++ [⟨g, ⟨fin u, .pinf⟩⟩]) d = some r1 →
      (r1 = .true_ → ∃ p, Mem d p ∧ (∀ c ∈ cs, Strictly (over (.ofRounding R) c.bnd) (c.fn.val p)) ∧
        R.down u < g.val p) ∧
      (r1 = .false_ → ∀ p, Mem d p → Sat cs p → g.val p ≤ u) := by
    intro u r1 h1
    obtain ⟨k1, k2⟩ := feasibleAll_sound hT (Or.inr rfl) (ok _) (nn _ ⟨by simp, by simp⟩) hd h1
    constructor
    · intro ht
      obtain ⟨p, hp, hs, hv⟩ := k1 ht
      exact ⟨p, hp, hs, not_le.1 fun hle => hv.2 hle⟩
    · intro hfl p hp hs
      by_contra hlt
      exact k2 hfl p hp hs ⟨le_trans (R.down_le u) (not_le.1 hlt).le, trivial⟩
  -- the lower bound
  have lo : ∀ l : K, ∀ {r1 : LV},
      feasibleAll (.ofRounding R) T (cs ++ [⟨g, ⟨.ninf, fin l⟩⟩]) d = some r1 →
      (r1 = .true_ → ∃ p, Mem d p ∧ (∀ c ∈ cs, Strictly (over (.ofRounding R) c.bnd) (c.fn.val p)) ∧
        g.val p < R.up l) ∧
      (r1 = .false_ → ∀ p, Mem d p → Sat cs p → l ≤ g.val p) := by
    intro l r1 h1
    obtain ⟨k1, k2⟩ := feasibleAll_sound hT (Or.inl rfl) (ok _) (nn _ ⟨by simp, by simp⟩) hd h1
    constructor
    · intro ht
      obtain ⟨p, hp, hs, hv⟩ := k1 ht
      exact ⟨p, hp, hs, not_le.1 fun hle => hv.1 hle⟩
    · intro hfl p hp hs
      by_contra hlt
      exact k2 hfl p hp hs ⟨trivial, le_trans (not_le.1 hlt).le (R.le_up l)⟩
  have o1 : ∀ a b : LV, LV.not_ (LV.or_ a b) = .true_ → a = .false_ ∧ b = .false_ := by
    intro a b; cases a <;> cases b <;> decide
  have o2 : ∀ a b : LV, LV.not_ (LV.or_ a b) = .false_ → a = .true_ ∨ b = .true_ := by
    intro a b; cases a <;> cases b <;> decide
  have o3 : ∀ a : LV, LV.not_ a = .true_ → a = .false_ := by intro a; cases a <;> decide
  have o4 : ∀ a : LV, LV.not_ a = .false_ → a = .true_ := by intro a; cases a <;> decide
  obtain ⟨bl, bu⟩ := b
  obtain ⟨hl, hu⟩ := hb
  simp only at hl hu
  rw [satisfiesBounds] at h
  rcases hu with rfl | ⟨u, rfl⟩
  · -- no upper bound: the answer is never true
    refine ⟨?_, fun _ hne => absurd rfl hne⟩
    simp only [Ext.lt, Bool.false_eq_true, if_false] at h
    rintro rfl
    rcases hl with rfl | ⟨l, rfl⟩
    · simp [LV.not_] at h
    · simp only [if_true, Option.map_eq_some_iff] at h
      obtain ⟨r2, -, e⟩ := h
      exact absurd (o1 _ _ e).1 (by simp)
  · simp only [Ext.lt, if_true, Option.bind_eq_some_iff] at h
    obtain ⟨r1, h1, h⟩ := h
    obtain ⟨u1, u2⟩ := up u h1
    by_cases hdef : LV.definitely r1 = true
    · rw [if_pos hdef] at h
      cases h
      have ht : r1 = .true_ := by revert hdef; cases r1 <;> decide
      refine ⟨by simp, fun _ _ => ?_⟩
      obtain ⟨p, hp, hs, hv⟩ := u1 ht
      exact ⟨p, hp, hs, Or.inl ⟨u, rfl, hv⟩⟩
    · rw [if_neg hdef] at h
      rcases hl with rfl | ⟨l, rfl⟩
      · simp only [Bool.false_eq_true, if_false, Option.some.injEq] at h
        subst h
        refine ⟨fun ht p hp hs => ⟨trivial, u2 (o3 _ ht) p hp hs⟩, fun hfl _ => ?_⟩
        obtain ⟨p, hp, hs, hv⟩ := u1 (o4 _ hfl)
        exact ⟨p, hp, hs, Or.inl ⟨u, rfl, hv⟩⟩
      · simp only [if_true, Option.map_eq_some_iff] at h
        obtain ⟨r2, h2, rfl⟩ := h
        obtain ⟨l1, l2⟩ := lo l h2
        refine ⟨fun ht p hp hs => ⟨l2 (o1 _ _ ht).2 p hp hs, u2 (o1 _ _ ht).1 p hp hs⟩, fun hfl _ => ?_⟩
        rcases o2 _ _ hfl with ht | ht
        · obtain ⟨p, hp, hs, hv⟩ := u1 ht
          exact ⟨p, hp, hs, Or.inl ⟨u, rfl, hv⟩⟩
        · obtain ⟨p, hp, hs, hv⟩ := l1 ht
          exact ⟨p, hp, hs, Or.inr ⟨l, rfl, hv⟩⟩

theorem subsetIvl_sound {a b : Bounds K} (h : subsetIvl a b = true) {x : K} (hx : a.Contains x) :
    b.Contains x := by
  obtain ⟨al, au⟩ := a
  obtain ⟨bl, bu⟩ := b
  obtain ⟨x1, x2⟩ := hx
  simp only [subsetIvl, Bool.and_eq_true] at h
  obtain ⟨h1, h2⟩ := h
  constructor
  · cases al <;> cases bl <;> simp [Ext.le, IsLower] at h1 x1 ⊢
    linarith
  · cases au <;> cases bu <;> simp [Ext.le, IsUpper] at h2 x2 ⊢
    linarith

/-- **C69**: if `satisfies` answers true, all the points of the set satisfy the constraint with its bounds
rounded outwards, and the constraint itself if its bounds are floating-point numbers. -/
theorem C69_satisfies_true (hH : HullSound R T) (hT : SolverSound R T) {s : VSet n m K} (hm : Made R T s)
    (hs : ∀ c ∈ s.cs, c.bnd.NoNaN) {c : Constr m K} (hc : c.fn.Ok) (hb : Proper c.bnd)
    (h : s.satisfies (.ofRounding R) T c = some .true_) {y : Fin m → K} (hy : y ∈ s.pts) :
    (over (.ofRounding R) c.bnd).Contains (c.fn.val y) ∧ (c.Exact R → c.bnd.Contains (c.fn.val y)) := by
  have key : (over (.ofRounding R) c.bnd).Contains (c.fn.val y) := by
    rw [VSet.satisfies] at h
    split_ifs at h with h1
    · have hbb := C69_bounding_box hH hm hy
      rw [apply_eq hbb] at h1
      exact subsetIvl_sound h1 (hc y _ hbb)
    · have hi := made_inv hH hm
      obtain ⟨p, hp, hsat, rfl⟩ := hy
      exact (satisfiesBounds_sound hT hi.csOk hs (compose_ok hc hi.fnOk) hb.over hi.dom h).1 rfl p hp hsat
  exact ⟨key, fun he => by rwa [over_exact he.1 he.2] at key⟩

/-- **C69**: if `satisfies` answers false for a constraint with an upper bound, some point of the set does
not satisfy the constraint, if the bounds of the constraints of the set are floating-point numbers.  What
is missing is a constraint with a lower bound only, for which the answer false is always given unless the
bounding box shows the constraint to be satisfied. -/
theorem C69_satisfies_false_partial (hH : HullSound R T) (hT : SolverSound R T) {s : VSet n m K}
    (hm : Made R T s) (hs : ∀ c ∈ s.cs, c.Exact R) {c : Constr m K} (hc : c.fn.Ok) (hb : Proper c.bnd)
    (hu : c.bnd.u ≠ .pinf) (h : s.satisfies (.ofRounding R) T c = some .false_) :
    ∃ y ∈ s.pts, ¬ c.bnd.Contains (c.fn.val y) := by
  have hex : ∀ d ∈ s.cs, d.bnd.NoNaN := by
    intro d hd
    have := hs d hd
    constructor <;> intro h0
    · have := this.1; rw [h0] at this; exact this
    · have := this.2; rw [h0] at this; exact this
  rw [VSet.satisfies] at h
  split_ifs at h with h1
  · simp at h
  have hi := made_inv hH hm
  have hu' : (over (.ofRounding R) c.bnd).u ≠ .pinf := by
    rcases hb.2 with h0 | ⟨u, h0⟩
    · exact absurd h0 hu
    · rw [over, h0]
      exact fun hh => by simp [roundExt, XRounding.ofRounding] at hh
  obtain ⟨p, hp, hsat, hv⟩ :=
    (satisfiesBounds_sound hT hi.csOk hex (compose_ok hc hi.fnOk) hb.over hi.dom h).2 rfl hu'
  refine ⟨vval s.fn p, ⟨p, hp, fun d hd => ?_, rfl⟩, fun hcon => ?_⟩
  · have := hsat d hd
    rw [over_exact (hs d hd).1 (hs d hd).2] at this
    exact contains_of_strictly (hex d hd) this
  · rcases hv with ⟨u, e, hv⟩ | ⟨l, e, hv⟩
    · rcases hb.2 with h0 | ⟨u0, h0⟩
      · exact absurd h0 hu
      · have e2 : u = R.up u0 := by
          rw [over, h0] at e
          exact (Ext.fin.inj e).symm
        have h2 := hcon.2
        rw [h0] at h2
        have h2 : c.fn.val (vval s.fn p) ≤ u0 := h2
        rw [e2, down_rep (R.rep_up u0)] at hv
        exact absurd (lt_of_lt_of_le hv h2) (not_lt.2 (R.le_up u0))
    · rcases hb.1 with h0 | ⟨l0, h0⟩
      · rw [over, h0] at e
        simp [roundExt] at e
      · have e2 : l = R.down l0 := by
          rw [over, h0] at e
          exact (Ext.fin.inj e).symm
        have h2 := hcon.1
        rw [h0] at h2
        have h2 : l0 ≤ c.fn.val (vval s.fn p) := h2
        rw [e2, up_rep (R.rep_down l0)] at hv
        exact absurd (lt_of_le_of_lt h2 hv) (not_lt.2 (R.down_le l0))

/-- Whatever the set, the function and the lower bound: if there is no upper bound and the bounding box
does not show the constraint to be satisfied, `satisfies` answers that it is not. -/
theorem C69_satisfies_lower_only {X : XRounding K} {s : VSet n m K} {c : Constr m K} (hu : c.bnd.u = .pinf)
    (hb : subsetIvl (ConstraintSolver.apply c.fn.ev s.boundingBox) (over X c.bnd) = false) {r : LV}
    (h : s.satisfies X T c = some r) : r = .false_ := by
  have o : ∀ a : LV, LV.not_ (LV.or_ .true_ a) = .false_ := by intro a; cases a <;> decide
  have e : (over X c.bnd).u = .pinf := by simp [over, hu, roundExt]
  rw [VSet.satisfies, hb, if_neg (by simp), satisfiesBounds, e] at h
  have e2 : Ext.lt (.pinf : Ext K) .pinf = false := rfl
  simp only [e2, Bool.false_eq_true, if_false] at h
  by_cases h1 : Ext.lt .ninf (over X c.bnd).l = true
  · rw [if_pos h1, Option.map_eq_some_iff] at h
    obtain ⟨r2, -, rfl⟩ := h
    exact o r2
  · rw [if_neg h1] at h
    cases h; rfl

/-! ## Constrained image sets -/

/-- **C69**: applying a function to a set gives the image of its points. -/
theorem C69_image_apply (s : ISet n m K) (h : Fin k → Func m K) : (s.apply h).pts = vval h '' s.pts := by
  ext z
  constructor
  · rintro ⟨p, hp, hs, rfl⟩
    exact ⟨_, ⟨p, hp, hs, rfl⟩, rfl⟩
  · rintro ⟨_, ⟨p, hp, hs, rfl⟩, rfl⟩
    exact ⟨p, hp, hs, rfl⟩

/-- **C69**: a new constraint on the space keeps exactly the points which satisfy it. -/
theorem C69_image_new_space_constraint (s : ISet n m K) (c : Constr m K) :
    (s.newSpaceConstraint c).pts = s.pts ∩ {y | c.bnd.Contains (c.fn.val y)} := by
  ext z
  constructor
  · rintro ⟨p, hp, hs, rfl⟩
    have h := sat_append.1 hs
    exact ⟨⟨p, hp, h.1, rfl⟩, (sat_singleton (p := p)).1 h.2⟩
  · rintro ⟨⟨p, hp, hs, rfl⟩, hc⟩
    exact ⟨p, hp, sat_append.2 ⟨hs, sat_singleton.2 hc⟩, rfl⟩

/-- **C69**: a new constraint on the parameters keeps exactly the images of the parameters which satisfy
it. -/
theorem C69_image_new_parameter_constraint (s : ISet n m K) (c : Constr n K) :
    (s.newParameterConstraint c).pts =
      {y | ∃ p, Mem s.dom p ∧ Sat s.cs p ∧ c.bnd.Contains (c.fn.val p) ∧ vval s.fn p = y} := by
  ext z
  constructor
  · rintro ⟨p, hp, hs, rfl⟩
    have h := sat_append.1 hs
    exact ⟨p, hp, h.1, sat_singleton.1 h.2, rfl⟩
  · rintro ⟨p, hp, hs, hc, rfl⟩
    exact ⟨p, hp, sat_append.2 ⟨hs, sat_singleton.2 hc⟩, rfl⟩

/-- The image of a bounded constraint set under a function is the image of its points. -/
theorem C69_image (a : BSet n K) (f : Fin m → Func n K) : (a.image f).pts = vval f '' a.pts := by
  ext z
  constructor
  · rintro ⟨p, hp, hs, rfl⟩
    exact ⟨p, ⟨hp, hs⟩, rfl⟩
  · rintro ⟨p, ⟨hp, hs⟩, rfl⟩
    exact ⟨p, hp, hs, rfl⟩

/-- The functions of the set are enclosed by their evaluations and the domain is bounded. -/
structure ISet.Ok (s : ISet n m K) : Prop where
  fn : ∀ i, (s.fn i).Ok
  cs : ∀ c ∈ s.cs, c.fn.Ok
  dom : FinBox s.dom

/-- The validated set on the domain rounded outwards contains the set. -/
theorem made_over {s : ISet n m K} (h : s.Ok) : Made R T (VSet.make (overBox (.ofRounding R) s.dom) s.fn s.cs) :=
  .make (rep_overBox h.dom) h.fn h.cs

theorem pts_over {s : ISet n m K} : s.pts ⊆ (VSet.make (overBox (.ofRounding R) s.dom) s.fn s.cs).pts := by
  rintro y ⟨p, hp, hs, rfl⟩
  exact ⟨p, mem_overBox hp, hs, rfl⟩

/-- **C69**: the bounding box contains the set. -/
theorem C69_image_bounding_box {s : ISet n m K} (h : s.Ok) {y : Fin m → K} (hy : y ∈ s.pts) :
    Mem (s.boundingBox (.ofRounding R)) y := by
  obtain ⟨p, hp, hs, rfl⟩ := hy
  intro i
  simp only [ISet.boundingBox, apply_eq (mem_overBox (R := R) hp)]
  exact h.fn i p _ (mem_overBox hp)

/-- **C69**: a set reported to be inside a box lies in a box which is strictly inside it. -/
theorem C69_image_inside {s : ISet n m K} (h : s.Ok) {bx : Box m K} (hb : s.inside (.ofRounding R) bx = true) :
    ∃ B : Box m K, (∀ y ∈ s.pts, Mem B y) ∧ ∀ y, Mem B y → Inside bx y :=
  ⟨s.boundingBox (.ofRounding R), fun _ => C69_image_bounding_box h, fun _ hy => insideBox_sound hb hy⟩

/-- **C69**: a box reported to be separated from a set has no point in it. -/
theorem C69_image_separated (hT : HullSound R T) {s : ISet n m K} (h : s.Ok) {bx : Box m K}
    (hb : s.separated (.ofRounding R) T bx = some true) {y : Fin m → K} (hy : y ∈ s.pts) : ¬ Mem bx y :=
  C69_separated hT (made_over h) hb (pts_over hy)

/-- **C69**: a box reported to overlap a set has a point of the set in it, if the domain rounded inwards is
not empty, the bounds of the constraints are floating-point numbers and the optimiser can be trusted. -/
theorem C69_image_overlaps_partial (hT : OptimiserSound T) {s : ISet n m K}
    (hd : GoodBox R (underBox (.ofRounding R) s.dom)) (hc : ∀ c ∈ s.cs, c.Exact R) {bx : Box m K}
    (hb : s.overlaps (.ofRounding R) T bx = some true) : ∃ y ∈ s.pts, Mem bx y := by
  obtain ⟨y, ⟨p, hp, hs, rfl⟩, hy⟩ := C69_overlaps_partial hT
    (s := VSet.make (underBox (.ofRounding R) s.dom) s.fn s.cs) hd (fun _ h => h) hc hb
  exact ⟨_, ⟨p, mem_of_underBox hp, hs, rfl⟩, hy⟩

/-- **C69**: the two parts of a set split at any parameter at any point of its range make up the set. -/
theorem C69_image_split_at (s : ISet n m K) (j : Fin n) {mid : K}
    (hl : IsLower (s.dom j).l mid) (hu : IsUpper (s.dom j).u mid) :
    (s.splitAt j mid).1.pts ∪ (s.splitAt j mid).2.pts = s.pts := by
  ext y
  constructor
  · rintro (⟨p, hp, hs, rfl⟩ | ⟨p, hp, hs, rfl⟩) <;> refine ⟨p, fun i => ?_, hs, rfl⟩ <;> have h1 := hp i <;>
      simp only [ISet.splitAt] at h1 <;> by_cases hi : i = j
    · subst hi
      simp only [Function.update_self] at h1
      refine ⟨h1.1, ?_⟩
      have h2 : p i ≤ mid := h1.2
      revert hu
      cases (s.dom i).u <;> simp [IsUpper]
      intro h; linarith
    · simpa [hi] using h1
    · subst hi
      simp only [Function.update_self] at h1
      refine ⟨?_, h1.2⟩
      have h2 : mid ≤ p i := h1.1
      revert hl
      cases (s.dom i).l <;> simp [IsLower]
      intro h; linarith
    · simpa [hi] using h1
  · rintro ⟨p, hp, hs, rfl⟩
    rcases le_total (p j) mid with h | h
    · exact Or.inl ⟨p, mem_update hp ⟨(hp j).1, h⟩, hs, rfl⟩
    · exact Or.inr ⟨p, mem_update hp ⟨h, (hp j).2⟩, hs, rfl⟩

/-- **C69**: if `satisfies` answers true, all the points of the set satisfy the constraint with its bounds
rounded outwards. -/
theorem C69_image_satisfies_true (hT : SolverSound R T) {s : ISet n m K} (hs : s.Ok)
    (hc : ∀ c ∈ s.cs, c.bnd.NoNaN) {c : Constr m K} (hcf : c.fn.Ok) (hb : Proper c.bnd)
    (h : s.satisfies (.ofRounding R) T c = some .true_) {y : Fin m → K} (hy : y ∈ s.pts) :
    (over (.ofRounding R) c.bnd).Contains (c.fn.val y) ∧ (c.Exact R → c.bnd.Contains (c.fn.val y)) := by
  have key : (over (.ofRounding R) c.bnd).Contains (c.fn.val y) := by
    rw [ISet.satisfies] at h
    split_ifs at h with h1
    · have hbb := C69_image_bounding_box (R := R) hs hy
      rw [apply_eq hbb] at h1
      exact subsetIvl_sound h1 (hcf y _ hbb)
    · obtain ⟨p, hp, hsat, rfl⟩ := hy
      exact over_contains ((satisfiesBounds_sound hT hs.cs hc (compose_ok hcf hs.fn) hb
        (Or.inl (rep_overBox hs.dom)) h).1 rfl p (mem_overBox hp) hsat)
  exact ⟨key, fun he => by rwa [over_exact he.1 he.2] at key⟩

/-- **C69**: if `satisfies` answers false for a constraint with an upper bound, some point of the set does
not satisfy the constraint, if all the bounds and the domain are given by floating-point numbers. -/
theorem C69_image_satisfies_false_partial (hT : SolverSound R T) {s : ISet n m K} (hs : s.Ok)
    (hd : RepBox R s.dom) (hcs : ∀ c ∈ s.cs, c.Exact R) {c : Constr m K} (hc : c.fn.Ok) (hb : Proper c.bnd)
    (he : c.Exact R) (hu : c.bnd.u ≠ .pinf) (h : s.satisfies (.ofRounding R) T c = some .false_) :
    ∃ y ∈ s.pts, ¬ c.bnd.Contains (c.fn.val y) := by
  have hex : ∀ d ∈ s.cs, d.bnd.NoNaN := by
    intro d hd
    have := hcs d hd
    constructor <;> intro h0
    · have := this.1; rw [h0] at this; exact this
    · have := this.2; rw [h0] at this; exact this
  have e0 : overBox (.ofRounding R) s.dom = s.dom := by
    funext i
    obtain ⟨a, b, e, ha, hb⟩ := hd i
    rw [overBox, e]
    exact over_exact ha hb
  rw [ISet.satisfies] at h
  split_ifs at h with h1
  · simp at h
  rw [e0] at h
  obtain ⟨p, hp, hsat, hv⟩ := (satisfiesBounds_sound hT hs.cs hex (compose_ok hc hs.fn) hb (Or.inl hd) h).2 rfl hu
  refine ⟨vval s.fn p, ⟨p, hp, fun d hd => ?_, rfl⟩, fun hcon => ?_⟩
  · have := hsat d hd
    rw [over_exact (hcs d hd).1 (hcs d hd).2] at this
    exact contains_of_strictly (hex d hd) this
  · rcases hv with ⟨u, e, hv⟩ | ⟨l, e, hv⟩
    · have h2 := hcon.2
      have h3 := he.2
      rw [e] at h2 h3
      rw [down_rep h3] at hv
      exact absurd hv (not_lt.2 h2)
    · have h2 := hcon.1
      have h3 := he.1
      rw [e] at h2 h3
      rw [up_rep h3] at hv
      exact absurd hv (not_lt.2 h2)

/-- **C69**, conversion of a bounded constraint set to an image set: it contains the points of the set, and
no others if the domain is given by floating-point numbers.  What is missing is any other domain. -/
theorem C69_of_bounded_partial (a : BSet n K) :
    a.pts ⊆ (a.toImage (.ofRounding R)).pts ∧
    (RepBox R a.dom → (a.toImage (.ofRounding R)).pts = a.pts) := by
  have h1 : a.pts ⊆ (a.toImage (.ofRounding R)).pts := fun p hp => ⟨p, mem_overBox hp.1, hp.2, rfl⟩
  refine ⟨h1, fun hd => Set.Subset.antisymm ?_ h1⟩
  rintro y ⟨p, hp, hs, rfl⟩
  have e0 : overBox (.ofRounding R) a.dom = a.dom := by
    funext i
    obtain ⟨x, b, e, ha, hb⟩ := hd i
    rw [overBox, e]
    exact over_exact ha hb
  simp only [BSet.toImage, e0] at hp
  exact ⟨hp, hs⟩

end Verif.FunctionSet
