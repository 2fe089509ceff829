import Verif.AffineSet.Model
import Verif.Paver.Others

/-!
# Affine constrained image sets: what the answers mean

**C80**: bounding boxes contain the set, certain answers of `separated`, `is_empty` and `inside` are right, and outer
approximations cover the set.
-/

namespace Verif.AffineSet

open Ariadne (Ext Bounds XRounding Rounding IsLower IsUpper)
open Ariadne.Ext (fin)
open Verif.Affine (AM Encl Unit)
open Verif.TaylorModel (Num)
open Verif.LinearProgram (Iter feasible Feasible)
open Verif.Grid (Cell Paving gridMap spaceBox cellSubset)
open Verif.ConstraintSolver (Box Mem)

variable {K : Type*} [Field K] [LinearOrder K] [IsStrictOrderedRing K] {nx np nc : ℕ}

/-- The models enclose the functions. -/
def Describes (S : ASet nx np nc K) (f : Fin nx → (Fin np → K) → K) (g : Fin nc → (Fin np → K) → K) : Prop :=
  (∀ i, Encl (S.space i) (f i)) ∧ ∀ i, Encl (S.cons i).fn (g i)

/-- The set `{f(p) | p in [-1,+1]^np, lo<=g(p)<=hi}`.  A bound which is only known to lie in an interval excludes only
what all numbers of the interval exclude. -/
def points (S : ASet nx np nc K) (f : Fin nx → (Fin np → K) → K) (g : Fin nc → (Fin np → K) → K) :
    Set (Fin nx → K) :=
  {x | ∃ p, Unit p ∧ (∀ i, IsLower (S.cons i).lo.l (g i p) ∧ IsUpper (S.cons i).hi.u (g i p)) ∧ x = fun i => f i p}

/-- The constraints have models without error and bounds which are single numbers. -/
def Sharp (X : XRounding K) (S : ASet nx np nc K) : Prop :=
  ∀ i, (S.cons i).fn.err = 0 ∧ Bounds.value X (S.cons i).lo = (S.cons i).lo.l ∧
    Bounds.value X (S.cons i).hi = (S.cons i).hi.u

/-! ## The linear program -/

theorem row_space (S : ASet nx np nc K) (x : Fin nx → K) (p : Fin np → K) (s : Fin nc → K) (i : Fin nx) :
    ∑ j, matrix S (Fin.castAdd nc i) j * Fin.append (Fin.append x p) s j = -x i + ∑ j, (S.space i).grad j * p j := by
  simp [matrix, Fin.sum_univ_add, Fin.append_left, Fin.append_right]

theorem row_cons (S : ASet nx np nc K) (x : Fin nx → K) (p : Fin np → K) (s : Fin nc → K) (i : Fin nc) :
    ∑ j, matrix S (Fin.natAdd nx i) j * Fin.append (Fin.append x p) s j = ∑ j, (S.cons i).fn.grad j * p j + s i := by
  simp [matrix, Fin.sum_univ_add, Fin.append_left, Fin.append_right]

/-- The point of the linear program which belongs to a parameter. -/
theorem lp_point {X : XRounding K} {S : ASet nx np nc K} {l u : Fin nx → Ext K} {p : Fin np → K} (hp : Unit p)
    (hx : ∀ i, IsLower (l i) ((S.space i).at p) ∧ IsUpper (u i) ((S.space i).at p))
    (hc : ∀ i, IsLower (Bounds.value X (S.cons i).lo) ((S.cons i).fn.at p) ∧
      IsUpper (Bounds.value X (S.cons i).hi) ((S.cons i).fn.at p)) :
    Feasible (lower X S l) (upper X S u) (matrix S) (rhs S)
      (Fin.append (Fin.append (fun i => (S.space i).at p) p) fun i => -(S.cons i).fn.at p) := by
  constructor
  · intro i
    refine Fin.addCases (fun i => ?_) (fun i => ?_) i
    · rw [row_space]; simp [rhs, AM.at]
    · rw [row_cons]; simp [rhs, AM.at]
  · intro j
    refine Fin.addCases (fun j => ?_) (fun j => ?_) j
    · refine Fin.addCases (fun j => ?_) (fun j => ?_) j
      · simpa [lower, upper, Fin.append_left, Fin.append_right] using hx j
      · have := abs_le.1 (hp j)
        simpa [lower, upper, Fin.append_left, Fin.append_right, IsLower, IsUpper] using this
    · simp only [lower, upper, Fin.append_right]
      exact ⟨Ext.isLower_neg (hc j).2, Ext.isUpper_neg (hc j).1⟩

theorem widen_mem {X : XRounding K} {b : Bounds K} {y z e : K} (h : b.Contains y) (he : |y - z| ≤ e) :
    IsLower (Ext.sub X.down b.l (fin e)) z ∧ IsUpper (Ext.add X.up b.u (fin e)) z := by
  obtain ⟨h1, h2⟩ := abs_le.1 he
  constructor
  · have := Ariadne.sub_down X h.1 (show IsUpper (fin e) e from le_refl e)
    exact Ext.isLower_mono this (by linarith)
  · have := Ariadne.add_up X h.2 (show IsUpper (fin e) e from le_refl e)
    exact Ext.isUpper_mono this (by linarith)

/-- If a point of the set lies in the box, the solver does not find the program infeasible. -/
theorem meets_sound {X : XRounding K} {S : ASet nx np nc K} (hS : Sharp X S) {f : Fin nx → (Fin np → K) → K}
    {g : Fin nc → (Fin np → K) → K} (hd : Describes S f g) {b : Box nx K} {x : Fin nx → K} (hx : x ∈ points S f g)
    (hb : Mem b x) (s : ℕ → Iter (nx + nc) (nx + np + nc) K) :
    ∃ r, meets X S b s = some r ∧ r ≠ some false := by
  obtain ⟨p, hp, hc, rfl⟩ := hx
  have key : Feasible (lower X S fun i => Ext.sub X.down (b i).l (fin (S.space i).err))
      (upper X S fun i => Ext.add X.up (b i).u (fin (S.space i).err)) (matrix S) (rhs S) _ :=
    lp_point hp (fun i => widen_mem (hb i) (hd.1 i p hp)) fun i => by
      obtain ⟨e, h1, h2⟩ := hS i
      have := hd.2 i p hp
      rw [e] at this
      have := abs_nonpos_iff.1 this
      rw [h1, h2, ← sub_eq_zero.1 this]
      exact hc i
  cases h : meets X S b s with
  | none => exact absurd key (LinearProgram.C79_infeasible X (Or.inr h) _)
  | some r =>
    refine ⟨r, rfl, ?_⟩
    rintro rfl
    exact absurd key (LinearProgram.C79_infeasible X (Or.inl h) _)

/-! ## Predicates -/

/-- **C80** (bounding box): the bounding box contains the set. -/
theorem C80_bounding_box (R : Rounding K) {S : ASet nx np nc K} {f : Fin nx → (Fin np → K) → K}
    {g : Fin nc → (Fin np → K) → K} (hd : Describes S f g) {b : Fin nx → Num K} (h : boundingBox R S = some b)
    {x : Fin nx → K} (hx : x ∈ points S f g) : Mem (asBox b) x := by
  obtain ⟨p, hp, -, rfl⟩ := hx
  unfold boundingBox at h
  split_ifs at h with hh
  obtain rfl := Option.some.inj h
  intro i
  exact Affine.C78_range R (hd.1 i) (Option.some_get (hh i)).symm hp

theorem widen_contains {X : XRounding K} {w : K} (hw : 0 ≤ w) {b : Bounds K} {y : K} (h : b.Contains y) :
    (Bounds.widen X w b).Contains y :=
  widen_mem (z := y) h (by simpa using hw)

/-- **C80** (separation, partial): if `separated` is certainly true, or stops with an exception, then no point of the set
lies in the box.  The full statement lacks the hypothesis that the constraints have no uncertainty, without which it is
false (`C80_separated_error`, `C80_separated_bounds`). -/
theorem C80_separated_partial (X : XRounding K) {w : K} (hw : 0 ≤ w) {S : ASet nx np nc K} (hS : Sharp X S)
    {f : Fin nx → (Fin np → K) → K} {g : Fin nc → (Fin np → K) → K} (hd : Describes S f g) {b : Box nx K}
    {s : ℕ → Iter (nx + nc) (nx + np + nc) K}
    (h : separated X w S b s = some (some true) ∨ separated X w S b s = none) {x : Fin nx → K}
    (hx : x ∈ points S f g) : ¬ Mem b x := by
  intro hb
  obtain ⟨r, hr, hr'⟩ := meets_sound hS hd hx (fun i => widen_contains hw (hb i)) s
  unfold separated at h
  rw [hr] at h
  rcases h with h | h
  · apply hr'
    cases r with
    | none => exact absurd h (by simp)
    | some v => cases v <;> simp_all
  · exact absurd h (by simp)

/-- **C80** (emptiness, partial): if `is_empty` is certainly true then the set is empty. -/
theorem C80_is_empty_partial (R : Rounding K) (X : XRounding K) {w : K} (hw : 0 ≤ w) {S : ASet nx np nc K}
    (hS : Sharp X S) {f : Fin nx → (Fin np → K) → K} {g : Fin nc → (Fin np → K) → K} (hd : Describes S f g)
    {s : ℕ → Iter (nx + nc) (nx + np + nc) K} (h : isEmpty R X w S s = some (some true)) : points S f g = ∅ := by
  obtain ⟨b, hb, h⟩ := Option.bind_eq_some_iff.1 h
  obtain ⟨r, hr, h⟩ := Option.map_eq_some_iff.1 h
  have hr' : r = some true := by
    by_contra hc
    rw [if_neg hc] at h
    exact absurd h (by simp)
  rw [hr'] at hr
  ext x
  constructor
  · intro hx
    exact absurd (C80_bounding_box R hd hb hx) (C80_separated_partial X hw hS hd (Or.inl hr) hx)
  · intro hx; exact absurd hx (by simp)

/-- **C80** (inside): if `inside` is certainly true then every point of the set lies in the interior of the box. -/
theorem C80_inside (R : Rounding K) (X : XRounding K) {w : K} (hw : 0 ≤ w) {S : ASet nx np nc K}
    {f : Fin nx → (Fin np → K) → K} {g : Fin nc → (Fin np → K) → K} (hd : Describes S f g) {b : Box nx K}
    (h : inside R X w S b = some true) {x : Fin nx → K} (hx : x ∈ points S f g) (i : Fin nx) :
    Ext.lt (b i).l (fin (x i)) = true ∧ Ext.lt (fin (x i)) (b i).u = true := by
  obtain ⟨bb, hbb, h⟩ := Option.map_eq_some_iff.1 h
  have h := List.all_eq_true.1 h i (List.mem_finRange i)
  rw [Bool.and_eq_true] at h
  obtain ⟨m1, m2⟩ := widen_contains (X := X) hw (C80_bounding_box R hd hbb hx i)
  obtain ⟨h1, h2⟩ := h
  constructor
  · generalize (Bounds.widen X w (asBox bb i)).l = c at m1 h1
    cases hc : c <;> cases hl : (b i).l <;> rw [hc] at m1 h1 <;> rw [hl] at h1 <;> simp [Ext.lt, IsLower] at m1 h1 ⊢
    linarith
  · generalize (Bounds.widen X w (asBox bb i)).u = c at m2 h2
    cases hc : c <;> cases hl : (b i).u <;> rw [hc] at m2 h2 <;> rw [hl] at h2 <;> simp [Ext.lt, IsUpper] at m2 h2 ⊢
    linarith

/-! ## Outer approximation -/

section outer
variable [NeZero nx] {R : Rounding K} {X : XRounding K} {o l : Fin nx → K} {S : ASet nx np nc K}
  {s : Cell → ℕ → Iter (nx + nc) (nx + np + nc) K} {fineness : ℕ}

theorem adjoinRec_sound (hS : Sharp X S) {f : Fin nx → (Fin np → K) → K} {g : Fin nc → (Fin np → K) → K}
    (hd : Describes S f g) (hφ : ∀ j, Monotone (gridMap R o l j)) :
    ∀ (fuel : ℕ) (p : Paving) (c : Cell) (q : Paving), p.WF → adjoinRec R X o l S s fineness fuel p c = some q →
      q.WF ∧ p.closed (gridMap R o l) ⊆ q.closed (gridMap R o l) ∧
      ∀ x ∈ points S f g, x ∈ Paver.cellSet (gridMap R o l) c → x ∈ q.closed (gridMap R o l) := by
  intro fuel
  induction fuel with
  | zero => intro p c q _ h; simp [adjoinRec] at h
  | succ fuel ih =>
    intro p c q hp h
    rw [adjoinRec] at h
    by_cases h1 : cellSubset nx c p.sub = true
    · rw [if_pos h1] at h
      cases h
      exact ⟨hp, subset_rfl, fun _ _ hx => Paver.cellSubset_closed hφ h1 hx⟩
    rw [if_neg h1] at h
    obtain ⟨r, hr, h⟩ := Option.bind_eq_some_iff.1 h
    by_cases h2 : r = some false
    · rw [if_pos h2] at h
      cases h
      refine ⟨hp, subset_rfl, fun x hx hc => ?_⟩
      obtain ⟨r', hr', hn⟩ := meets_sound hS hd hx (Paver.mem_cellBox.2 hc) (s c)
      rw [hr] at hr'
      exact absurd h2 (by rw [Option.some.inj hr']; exact hn)
    rw [if_neg h2] at h
    by_cases h3 : ((fineness * nx : ℕ) : ℤ) ≤ Paver.depth nx c
    · rw [if_pos h3] at h
      obtain ⟨a1, a2⟩ := Paver.adjoinCell_closed hφ hp h
      exact ⟨a1, by rw [a2]; exact Set.subset_union_left, fun _ _ hx => by rw [a2]; exact Or.inr hx⟩
    rw [if_neg h3] at h
    obtain ⟨p', h7, h8⟩ := Option.bind_eq_some_iff.1 h
    obtain ⟨a1, a2, a3⟩ := ih p _ p' hp h7
    obtain ⟨b1, b2, b3⟩ := ih p' _ q a1 h8
    refine ⟨b1, a2.trans b2, fun x hx hc => ?_⟩
    rw [Paver.cellSet_split hφ] at hc
    rcases hc with hc | hc
    · exact b2 (a3 x hx hc)
    · exact b3 x hx hc

/-- What is added are cells of the depth asked for which the solver does not exclude. -/
theorem adjoinRec_tight (hφ : ∀ j, Monotone (gridMap R o l j)) :
    ∀ (fuel : ℕ) (p : Paving) (c : Cell) (q : Paving), p.WF → Paver.depth nx c ≤ ((fineness * nx : ℕ) : ℤ) →
      adjoinRec R X o l S s fineness fuel p c = some q →
      q.WF ∧ ∀ x ∈ q.closed (gridMap R o l), x ∈ p.closed (gridMap R o l) ∨ ∃ c', x ∈ Paver.cellSet (gridMap R o l) c' ∧
        Paver.depth nx c' = ((fineness * nx : ℕ) : ℤ) ∧
        meets X S (Paver.cellBox (gridMap R o l) c') (s c') ≠ some (some false) := by
  intro fuel
  induction fuel with
  | zero => intro p c q _ _ h; simp [adjoinRec] at h
  | succ fuel ih =>
    intro p c q hp hc h
    rw [adjoinRec] at h
    by_cases h1 : cellSubset nx c p.sub = true
    · rw [if_pos h1] at h
      cases h
      exact ⟨hp, fun x hx => Or.inl hx⟩
    rw [if_neg h1] at h
    obtain ⟨r, hr, h⟩ := Option.bind_eq_some_iff.1 h
    by_cases h2 : r = some false
    · rw [if_pos h2] at h
      cases h
      exact ⟨hp, fun x hx => Or.inl hx⟩
    rw [if_neg h2] at h
    by_cases h3 : ((fineness * nx : ℕ) : ℤ) ≤ Paver.depth nx c
    · rw [if_pos h3] at h
      obtain ⟨a1, a2⟩ := Paver.adjoinCell_closed hφ hp h
      refine ⟨a1, fun x hx => ?_⟩
      rw [a2] at hx
      rcases hx with hx | hx
      · exact Or.inl hx
      · exact Or.inr ⟨c, hx, le_antisymm hc h3, by rw [hr]; simpa using h2⟩
    rw [if_neg h3] at h
    have hc' : ∀ b, Paver.depth nx (c.split b) ≤ ((fineness * nx : ℕ) : ℤ) := fun b => by
      simp only [Paver.depth, Cell.split, List.length_append, List.length_singleton] at h3 ⊢
      push_cast at h3 ⊢
      omega
    obtain ⟨p', h7, h8⟩ := Option.bind_eq_some_iff.1 h
    obtain ⟨b1, b2⟩ := ih p _ p' hp (hc' _) h7
    obtain ⟨b3, b4⟩ := ih p' _ q b1 (hc' _) h8
    exact ⟨b3, fun x hx => (b4 x hx).elim (b2 x) Or.inr⟩

/-- The solver stops with an exception only for contradictory bounds. -/
theorem meets_total (he : ∀ i, 0 ≤ (S.space i).err)
    (hc : ∀ i, ∃ y, IsLower (Bounds.value X (S.cons i).lo) y ∧ IsUpper (Bounds.value X (S.cons i).hi) y)
    {b : Box nx K} (hb : ∃ x, Mem b x) (t : ℕ → Iter (nx + nc) (nx + np + nc) K) : ∃ r, meets X S b t = some r := by
  unfold meets feasible
  rw [if_pos]
  · exact ⟨_, rfl⟩
  rw [List.all_eq_true]
  intro j _
  obtain ⟨x, hx⟩ := hb
  have ok : ∀ {a c : Ext K} {y : K}, IsLower a y → IsUpper c y → LinearProgram.boundsOk a c = true := by
    intro a c y h1 h2
    cases a <;> cases c <;> simp [IsLower, IsUpper] at h1 h2 <;> simp [LinearProgram.boundsOk, Ext.eq, Ext.le]
    linarith
  refine Fin.addCases (fun j => ?_) (fun j => ?_) j
  · refine Fin.addCases (fun j => ?_) (fun j => ?_) j
    · simp only [lower, upper, Fin.append_left]
      obtain ⟨h1, h2⟩ := widen_mem (X := X) (z := x j) (hx j) (by simpa using he j)
      exact ok h1 h2
    · simp only [lower, upper, Fin.append_left, Fin.append_right]
      exact ok (y := (0 : K)) (by simp [IsLower]) (by simp [IsUpper])
  · simp only [lower, upper, Fin.append_right]
    obtain ⟨y, h1, h2⟩ := hc j
    exact ok (Ext.isLower_neg h2) (Ext.isUpper_neg h1)

theorem adjoinRec_total (he : ∀ i, 0 ≤ (S.space i).err)
    (hc : ∀ i, ∃ y, IsLower (Bounds.value X (S.cons i).lo) y ∧ IsUpper (Bounds.value X (S.cons i).hi) y)
    (hφ : ∀ j, Monotone (gridMap R o l j)) :
    ∀ (fuel : ℕ) (p : Paving) (c : Cell), p.WF → ((fineness * nx : ℕ) : ℤ) - Paver.depth nx c < fuel → 0 < fuel →
      ∃ q, adjoinRec R X o l S s fineness fuel p c = some q ∧ q.WF := by
  intro fuel
  induction fuel with
  | zero => intro p c _ _ h; exact absurd h (by omega)
  | succ fuel ih =>
    intro p c hp hf _
    rw [adjoinRec]
    by_cases h1 : cellSubset nx c p.sub = true
    · rw [if_pos h1]; exact ⟨p, rfl, hp⟩
    rw [if_neg h1]
    obtain ⟨r, hr⟩ := meets_total (b := Paver.cellBox (gridMap R o l) c) he hc
      ⟨fun j => (spaceBox (gridMap R o l) c.extent c.word j).1, fun j => ⟨le_refl _, Grid.spaceBox_le _ hφ _ _ j⟩⟩ (s c)
    rw [hr, Option.bind_some]
    by_cases h2 : r = some false
    · rw [if_pos h2]; exact ⟨p, rfl, hp⟩
    rw [if_neg h2]
    by_cases h3 : ((fineness * nx : ℕ) : ℤ) ≤ Paver.depth nx c
    · rw [if_pos h3]
      obtain ⟨q, h4, h5, -⟩ := Grid.C19_adjoin_cell (K := K) (d := nx) p c hp
      exact ⟨q, h4, h5⟩
    rw [if_neg h3]
    have hd : ∀ b, ((fineness * nx : ℕ) : ℤ) - Paver.depth nx (c.split b) < fuel ∧ 0 < fuel := fun b => by
      simp only [Paver.depth, Cell.split, List.length_append, List.length_singleton] at h3 hf ⊢
      push_cast at h3 hf ⊢
      omega
    obtain ⟨q, h4, h5⟩ := ih p (c.split false) hp (hd _).1 (hd false).2
    rw [h4, Option.bind_some]
    exact ih q (c.split true) h5 (hd _).1 (hd false).2

omit [IsStrictOrderedRing K] in
theorem finBox_asBox (b : Fin nx → Num K) : Paver.finBox (asBox b) = some fun j => ((b j).l, (b j).u) := by
  unfold Paver.finBox
  rw [if_pos]
  · rfl
  · rw [List.all_eq_true]; intro j _; rfl

omit [IsStrictOrderedRing K] in
theorem allEmpty_asBox (b : Fin nx → Num K) : Paver.allEmpty (asBox b) = false := by
  unfold Paver.allEmpty
  rw [List.all_eq_false]
  exact ⟨0, List.mem_finRange _, by simp [asBox]⟩

/-- **C80** (outer approximation, partial): whenever `adjoin_outer_approximation_to` ends, the paving contains the
previous paving and every point of the set, if the constraints have no uncertainty. -/
theorem C80_outer_sound_partial [Archimedean K] (hl : ∀ j, 0 < l j) (hS : Sharp X S) {f : Fin nx → (Fin np → K) → K}
    {g : Fin nc → (Fin np → K) → K} (hd : Describes S f g) {p q : Paving} (hp : p.WF) {gfuel fuel : ℕ}
    (h : adjoinOuter R X o l gfuel S s fineness fuel p = some q) : q.WF ∧
      p.closed (gridMap R o l) ⊆ q.closed (gridMap R o l) ∧ points S f g ⊆ q.closed (gridMap R o l) := by
  obtain ⟨b, hbb, h⟩ := Option.bind_eq_some_iff.1 h
  obtain ⟨c, hc, hq⟩ := Option.bind_eq_some_iff.1 h
  have hrep : ∀ j, R.Rep (b j).l ∧ R.Rep (b j).u := fun j => by
    unfold boundingBox at hbb
    split_ifs at hbb with hh
    obtain rfl := Option.some.inj hbb
    obtain ⟨e, -, h2⟩ := Option.map_eq_some_iff.1 (Option.some_get (hh j)).symm
    beta_reduce
    rw [← h2]
    exact ⟨R.rep_down _, R.rep_up _⟩
  rw [Paver.rootCell, allEmpty_asBox, if_neg (by simp), finBox_asBox, Option.bind_some] at hc
  obtain ⟨e, he, rfl⟩ := Option.map_eq_some_iff.1 hc
  obtain ⟨g1, g2, g3⟩ := adjoinRec_sound hS hd (Grid.gridMap_mono R o l fun j => (hl j).le) fuel p _ q hp hq
  exact ⟨g1, g2, fun x hx => g3 x hx (Paver.enclosing_sound hl hrep he (C80_bounding_box R hd hbb hx))⟩

/-- **C80** with **C71** (affine paver, partial): the affine paver covers the set, if each affine over-approximation
contains the restriction of the set and has constraints without uncertainty. -/
theorem C80_affine_paver_partial [Archimedean K] (hl : ∀ j, 0 < l j) {P : Paver.Problem np nx nc K}
    {ni : Box np K → Option (Fin np) × Ext K} {gfuel fuel : ℕ} {over : Box np K → ASet nx np nc K}
    {t : Box np K → Cell → ℕ → Iter (nx + nc) (nx + np + nc) K}
    (ho : ∀ d, ConstraintSolver.GoodBox R d → Sharp X (over d) ∧ ∃ f g, Describes (over d) f g ∧
      Paver.target P d ⊆ points (over d) f g) {p q : Paving} (hp : p.WF) {d : Box np K}
    (hd : ConstraintSolver.GoodBox R d)
    (h : Paver.affinePaver R ni fineness (fun d p => adjoinOuter R X o l gfuel (over d) (t d) fineness fuel p) p d =
      some q) :
    q.WF ∧ p.closed (gridMap R o l) ⊆ q.closed (gridMap R o l) ∧ Paver.target P d ⊆ q.closed (gridMap R o l) := by
  refine Paver.C71_affine (fun d p q hp hd h => ?_) hp hd h
  obtain ⟨h1, f, g, h2, h3⟩ := ho d hd
  obtain ⟨g1, g2, g3⟩ := C80_outer_sound_partial hl h1 h2 hp h
  exact ⟨g1, g2, h3.trans g3⟩

/-- **C80** (outer approximation, partial): `adjoin_outer_approximation_to` ends, and the paving then contains the
previous paving and every point of the set; a point which is new lies in a cell of the depth asked for which the linear
solver did not exclude.  The full statement lacks the hypothesis that the constraints have no uncertainty, without which
it is false (`C80_separated_error`). -/
theorem C80_outer_partial [Archimedean K] (hl : ∀ j, 0 < l j) (hS : Sharp X S) {f : Fin nx → (Fin np → K) → K}
    {g : Fin nc → (Fin np → K) → K} (hd : Describes S f g)
    (hc : ∀ i, ∃ y, IsLower (S.cons i).lo.l y ∧ IsUpper (S.cons i).hi.u y) {p : Paving} (hp : p.WF) :
    ∃ N, ∀ gfuel ≥ N, ∀ fuel ≥ N, ∃ q, adjoinOuter R X o l gfuel S s fineness fuel p = some q ∧ q.WF ∧
      p.closed (gridMap R o l) ⊆ q.closed (gridMap R o l) ∧ points S f g ⊆ q.closed (gridMap R o l) ∧
      ∀ x ∈ q.closed (gridMap R o l), x ∈ p.closed (gridMap R o l) ∨ ∃ c, x ∈ Paver.cellSet (gridMap R o l) c ∧
        Paver.depth nx c = ((fineness * nx : ℕ) : ℤ) ∧
        meets X S (Paver.cellBox (gridMap R o l) c) (s c) ≠ some (some false) := by
  have hφ := Grid.gridMap_mono R o l fun j => (hl j).le
  have he : ∀ i, 0 ≤ (S.space i).err := fun i => (hd.1 i).err_nonneg
  have hh : ∀ i, (Affine.range R (S.space i)).isSome := fun i => by
    obtain ⟨b, hb⟩ := Affine.C78_range_defined R (he i); rw [hb]; rfl
  have hbb : boundingBox R S = some fun i => (Affine.range R (S.space i)).get (hh i) := by
    unfold boundingBox; rw [dif_pos hh]
  generalize hB : (fun i => (Affine.range R (S.space i)).get (hh i)) = b at hbb
  have hrep : ∀ j, R.Rep (b j).l ∧ R.Rep (b j).u := fun j => by
    have h1 : Affine.range R (S.space j) = some (b j) := by rw [← hB]; exact (Option.some_get (hh j)).symm
    obtain ⟨e, -, h2⟩ := Option.map_eq_some_iff.1 h1
    rw [← h2]
    exact ⟨R.rep_down _, R.rep_up _⟩
  obtain ⟨N, e, h1, -⟩ := Grid.C21_enclosing R o l hl (fun j => ((b j).l, (b j).u)) hrep
  refine ⟨max N (fineness * nx + e * nx + 1), fun gfuel hg fuel hf => ?_⟩
  have hroot : Paver.rootCell R o l gfuel (asBox b) = some ⟨e, []⟩ := by
    rw [Paver.rootCell, allEmpty_asBox, if_neg (by simp), finBox_asBox, Option.bind_some,
      h1 gfuel ((le_max_left _ _).trans hg)]
    rfl
  have hf := (le_max_right _ _).trans hf
  have hdep : Paver.depth nx ⟨e, []⟩ = -((e * nx : ℕ) : ℤ) := by simp [Paver.depth]
  have hc' : ∀ i, ∃ y, IsLower (Bounds.value X (S.cons i).lo) y ∧ IsUpper (Bounds.value X (S.cons i).hi) y := fun i => by
    rw [(hS i).2.1, (hS i).2.2]; exact hc i
  obtain ⟨q, hq, -⟩ := adjoinRec_total (s := s) (fineness := fineness) he hc' hφ fuel p ⟨e, []⟩ hp
    (by rw [hdep]; omega) (by omega)
  obtain ⟨g1, g2, g3⟩ := adjoinRec_sound hS hd hφ fuel p _ q hp hq
  refine ⟨q, ?_, g1, g2, fun x hx => g3 x hx ?_, (adjoinRec_tight hφ fuel p _ q hp (by rw [hdep]; omega) hq).2⟩
  · unfold adjoinOuter
    rw [hbb, Option.bind_some, hroot, Option.bind_some, hq]
  · refine Paver.enclosing_sound hl hrep (h1 gfuel ((le_max_left _ _).trans hg)) ?_
    have := C80_bounding_box R hd hbb hx
    exact this

end outer

/-! ## Constructors -/

/-- **C80** (construction from a matrix, partial): over the unit box the set is `{Gy+h | y in D}`.  The full statement,
for every box `D`, is false (`C80_domain_ignored`). -/
theorem C80_of_matrix_partial (G : Fin nx → Fin np → K) (h : Fin nx → K) :
    let f := fun i (y : Fin np → K) => h i + ∑ j, G i j * y j
    Describes (ofMatrix (fun _ => (-1, 1)) G h) f Fin.elim0 ∧
      points (ofMatrix (fun _ => (-1, 1)) G h) f Fin.elim0 = {x | ∃ y, (∀ j, -1 ≤ y j ∧ y j ≤ 1) ∧ x = fun i => f i y} := by
  refine ⟨⟨fun i z _ => by simp [ofMatrix, AM.at], fun i => i.elim0⟩, ?_⟩
  ext x
  constructor
  · rintro ⟨p, hp, -, rfl⟩; exact ⟨p, fun j => abs_le.1 (hp j), rfl⟩
  · rintro ⟨p, hp, rfl⟩; exact ⟨p, fun j => abs_le.2 (hp j), fun i => i.elim0, rfl⟩

/-- **C80** (construction from affine functions, partial): over the unit box the models enclose the functions.  The full
statement, for every box, is false (`C80_affine_functions_ignored`). -/
theorem C80_of_affines_partial (R : Rounding K) {c : Fin nx → Num K} {g : Fin nx → Fin np → Num K} {S : ASet nx np 0 K}
    (h : ofAffines R (fun _ => (-1, 1)) c g = some S) {y : Fin nx → K} {q : Fin nx → Fin np → K}
    (hy : ∀ i, (c i).Has (y i)) (hq : ∀ i j, (g i j).Has (q i j)) :
    Describes S (fun i z => y i + ∑ j, q i j * z j) Fin.elim0 := by
  unfold ofAffines at h
  rw [if_pos fun _ => rfl] at h
  split_ifs at h with hh
  obtain rfl := Option.some.inj h
  exact ⟨fun i => Affine.C78_of_affine R (Option.some_get (hh i)).symm (hy i) (hq i), fun i => i.elim0⟩

/-- **C80** (construction from a box, partial): every point of the box is a point of the set, if midpoints and radii are
computed without rounding and the midpoints are not negative.  For boxes with negative midpoints the models of
`scaling` are wrong (`C78_scaling_counterexample`). -/
theorem C80_of_box_partial (R : Rounding K) {d : Fin nx → K × K} (h1 : ∀ i, R.Rep ((d i).1 + (d i).2))
    (h2 : ∀ i, R.Rep ((d i).2 - (d i).1)) (h3 : ∀ i, (d i).1 ≤ (d i).2) (h4 : ∀ i, 0 ≤ (d i).1 + (d i).2) :
    ∃ a f, ofBox R d = some a ∧ Describes (ofModels d a Fin.elim0) f Fin.elim0 ∧
      points (ofModels d a Fin.elim0) f Fin.elim0 = {x | ∀ i, (d i).1 ≤ x i ∧ x i ≤ (d i).2} := by
  have hs := fun i => Affine.C78_scaling_partial (n := nx) (j := i) R (h1 i) (h2 i) (h3 i) (h4 i)
  choose a ha he using hs
  have hh : ∀ i, (Affine.scaling R nx i (d i).1 (d i).2).isSome := fun i => by rw [ha i]; rfl
  refine ⟨fun i => (Affine.scaling R nx i (d i).1 (d i).2).get (hh i),
    fun i z => ((d i).1 + (d i).2) / 2 + ((d i).2 - (d i).1) / 2 * z i, by unfold ofBox; rw [dif_pos hh], ⟨?_, ?_⟩, ?_⟩
  · intro i
    have : (Affine.scaling R nx i (d i).1 (d i).2).get (hh i) = a i := Option.get_of_eq_some _ (ha i)
    change Encl ((Affine.scaling R nx i (d i).1 (d i).2).get (hh i)) _
    rw [this]
    exact he i
  · exact fun i => i.elim0
  · ext x
    constructor
    · rintro ⟨p, hp, -, rfl⟩ i
      obtain ⟨q1, q2⟩ := abs_le.1 (hp i)
      have := h3 i
      constructor <;> simp only <;> nlinarith
    · intro hx
      refine ⟨fun i => if (d i).1 = (d i).2 then 0 else (x i - ((d i).1 + (d i).2) / 2) / (((d i).2 - (d i).1) / 2),
        fun i => ?_, fun i => i.elim0, funext fun i => ?_⟩
      · beta_reduce
        by_cases hi : (d i).1 = (d i).2
        · rw [if_pos hi]; simp
        · rw [if_neg hi]
          have : 0 < ((d i).2 - (d i).1) / 2 := by
            have := lt_of_le_of_ne (h3 i) hi; linarith
          obtain ⟨q1, q2⟩ := hx i
          rw [abs_le, le_div_iff₀ this, div_le_iff₀ this]
          constructor <;> linarith
      · obtain ⟨q1, q2⟩ := hx i
        by_cases hi : (d i).1 = (d i).2
        · simp only [hi, if_true]
          rw [hi] at q1
          linarith
        · simp only [if_neg hi]
          have : ((d i).2 - (d i).1) / 2 ≠ 0 := by
            intro hc; apply hi; linarith
          rw [mul_div_cancel₀ _ this]
          ring

/-- **C80** (construction from balls, partial): for an interval whose upper end point is known and has single precision,
the model encloses the map of the unit interval onto every interval whose lower end point is in the ball.  The error of
the upper end point is ignored (`C80_ball_error`). -/
theorem C80_of_balls_partial (R : Rounding K) (single : K → K) {b : Fin nx → (K × K) × (K × K)} {i : Fin nx}
    (hu : single (b i).2.1 = (b i).2.1) (h1 : R.Rep (single (b i).1.1 + (b i).2.1))
    (h2 : R.Rep ((b i).2.1 - single (b i).1.1)) (h3 : single (b i).1.1 ≤ (b i).2.1)
    (h4 : 0 ≤ single (b i).1.1 + (b i).2.1) {a : AM nx K} (h : ofBalls R single b i = some a) {l : K}
    (hl : |l - (b i).1.1| ≤ (b i).1.2) : Encl a fun z => (l + (b i).2.1) / 2 + ((b i).2.1 - l) / 2 * z i := by
  obtain ⟨r, hr, he⟩ := Affine.C78_scaling_partial (n := nx) (j := i) R h1 h2 h3 h4
  unfold ofBalls makeDomain at h
  simp only [hu] at h
  rw [hr, Option.bind_some] at h
  obtain ⟨e, h5, rfl⟩ := Option.map_eq_some_iff.1 h
  have h6 := Affine.eadd_some h5
  rw [max_self] at h6
  intro z hz
  have h7 := he z hz
  beta_reduce at h7 ⊢
  set dl := single (b i).1.1
  set u := (b i).2.1
  set c := (b i).1.1
  have h8 := R.le_up (max |R.down (c - dl)| |R.up (c - dl)| + (b i).1.2)
  have h9 : |c - dl| ≤ max |R.down (c - dl)| |R.up (c - dl)| := abs_le_max_abs_abs (R.down_le _) (R.le_up _)
  have hz1 := abs_le.1 (hz i)
  have e1 : (l + u) / 2 + (u - l) / 2 * z i - r.at z =
      ((dl + u) / 2 + (u - dl) / 2 * z i - r.at z) + (l - dl) * ((1 - z i) / 2) := by ring
  have e2 : |(l - dl) * ((1 - z i) / 2)| ≤ |l - dl| := by
    rw [abs_mul]
    refine mul_le_of_le_one_right (abs_nonneg _) ?_
    rw [abs_le]
    constructor <;> linarith
  have e3 : |l - dl| ≤ |l - c| + |c - dl| := abs_sub_le _ _ _
  show |(l + u) / 2 + (u - l) / 2 * z i - r.at z| ≤ e
  rw [e1]
  refine (abs_add_le _ _).trans ?_
  linarith

end Verif.AffineSet
