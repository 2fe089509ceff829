import Verif.FunctionSet.Model
import Mathlib.Topology.Algebra.Order.LiminfLimsup

/-!
# C68: sets given by constraints

Specification: `CSet.pts` and `BSet.pts` are the sets of points described by the constraints, in exact
arithmetic.
-/

namespace Verif.FunctionSet

open Ariadne Ariadne.Logical Verif.ConstraintSolver
open Ariadne.Ext (fin)

variable {n m k : ℕ} {K : Type*} [Field K] [LinearOrder K] [IsStrictOrderedRing K]

/-- Interval evaluation of the function encloses its values. -/
def Func.Ok (f : Func n K) : Prop := ∀ p, EnclosesAt f.ev (f.val p) p

/-- The point satisfies all the constraints. -/
def Sat (cs : List (Constr n K)) (p : Fin n → K) : Prop := ∀ c ∈ cs, c.bnd.Contains (c.fn.val p)

/-- The points of a constraint set. -/
def CSet.pts (a : CSet n K) : Set (Fin n → K) := {p | Sat a.cs p}

/-- The points of a bounded constraint set. -/
def BSet.pts (a : BSet n K) : Set (Fin n → K) := {p | Mem a.dom p ∧ Sat a.cs p}

/-- The contractor removes no point satisfying the constraints, and gives floating-point boxes. -/
structure HullSound (R : Rounding K) (T : Tools n K) : Prop where
  mem : ∀ cs B p, Mem B p → (∀ c ∈ cs, c.2.Contains (c.1.val p)) → Mem (T.hull cs B) p
  rep : ∀ cs B, RepBox R B → boxEmpty (T.hull cs B) = false → RepBox R (T.hull cs B)

/-- The optimiser answers true only if there is a feasible point. -/
def OptimiserSound (T : Tools n K) : Prop :=
  ∀ d cs, T.optimiser d cs = .true_ → ∃ p, Mem d p ∧ ∀ c ∈ cs, c.2.Contains (c.1.val p)

/-- An end point which is infinite or a floating-point number. -/
def RepExt (R : Rounding K) : Ext K → Prop
  | fin x => R.Rep x
  | .nan => False
  | _ => True

/-- The bounds of a constraint are floating-point numbers. -/
def Constr.Exact (R : Rounding K) (c : Constr n K) : Prop := RepExt R c.bnd.l ∧ RepExt R c.bnd.u

variable {R : Rounding K}

/-! ## Rounding of boxes -/

theorem over_contains {b : Bounds K} {x : K} (h : b.Contains x) : (over (.ofRounding R) b).Contains x := by
  obtain ⟨l, u⟩ := b
  obtain ⟨h1, h2⟩ := h
  constructor
  · cases l with
    | fin l => exact le_trans (R.down_le l) h1
    | _ => exact h1
  · cases u with
    | fin u => exact le_trans h2 (R.le_up u)
    | _ => exact h2

theorem contains_of_under {b : Bounds K} {x : K} (h : (under (.ofRounding R) b).Contains x) :
    b.Contains x := by
  obtain ⟨l, u⟩ := b
  obtain ⟨h1, h2⟩ := h
  constructor
  · cases l with
    | fin l => exact le_trans (R.le_up l) h1
    | _ => exact h1
  · cases u with
    | fin u => exact le_trans h2 (R.down_le u)
    | _ => exact h2

theorem strictly_of_under {b : Bounds K} {x : K} (h : Strictly (under (.ofRounding R) b) x) :
    Strictly b x := by
  obtain ⟨l, u⟩ := b
  obtain ⟨h1, h2⟩ := h
  constructor
  · cases u with
    | fin u => exact fun h => h1 (le_trans (R.down_le u) h)
    | _ => exact h1
  · cases l with
    | fin l => exact fun h => h2 (le_trans h (R.le_up l))
    | _ => exact h2

theorem down_rep {x : K} (h : R.Rep x) : R.down x = x := le_antisymm (R.down_le x) (R.down_max x x h le_rfl)

theorem up_rep {x : K} (h : R.Rep x) : R.up x = x := le_antisymm (R.up_min x x h le_rfl) (R.le_up x)

theorem roundExt_down {e : Ext K} (h : RepExt R e) : roundExt (XRounding.ofRounding R).down e = e := by
  cases e with
  | fin x => exact congrArg fin (down_rep h)
  | _ => rfl

theorem roundExt_up {e : Ext K} (h : RepExt R e) : roundExt (XRounding.ofRounding R).up e = e := by
  cases e with
  | fin x => exact congrArg fin (up_rep h)
  | _ => rfl

theorem over_exact {b : Bounds K} (h1 : RepExt R b.l) (h2 : RepExt R b.u) :
    over (.ofRounding R) b = b := by
  simp only [over, roundExt_down h1, roundExt_up h2]

theorem mem_overBox {B : Box n K} {p : Fin n → K} (h : Mem B p) : Mem (overBox (.ofRounding R) B) p :=
  fun i => over_contains (h i)

theorem mem_of_underBox {B : Box n K} {p : Fin n → K} (h : Mem (underBox (.ofRounding R) B) p) : Mem B p :=
  fun i => contains_of_under (h i)

/-- A box with finite end points. -/
def FinBox (B : Box n K) : Prop := ∀ i, (B i).Finite

theorem rep_overBox {B : Box n K} (h : FinBox B) : RepBox R (overBox (.ofRounding R) B) := by
  intro i
  obtain ⟨⟨l, hl⟩, u, hu⟩ := h i
  refine ⟨R.down l, R.up u, ?_, R.rep_down _, R.rep_up _⟩
  simp only [overBox, over, hl, hu, roundExt]
  rfl

theorem rep_underBox {B : Box n K} (h : FinBox B) : RepBox R (underBox (.ofRounding R) B) := by
  intro i
  obtain ⟨⟨l, hl⟩, u, hu⟩ := h i
  refine ⟨R.up l, R.down u, ?_, R.rep_up _, R.rep_down _⟩
  simp only [underBox, under, hl, hu, roundExt]
  rfl

/-! ## Tests for boxes -/

theorem mem_interBox {A B : Box n K} {p : Fin n → K} (h1 : Mem A p) (h2 : Mem B p) : Mem (interBox A B) p :=
  fun i => refinement_contains (h1 i) (h2 i)

theorem refinement_fin (a b c d : K) :
    (Bounds.refinement ⟨fin a, fin b⟩ ⟨fin c, fin d⟩ : Bounds K) = ⟨fin (max a c), fin (min b d)⟩ := by
  simp only [Bounds.refinement, Ext.max, Ext.min, Ext.lt, decide_eq_true_eq]
  congr 1
  · split_ifs with h
    · rw [max_eq_right h.le]
    · rw [max_eq_left (not_lt.1 h)]
  · split_ifs with h
    · rw [min_eq_right h.le]
    · rw [min_eq_left (not_lt.1 h)]

theorem contains_of_refinement {a b c d : K} {x : K}
    (h : (Bounds.refinement ⟨fin a, fin b⟩ ⟨fin c, fin d⟩ : Bounds K).Contains x) :
    (a ≤ x ∧ x ≤ b) ∧ (c ≤ x ∧ x ≤ d) := by
  rw [refinement_fin] at h
  obtain ⟨h1, h2⟩ := h
  have h1 : max a c ≤ x := h1
  have h2 : x ≤ min b d := h2
  exact ⟨⟨le_trans (le_max_left _ _) h1, le_trans h2 (min_le_left _ _)⟩,
    ⟨le_trans (le_max_right _ _) h1, le_trans h2 (min_le_right _ _)⟩⟩

theorem rep_interBox {A B : Box n K} (hA : RepBox R A) (hB : RepBox R B) : RepBox R (interBox A B) := by
  intro i
  obtain ⟨a, b, e, ha, hb⟩ := hA i
  obtain ⟨c, d, f, hc, hd⟩ := hB i
  refine ⟨max a c, min b d, ?_, ?_, ?_⟩
  · simp only [interBox, e, f, refinement_fin]
  · rcases max_choice a c with h | h <;> rw [h] <;> assumption
  · rcases min_choice b d with h | h <;> rw [h] <;> assumption

theorem mem_of_interBox {A B : Box n K} {p : Fin n → K} (hA : RepBox R A) (hB : RepBox R B)
    (h : Mem (interBox A B) p) : Mem A p ∧ Mem B p := by
  constructor <;> intro i <;> obtain ⟨a, b, e, -, -⟩ := hA i <;> obtain ⟨c, d, f, -, -⟩ := hB i <;>
    (have h1 := h i; simp only [interBox, e, f] at h1; have h2 := contains_of_refinement h1)
  · rw [e]; exact h2.1
  · rw [f]; exact h2.2

theorem disjointBox_sound {A B : Box n K} (h : disjointBox A B = true) {p : Fin n → K} (h1 : Mem A p)
    (h2 : Mem B p) : False := by
  simp only [disjointBox, List.any_eq_true, List.mem_finRange, true_and] at h
  obtain ⟨i, hi⟩ := h
  rw [disjoint_false (h1 i) (h2 i)] at hi
  exact absurd hi (by simp)

theorem insideIvl_sound {a b : Bounds K} (h : insideIvl a b = true) {x : K} (hx : a.Contains x) :
    Strictly b x := by
  obtain ⟨al, au⟩ := a
  obtain ⟨bl, bu⟩ := b
  obtain ⟨x1, x2⟩ := hx
  simp only [insideIvl, Bool.and_eq_true] at h
  obtain ⟨h1, h2⟩ := h
  constructor
  · intro h3
    cases au <;> cases bu <;> simp [Ext.lt, IsLower, IsUpper] at h2 h3 x2
    linarith
  · intro h3
    cases al <;> cases bl <;> simp [Ext.lt, IsLower, IsUpper] at h1 h3 x1
    linarith

theorem insideIvl_noNaN {a b : Bounds K} (h : insideIvl a b = true) : b.NoNaN := by
  obtain ⟨al, au⟩ := a
  obtain ⟨bl, bu⟩ := b
  simp only [insideIvl, Bool.and_eq_true] at h
  obtain ⟨h1, h2⟩ := h
  constructor
  · rintro rfl
    cases al <;> simp [Ext.lt] at h1
  · rintro rfl
    cases au <;> simp [Ext.lt] at h2

theorem contains_of_under_noNaN {b : Bounds K} (h : (under (.ofRounding R) b).NoNaN) : b.NoNaN := by
  obtain ⟨l, u⟩ := b
  obtain ⟨h1, h2⟩ := h
  constructor
  · rintro rfl; exact h1 rfl
  · rintro rfl; exact h2 rfl

/-- Every coordinate is strictly between the end points of the box. -/
def Inside (B : Box n K) (p : Fin n → K) : Prop := ∀ i, Strictly (B i) (p i)

theorem insideBox_sound {A B : Box n K} (h : insideBox A B = true) {p : Fin n → K} (hp : Mem A p) :
    Inside B p := by
  simp only [insideBox, List.all_eq_true, List.mem_finRange, true_implies] at h
  exact fun i => insideIvl_sound (h i) (hp i)

theorem coversBox_sound {A B : Box n K} (h : coversBox A B = true) {p : Fin n → K} (hp : Mem B p) :
    Inside A p := by
  refine insideBox_sound (A := B) ?_ hp
  simpa [insideBox, insideIvl, coversBox] using h

/-! ## Reducing a box for a list of constraints -/

theorem boxReduceAll_rep : ∀ (l : List (Fn n K × Bounds K × Fin n)) (B : Box n K) (r : Bool × Box n K),
    RepBox R B → boxReduceAll (.ofRounding R) l B = some r → boxEmpty r.2 = false → RepBox R r.2
  | [], B, r, hB, h, _ => by
    simp only [boxReduceAll, Option.some.injEq] at h
    subst h
    exact hB
  | (F, b, v) :: l, B, r, hB, h, he => by
    simp only [boxReduceAll, Option.bind_eq_some_iff] at h
    obtain ⟨r1, h1, h2⟩ := h
    split_ifs at h2 with h3
    · cases h2
      rw [h3] at he
      exact absurd he (by simp)
    · exact boxReduceAll_rep l _ _ (boxReduce_rep hB h1 (by simpa using h3)) h2 he

theorem reduceLoop_rep {H : Contractor n K} {cs : List (Fn n K × Bounds K)}
    (hR : ∀ B, RepBox R B → boxEmpty (H B) = false → RepBox R (H B)) :
    ∀ (fuel : ℕ) (B : Box n K) (mag : Ext K) (r : Bool × Box n K), RepBox R B →
      reduceLoop (.ofRounding R) H cs fuel B mag = some r → boxEmpty r.2 = false → RepBox R r.2
  | 0, B, mag, r, _, h, _ => by simp [reduceLoop] at h
  | fuel + 1, B, mag, r, hB, h, he => by
    rw [reduceLoop] at h
    simp only at h
    split_ifs at h with h1
    · cases h
      rw [h1] at he
      exact absurd he (by simp)
    · simp only [Option.bind_eq_some_iff] at h
      obtain ⟨r1, e1, e2⟩ := h
      have h1 : boxEmpty (H B) = false := by simpa using h1
      split_ifs at e2 with h3 h4 h5
      · obtain rfl : (true, r1.2) = r := by simpa using e2
        exact boxReduceAll_rep _ _ r1 (hR B hB h1) e1 he
      · cases e2
        rw [h4] at he
        exact absurd he (by simp)
      · exact reduceLoop_rep hR fuel _ _ _ (boxReduceAll_rep _ _ _ (hR B hB h1) e1 (by simpa using h4)) e2 he
      · obtain rfl : (false, r1.2) = r := by simpa using e2
        exact boxReduceAll_rep _ _ r1 (hR B hB h1) e1 he

variable {T : Tools n K}

theorem reduceAll_sound (hT : HullSound R T) {cs : List (Func n K × Bounds K)} (hf : ∀ c ∈ cs, c.1.Ok)
    {B : Box n K} (hB : RepBox R B) {r : Bool × Box n K} (h : reduceAll (.ofRounding R) T cs B = some r)
    {p : Fin n → K} (hp : Mem B p) (hc : ∀ c ∈ cs, c.2.Contains (c.1.val p)) : r.1 = false ∧ Mem r.2 p := by
  rw [reduceAll, ConstraintSolver.reduce, boxEmpty_false hp, if_neg (by simp)] at h
  refine reduceLoop_sound (fun B hp => hT.mem cs B p hp hc) (hT.rep cs) ?_ _ B _ r hp hB h
  intro d hd
  simp only [List.mem_map] at hd
  obtain ⟨c, hcs, rfl⟩ := hd
  exact enclosed_not_empty (hf c hcs p) (hc c hcs)

theorem reduceAll_rep (hT : HullSound R T) {cs : List (Func n K × Bounds K)}
    {B : Box n K} (hB : RepBox R B) {r : Bool × Box n K} (h : reduceAll (.ofRounding R) T cs B = some r)
    (he : boxEmpty r.2 = false) : RepBox R r.2 := by
  rw [reduceAll, ConstraintSolver.reduce] at h
  split_ifs at h with h1
  · cases h
    exact hB
  · exact reduceLoop_rep (hT.rep cs) _ _ _ _ hB h he

/-! ## The loop of `overlaps` -/

theorem overlapsLoop_sound (hT : OptimiserSound T) {cs : List (Func n K × Bounds K)} :
    ∀ (fuel : ℕ) (l : List (ℕ × Box n K)), (∀ d ∈ l, GoodBox R d.2) →
      VSet.overlapsLoop (.ofRounding R) T cs fuel l = some true →
      ∃ d ∈ l, ∃ p, Mem d.2 p ∧ ∀ c ∈ cs, c.2.Contains (c.1.val p)
  | fuel, [], _, h => by cases fuel <;> simp [VSet.overlapsLoop] at h
  | 0, _ :: _, _, h => by simp [VSet.overlapsLoop] at h
  | fuel + 1, (s, d) :: rest, hd, h => by
    have hr : ∀ e ∈ rest, GoodBox R e.2 := fun e he => hd e (List.mem_cons_of_mem _ he)
    have go : VSet.overlapsLoop (.ofRounding R) T cs fuel rest = some true →
        ∃ e ∈ (s, d) :: rest, ∃ p, Mem e.2 p ∧ ∀ c ∈ cs, c.2.Contains (c.1.val p) := by
      intro h
      obtain ⟨e, he, p, hp⟩ := overlapsLoop_sound hT fuel rest hr h
      exact ⟨e, List.mem_cons_of_mem _ he, p, hp⟩
    have sp : (if s = 2 then VSet.overlapsLoop (.ofRounding R) T cs fuel rest
        else (split (.ofRounding R) d).bind fun p =>
          VSet.overlapsLoop (.ofRounding R) T cs fuel ((s + 1, p.2) :: (s + 1, p.1) :: rest)) = some true →
        ∃ e ∈ (s, d) :: rest, ∃ p, Mem e.2 p ∧ ∀ c ∈ cs, c.2.Contains (c.1.val p) := by
      intro h
      split_ifs at h with h2
      · exact go h
      · simp only [Option.bind_eq_some_iff] at h
        obtain ⟨q, hq, h⟩ := h
        obtain ⟨g1, g2, g3⟩ := C56_split (hd (s, d) (by simp)) hq
        obtain ⟨e, he, p, hp, hc⟩ := overlapsLoop_sound hT fuel _ (by
          intro e he
          simp only [List.mem_cons] at he
          rcases he with rfl | rfl | he
          · exact g2
          · exact g1
          · exact hr e he) h
        simp only [List.mem_cons] at he
        rcases he with rfl | rfl | he
        · exact ⟨(s, d), by simp, p, (g3 p).2 (Or.inr hp), hc⟩
        · exact ⟨(s, d), by simp, p, (g3 p).2 (Or.inl hp), hc⟩
        · exact ⟨e, List.mem_cons_of_mem _ he, p, hp, hc⟩
    rw [VSet.overlapsLoop] at h
    cases ho : T.optimiser d cs with
    | true_ =>
      obtain ⟨p, hp⟩ := hT d cs ho
      exact ⟨(s, d), by simp, p, hp⟩
    | false_ => rw [ho] at h; exact go h
    | unlikely => rw [ho] at h; exact sp h
    | indeterminate => rw [ho] at h; exact sp h
    | likely => rw [ho] at h; exact sp h

/-! ## Constraint sets -/

theorem sat_append {a b : List (Constr n K)} {p : Fin n → K} : Sat (a ++ b) p ↔ Sat a p ∧ Sat b p := by
  simp only [Sat, List.mem_append]
  exact ⟨fun h => ⟨fun c hc => h c (Or.inl hc), fun c hc => h c (Or.inr hc)⟩,
    fun h c hc => hc.elim (h.1 c) (h.2 c)⟩

/-- **C68**: the set `{x | f(x) ∈ C}` is made with the right points and dimension. -/
theorem C68_construct (f : Fin m → Func n K) (b : Box m K) :
    (CSet.ofFunction f b).dim = n ∧
    ∀ p, p ∈ (CSet.ofFunction f b).pts ↔ Mem b fun i => (f i).val p := by
  refine ⟨rfl, fun p => ?_⟩
  simp only [CSet.pts, CSet.ofFunction, CSet.constraints, Sat, Set.mem_setOf_eq, List.mem_map,
    List.mem_finRange, true_and, forall_exists_index, forall_apply_eq_imp_iff]
  rfl

/-- **C68**: the intersection of constraint sets has exactly the common points. -/
theorem C68_intersection (a b : CSet n K) : (a.intersection b).pts = a.pts ∩ b.pts := by
  ext p
  exact sat_append

/-- **C68**, for the dimension of an intersection: it is that of the sets if one of them has a
constraint.  What is missing is the intersection of sets without constraints. -/
theorem C68_intersection_dimension_partial (a b : CSet n K) (h : a.cs ≠ [] ∨ b.cs ≠ []) :
    (a.intersection b).dim = n := by
  have : (a.cs ++ b.cs).isEmpty = false := by
    cases ha : a.cs <;> cases hb : b.cs <;> simp_all
  simp [CSet.intersection, CSet.ofList, this]

/-- The dimension of the intersection of two sets without constraints is `0`. -/
theorem C68_intersection_dimension_lost :
    ((CSet.ofFunction (m := 0) (n := 2) (K := ℚ) Fin.elim0 Fin.elim0).intersection
      (CSet.ofFunction (m := 0) Fin.elim0 Fin.elim0)).dim = 0 ∧
    (CSet.ofFunction (m := 0) (n := 2) (K := ℚ) Fin.elim0 Fin.elim0).dim = 2 := ⟨rfl, rfl⟩

/-- **C68**: a box reported to be separated from a constraint set has no point in it. -/
theorem C68_separated (hT : HullSound R T) {a : CSet n K} (ha : ∀ c ∈ a.cs, c.fn.Ok) {bx : Box n K}
    (hb : RepBox R bx) (h : a.separated (.ofRounding R) T bx = some true) {p : Fin n → K} (hp : Mem bx p) :
    p ∉ a.pts := by
  intro hs
  simp only [CSet.separated, Option.map_eq_some_iff] at h
  obtain ⟨r, h1, h2⟩ := h
  have := (reduceAll_sound hT (by
    intro c hc
    simp only [List.mem_map] at hc
    obtain ⟨d, hd, rfl⟩ := hc
    exact ha d hd) hb h1 hp (by
    intro c hc
    simp only [List.mem_map] at hc
    obtain ⟨d, hd, rfl⟩ := hc
    exact over_contains (hs d hd))).2
  rw [boxEmpty_false this] at h2
  exact absurd h2 (by simp)

/-- **C68**: a box reported to overlap a constraint set has a point in it, if the optimiser can be
trusted. -/
theorem C68_overlaps (hT : OptimiserSound T) {a : CSet n K} {bx : Box n K} (hb : GoodBox R bx)
    (h : a.overlaps (.ofRounding R) T bx = some true) : ∃ p, Mem bx p ∧ p ∈ a.pts := by
  obtain ⟨d, hd, p, hp, hc⟩ := overlapsLoop_sound hT _ _ (by simpa using hb) h
  simp only [List.mem_singleton] at hd
  subst hd
  refine ⟨p, hp, fun c hcs => contains_of_under (hc (c.fn, under (.ofRounding R) c.bnd) ?_)⟩
  exact List.mem_map_of_mem hcs

/-- **C68**: all the points of a box reported to be covered satisfy the constraints strictly. -/
theorem C68_covers {a : CSet n K} (ha : ∀ c ∈ a.cs, c.fn.Ok) {bx : Box n K}
    (h : a.covers (.ofRounding R) bx = true) {p : Fin n → K} (hp : Mem bx p) :
    p ∈ a.pts ∧ ∀ c ∈ a.cs, Strictly c.bnd (c.fn.val p) := by
  simp only [CSet.covers, List.all_eq_true] at h
  have key : ∀ c ∈ a.cs, Strictly c.bnd (c.fn.val p) := by
    intro c hc
    have h1 := h c hc
    rw [apply_eq hp] at h1
    exact strictly_of_under (insideIvl_sound h1 (ha c hc p bx hp))
  exact ⟨fun c hc => contains_of_strictly (contains_of_under_noNaN (insideIvl_noNaN (h c hc))) (key c hc), key⟩

theorem isOpen_strictly {b : Bounds ℝ} {f : (Fin n → ℝ) → ℝ} (hf : Continuous f) :
    IsOpen {p | Strictly b (f p)} := by
  obtain ⟨l, u⟩ := b
  have h1 : IsOpen {p | ¬ IsLower u (f p)} := by
    cases u with
    | fin u =>
      simp only [IsLower, not_le]
      exact isOpen_lt hf continuous_const
    | ninf => simp [IsLower]
    | pinf => simp [IsLower]
    | nan => simp [IsLower]
  have h2 : IsOpen {p | ¬ IsUpper l (f p)} := by
    cases l with
    | fin u =>
      simp only [IsUpper, not_le]
      exact isOpen_lt continuous_const hf
    | ninf => simp [IsUpper]
    | pinf => simp [IsUpper]
    | nan => simp [IsUpper]
  exact h1.inter h2

theorem isOpen_all {ι : Type*} {P : ι → (Fin n → ℝ) → Prop} : ∀ l : List ι, (∀ i ∈ l, IsOpen {p | P i p}) →
    IsOpen {p | ∀ i ∈ l, P i p}
  | [], _ => by simp
  | i :: l, h => by
    have h1 := h i (by simp)
    have h2 := isOpen_all l fun j hj => h j (List.mem_cons_of_mem _ hj)
    simp only [List.mem_cons, forall_eq_or_imp]
    exact h1.inter h2

/-- **C68**: for continuous functions, a box reported to be covered lies in the interior of the set. -/
theorem C68_covers_interior {R : Rounding ℝ} {a : CSet n ℝ} (ha : ∀ c ∈ a.cs, c.fn.Ok)
    (hc : ∀ c ∈ a.cs, Continuous c.fn.val) {bx : Box n ℝ}
    (h : a.covers (.ofRounding R) bx = true) : {p | Mem bx p} ⊆ interior a.pts := by
  by_cases hn : ∃ p, Mem bx p
  swap
  · exact fun p hp => absurd ⟨p, hp⟩ hn
  obtain ⟨p0, hp0⟩ := hn
  intro p hp
  refine mem_interior.2 ⟨{q | ∀ c ∈ a.cs, Strictly c.bnd (c.fn.val q)}, ?_, ?_, (C68_covers ha h hp).2⟩
  · intro q hq c hcs
    simp only [CSet.covers, List.all_eq_true] at h
    exact contains_of_strictly (contains_of_under_noNaN (insideIvl_noNaN (h c hcs))) (hq c hcs)
  · exact isOpen_all a.cs fun c hcs => isOpen_strictly (hc c hcs)

/-! ## Bounded constraint sets -/

/-- **C68**: the intersection of a constraint set with a box has exactly the common points. -/
theorem C68_intersection_box (c : CSet n K) (bx : Box n K) :
    (BSet.ofSetBox c bx).pts = c.pts ∩ {p | Mem bx p} := by
  ext p
  exact and_comm

/-- **C68**: a box reported to be separated from a bounded constraint set has no point in it. -/
theorem C68_bounded_separated (hT : HullSound R T) {a : BSet n K} (ha : ∀ c ∈ a.cs, c.fn.Ok)
    (hd : FinBox a.dom) {bx : Box n K} (hb : RepBox R bx)
    (h : a.separated (.ofRounding R) T bx = some true) {p : Fin n → K} (hp : Mem bx p) : p ∉ a.pts := by
  rintro ⟨h1, h2⟩
  rw [BSet.separated] at h
  split_ifs at h with h3
  · exact disjointBox_sound h3 (mem_overBox h1) hp
  · exact C68_separated (a := ⟨n, a.cs⟩) hT ha (rep_interBox hb (rep_overBox hd)) h
      (mem_interBox hp (mem_overBox h1)) h2

/-- **C68**: all the points of a box reported to be covered are in the set, strictly inside its domain
and strictly satisfying the constraints. -/
theorem C68_bounded_covers {a : BSet n K} (ha : ∀ c ∈ a.cs, c.fn.Ok) {bx : Box n K}
    (hd : FinBox a.dom) (h : a.covers (.ofRounding R) bx = true) {p : Fin n → K} (hp : Mem bx p) :
    p ∈ a.pts ∧ Inside a.dom p ∧ ∀ c ∈ a.cs, Strictly c.bnd (c.fn.val p) := by
  rw [BSet.covers] at h
  split_ifs at h with h1
  simp only [Bool.not_eq_true', Bool.not_eq_false] at h1
  have h2 := coversBox_sound h1 hp
  have h3 := C68_covers (a := ⟨n, a.cs⟩) ha h hp
  have h4 : Inside a.dom p := fun i => strictly_of_under (h2 i)
  refine ⟨⟨fun i => contains_of_strictly ?_ (h4 i), h3.1⟩, h4, h3.2⟩
  obtain ⟨⟨l, hl⟩, u, hu⟩ := hd i
  exact ⟨by rw [hl]; simp, by rw [hu]; simp⟩

/-- **C68**: for continuous functions, a box reported to be covered lies in the interior of the bounded
set. -/
theorem C68_bounded_covers_interior {R : Rounding ℝ} {a : BSet n ℝ} (ha : ∀ c ∈ a.cs, c.fn.Ok)
    (hc : ∀ c ∈ a.cs, Continuous c.fn.val) (hd : FinBox a.dom) {bx : Box n ℝ}
    (h : a.covers (.ofRounding R) bx = true) : {p | Mem bx p} ⊆ interior a.pts := by
  intro p hp
  refine mem_interior.2 ⟨{q | Inside a.dom q} ∩ {q | ∀ c ∈ a.cs, Strictly c.bnd (c.fn.val q)}, ?_, ?_,
    (C68_bounded_covers ha hd h hp).2⟩
  · rintro q ⟨h1, h2⟩
    have h' := h
    rw [BSet.covers] at h'
    split_ifs at h'
    simp only [CSet.covers, List.all_eq_true] at h'
    refine ⟨fun i => contains_of_strictly ?_ (h1 i), fun c hcs =>
      contains_of_strictly (contains_of_under_noNaN (insideIvl_noNaN (h' c hcs))) (h2 c hcs)⟩
    obtain ⟨⟨l, hl⟩, u, hu⟩ := hd i
    exact ⟨by rw [hl]; simp, by rw [hu]; simp⟩
  · refine IsOpen.inter ?_ (isOpen_all a.cs fun c hcs => isOpen_strictly (hc c hcs))
    have : {q : Fin n → ℝ | Inside a.dom q} = {q | ∀ i ∈ List.finRange n, Strictly (a.dom i) (q i)} := by
      ext q; simp [Inside]
    rw [this]
    exact isOpen_all _ fun i _ => isOpen_strictly (continuous_apply i)

/-- **C68**: a bounded constraint set reported to be inside a box lies strictly inside it; what is more,
so does a box which contains it. -/
theorem C68_bounded_inside {a : BSet n K} {bx : Box n K} (h : a.inside (.ofRounding R) bx = true) :
    ∃ B : Box n K, (∀ p ∈ a.pts, Mem B p) ∧ ∀ p, Mem B p → Inside bx p :=
  ⟨overBox (.ofRounding R) a.dom, fun _ hp => mem_overBox hp.1, fun _ hp => insideBox_sound h hp⟩

/-- **C68**: the bounding box contains the set, strictly inside. -/
theorem C68_bounded_bounding_box {a : BSet n K} (hd : FinBox a.dom) {eps : K} (he : 0 < eps)
    {p : Fin n → K} (hp : p ∈ a.pts) : Inside (a.boundingBox (.ofRounding R) eps) p := by
  intro i
  obtain ⟨⟨l, hl⟩, u, hu⟩ := hd i
  have h1 := hp.1 i
  obtain ⟨h2, h3⟩ := h1
  rw [hl] at h2
  rw [hu] at h3
  have h2 : l ≤ p i := h2
  have h3 : p i ≤ u := h3
  have e : a.boundingBox (.ofRounding R) eps i = ⟨fin (R.down (R.down l - eps)), fin (R.up (R.up u + eps))⟩ := by
    simp only [BSet.boundingBox, over, hl, hu, roundExt, sub_eq_add_neg]
    rfl
  rw [e]
  constructor
  · simp only [IsLower, not_le]
    have := R.le_up (R.up u + eps)
    have := R.le_up u
    linarith
  · simp only [IsUpper, not_le]
    have := R.down_le (R.down l - eps)
    have := R.down_le l
    linarith

/-- **C68**: a box reported to overlap a bounded constraint set with some constraint has a point in it, if
the optimiser can be trusted and the box meets the domain rounded inwards.  What is missing is the case
that it does not: the empty box is then split, and its parts need not be empty. -/
theorem C68_bounded_overlaps_partial (hT : OptimiserSound T) {a : BSet n K} (hd : FinBox a.dom)
    {bx : Box n K} (hb : GoodBox R bx) (hm : GoodBox R (interBox bx (underBox (.ofRounding R) a.dom)))
    (h : a.overlaps (.ofRounding R) T bx = some true) : ∃ p, Mem bx p ∧ p ∈ a.pts := by
  rw [BSet.overlaps] at h
  have back : ∀ p, Mem (interBox bx (underBox (.ofRounding R) a.dom)) p → Mem bx p ∧ Mem a.dom p := by
    intro p hp
    obtain ⟨h1, h2⟩ := mem_of_interBox hb.rep (rep_underBox hd) hp
    exact ⟨h1, mem_of_underBox h2⟩
  by_cases h1 : disjointBox (overBox (.ofRounding R) a.dom) bx = true
  · rw [if_pos h1] at h
    simp at h
  rw [if_neg h1] at h
  split_ifs at h with h2
  · simp only [Bool.and_eq_true, List.isEmpty_iff] at h2
    choose x y e hx hy hxy using hm
    have hp : Mem (interBox bx (underBox (.ofRounding R) a.dom)) x := by
      intro i
      rw [e i]
      exact ⟨le_rfl, hxy i⟩
    obtain ⟨g1, g2⟩ := back x hp
    exact ⟨x, g1, g2, by rw [h2.1]; intro c hc; simp at hc⟩
  · obtain ⟨p, hp, hs⟩ := C68_overlaps (a := ⟨n, a.cs⟩) hT hm h
    obtain ⟨g1, g2⟩ := back p hp
    exact ⟨p, g1, g2, hs⟩

/-- **C68**: without constraints, if the box meets the domain rounded inwards by the test which the code
makes, even when the latter is empty, the box and the domain have a common point. -/
theorem C68_bounded_overlaps_box {a : BSet n K} (ha : a.cs = []) (hd : FinBox a.dom)
    {bx : Box n K} (hb : GoodBox R bx) (ho : ∀ i l u, a.dom i = ⟨fin l, fin u⟩ → l ≤ u)
    (hi : intersectBox (underBox (.ofRounding R) a.dom) bx = true) : ∃ p, Mem bx p ∧ p ∈ a.pts := by
  simp only [intersectBox, List.all_eq_true, List.mem_finRange, true_implies, Bool.and_eq_true] at hi
  choose x y e hx hy hxy using hb
  have hl : ∀ i, ∃ l u, a.dom i = ⟨fin l, fin u⟩ := by
    intro i
    obtain ⟨⟨l, hl⟩, u, hu⟩ := hd i
    exact ⟨l, u, by cases hh : a.dom i; simp_all⟩
  choose l u hlu using hl
  refine ⟨fun i => max (x i) (l i), fun i => ?_, fun i => ?_, by rw [ha]; intro c hc; simp at hc⟩
  all_goals
    have h1 := hi i
    simp only [underBox, under, hlu i, e i, roundExt] at h1
    have h2 : R.up (l i) ≤ y i := of_decide_eq_true h1.1
    have h3 : x i ≤ R.down (u i) := of_decide_eq_true h1.2
    have h4 := ho i _ _ (hlu i)
    have h5 := hxy i
    have h6 := R.le_up (l i)
    have h7 := R.down_le (u i)
  · rw [e i]
    exact ⟨le_max_left _ _, max_le h5 (le_trans h6 h2)⟩
  · rw [hlu i]
    exact ⟨le_max_right _ _, max_le (le_trans h3 h7) h4⟩

end Verif.FunctionSet
