import Verif.Optimiser.Model
import Verif.Optimiser.Projected
import Verif.Solver.Implicit

/-!
# C70: certificates of feasibility and infeasibility are correct, as far as they are
-/

namespace Verif.Optimiser

open Ariadne Ariadne.Logical Verif.ConstraintSolver Verif.Matrix Verif.Solver Set
open Ariadne.Ext (fin)

/-! ## Specification -/

section Spec

variable {n m : ℕ} {K : Type*} [Field K] [LinearOrder K]

/-- There is a point of `D` which `f` maps into `C`. -/
def Feas (D : Box n K) (C : Box m K) (f : (Fin n → K) → Fin m → K) : Prop := ∃ p, Mem D p ∧ Mem C (f p)

/-- `g` encloses the values of `f`. -/
def Encl (g : GFn n m K) (f : (Fin n → K) → Fin m → K) : Prop :=
  ∀ X p, (∀ i, In (X i) (p i)) → ∀ i, In (g X i) (f p i)

/-- `g` and `J` enclose a function with continuous derivative and its derivative. -/
structure GValid (g : GFn n m ℝ) (J : GJac n m ℝ) (f : (Fin n → ℝ) → Fin m → ℝ)
    (f' : (Fin n → ℝ) → Matrix (Fin m) (Fin n) ℝ) : Prop where
  der : ∀ p, HasStrictFDerivAt f (linR (f' p)) p
  eval : Encl g f
  jac : ∀ X p, (∀ i, In (X i) (p i)) → ∀ i j, In (J X i j) (f' p i j)

end Spec

section General

variable {n m k : ℕ} {K : Type*} [Field K] [LinearOrder K] [IsStrictOrderedRing K]

theorem refines_mem {A B : Bounds K} {x : K} (h : Bounds.refines A B = true) (hA : In A x) : B.Contains x := by
  obtain ⟨⟨⟨a, ha⟩, b, hb⟩, h1, h2⟩ := hA
  obtain ⟨al, au⟩ := A
  obtain ⟨bl, bu⟩ := B
  simp only at ha hb h1 h2
  subst ha hb
  simp only [Bounds.refines, Bool.and_eq_true] at h
  exact ⟨Ext.isLower_mono ((Ext.le_fin_iff _ _).1 h.1) h1, Ext.isUpper_mono ((Ext.fin_le_iff _ _).1 h.2) h2⟩

theorem vRefines_in {A B : Box n K} {x : Fin n → K} (h : vRefines A B = true) (hA : ∀ i, In (A i) (x i)) :
    Mem B x := fun i => refines_mem (List.all_eq_true.1 h i (List.mem_finRange i)) (hA i)

theorem in_exactPt (x : Fin n → K) (i : Fin n) : In (exactPt x i) (x i) := in_pt (x i)

theorem containsPt_iff (D : Box n K) (x : Fin n → K) : containsPt D x = true ↔ Mem D x := by
  simp only [containsPt, List.all_eq_true, List.mem_finRange, forall_const, Bool.and_eq_true, Ext.le_fin_iff,
    Ext.fin_le_iff, Mem, Bounds.Contains]

/-- **C70**: a point accepted by `is_feasible_point` is in the domain, and its image satisfies the
constraints. -/
theorem C70_is_feasible_point {D : Box n K} {g : GFn n m K} {C : Box m K} {x : Fin n → K}
    {f : (Fin n → K) → Fin m → K} (hg : Encl g f) (h : isFeasiblePoint D g C x = true) :
    Mem D x ∧ Mem C (f x) := by
  rw [isFeasiblePoint, Bool.and_eq_true] at h
  exact ⟨(containsPt_iff D x).1 h.1, vRefines_in h.2 (hg _ _ (in_exactPt x))⟩

/-! ## Weighted sums of intervals, which may be unbounded -/

/-- The ends of `B` which are not NaN are bounds for `y`. -/
def Weak (B : Bounds K) (y : K) : Prop := (B.l = .nan ∨ IsLower B.l y) ∧ (B.u = .nan ∨ IsUpper B.u y)

theorem add_nan_left (rnd : K → Ext K) (a : Ext K) : Ext.add rnd .nan a = .nan := by cases a <;> rfl
theorem add_nan_right (rnd : K → Ext K) (a : Ext K) : Ext.add rnd a .nan = .nan := by cases a <;> rfl

variable (Q : XRounding K)

theorem weak_add {A B : Bounds K} {x y : K} (hA : Weak A x) (hB : Weak B y) :
    Weak (Bounds.add Q A B) (x + y) := by
  constructor
  · rcases hA.1 with h | h
    · exact Or.inl (by simp only [Bounds.add]; rw [h]; exact add_nan_left _ _)
    · rcases hB.1 with h' | h'
      · exact Or.inl (by simp only [Bounds.add]; rw [h']; exact add_nan_right _ _)
      · exact Or.inr (add_down Q h h')
  · rcases hA.2 with h | h
    · exact Or.inl (by simp only [Bounds.add]; rw [h]; exact add_nan_left _ _)
    · rcases hB.2 with h' | h'
      · exact Or.inl (by simp only [Bounds.add]; rw [h']; exact add_nan_right _ _)
      · exact Or.inr (add_up Q h h')

theorem infSign_cases (a : K) : Ext.infSign a = .pinf ∧ 0 < a ∨ Ext.infSign a = .ninf ∧ a < 0 ∨
    (Ext.infSign a : Ext K) = .nan := by
  rcases lt_trichotomy a 0 with h | h | h
  · exact Or.inr (Or.inl ⟨by simp [Ext.infSign, h, h.not_gt], h⟩)
  · subst h; exact Or.inr (Or.inr (by simp [Ext.infSign]))
  · exact Or.inl ⟨by simp [Ext.infSign, h], h⟩

theorem weak_opMulFB {B : Bounds K} {y : K} (a : K) (hB : B.Contains y) :
    Weak (Bounds.opMulFB Q (fin a) B) (a * y) := by
  obtain ⟨l, u⟩ := B
  obtain ⟨hl, hu⟩ := hB
  simp only at hl hu
  by_cases h : 0 ≤ a
  · have hle : Ext.le (fin (0 : K)) (fin a) = true := by simpa using h
    simp only [Bounds.opMulFB, hle, if_true]
    constructor
    · cases l with
      | nan => exact hl.elim
      | pinf => exact hl.elim
      | fin l => exact Or.inr (Q.down_of_le (mul_le_mul_of_nonneg_left hl h))
      | ninf =>
        rcases infSign_cases (-a) with ⟨-, e⟩ | ⟨e, -⟩ | e
        · linarith
        · exact Or.inr (by simp only [Ext.mul, e]; trivial)
        · exact Or.inl e
    · cases u with
      | nan => exact hu.elim
      | ninf => exact hu.elim
      | fin u => exact Or.inr (Q.up_of_le (mul_le_mul_of_nonneg_left hu h))
      | pinf =>
        rcases infSign_cases a with ⟨e, -⟩ | ⟨-, e⟩ | e
        · exact Or.inr (by simp only [Ext.mul, e]; trivial)
        · linarith
        · exact Or.inl e
  · have hle : Ext.le (fin (0 : K)) (fin a) = false := by simpa using h
    have h' : a ≤ 0 := (not_le.1 h).le
    simp only [Bounds.opMulFB, hle, Bool.false_eq_true, if_false]
    constructor
    · cases u with
      | nan => exact hu.elim
      | ninf => exact hu.elim
      | fin u => exact Or.inr (Q.down_of_le (mul_le_mul_of_nonpos_left hu h'))
      | pinf =>
        rcases infSign_cases a with ⟨-, e⟩ | ⟨e, -⟩ | e
        · linarith
        · exact Or.inr (by simp only [Ext.mul, e]; trivial)
        · exact Or.inl e
    · cases l with
      | nan => exact hl.elim
      | pinf => exact hl.elim
      | fin l => exact Or.inr (Q.up_of_le (mul_le_mul_of_nonpos_left hl h'))
      | ninf =>
        rcases infSign_cases (-a) with ⟨e, -⟩ | ⟨-, e⟩ | e
        · exact Or.inr (by simp only [Ext.mul, e]; trivial)
        · linarith
        · exact Or.inl e

/-- The product with bounds of width zero is the product with the exact number. -/
theorem mul_pt (a : K) (B : Bounds K) : Bounds.mul Q (pt (fin a)) B = Bounds.opMulFB Q (fin a) B := by
  by_cases h : 0 ≤ a
  · simp only [Bounds.mul, Bounds.opMulFB, pt, Ext.le_fin_fin, h, decide_true, if_true]
    split_ifs <;> rfl
  · have h' : a ≤ 0 := (not_le.1 h).le
    simp only [Bounds.mul, Bounds.opMulFB, pt, Ext.le_fin_fin, h, h', decide_true, decide_false, if_true,
      Bool.false_eq_true, if_false]
    split_ifs <;> rfl

theorem dotBB_eq (y : Fin m → K) (C : Box m K) : dotBB Q (exactPt y) C = dotFB Q y C := by
  simp only [dotBB, dotFB, exactPt, mul_pt]

theorem sum_finRange (a : Fin m → K) : ((List.finRange m).map a).sum = ∑ i, a i := by
  rw [← List.ofFn_eq_map, List.sum_ofFn]

theorem weak_dotFB {C : Box m K} {p : Fin m → K} (y : Fin m → K) (h : Mem C p) :
    Weak (dotFB Q y C) (∑ i, y i * p i) := by
  have key : ∀ (l : List (Fin m)) (s : Bounds K) (v : K), Weak s v →
      Weak (l.foldl (fun s i => Bounds.add Q s (Bounds.opMulFB Q (fin (y i)) (C i))) s)
        (v + (l.map fun i => y i * p i).sum) := by
    intro l
    induction l with
    | nil => intro s v h; simpa using h
    | cons i l ih =>
      intro s v hs
      simp only [List.foldl_cons, List.map_cons, List.sum_cons]
      rw [← add_assoc]
      exact ih _ _ (weak_add Q hs (weak_opMulFB Q (y i) (h i)))
  have := key (List.finRange m) ⟨fin 0, fin 0⟩ 0 ⟨Or.inr le_rfl, Or.inr le_rfl⟩
  rwa [zero_add, sum_finRange] at this

theorem weak_not_empty {A B : Bounds K} {y : K} (hA : Weak A y) (hB : B.Contains y) :
    isEmpty (Bounds.refinement A B) = false := by
  rcases hA.1 with h1 | h1
  · have : (Bounds.refinement A B).l = .nan := by
      simp only [Bounds.refinement, h1, Ext.max]
      cases B.l <;> rfl
    simp only [isEmpty, this]
    cases (Bounds.refinement A B).u <;> rfl
  · rcases hA.2 with h2 | h2
    · have : (Bounds.refinement A B).u = .nan := by
        simp only [Bounds.refinement, h2, Ext.min]
        cases B.u <;> rfl
      simp only [isEmpty, this]
      cases (Bounds.refinement A B).l <;> rfl
    · exact isEmpty_false (refinement_contains ⟨h1, h2⟩ hB)

theorem weak_not_disjoint {A B : Bounds K} {y : K} (hA : Weak A y) (hB : B.Contains y) :
    disjoint A B = false := by
  have h1 : Ext.lt B.u A.l = false := by
    rcases hA.1 with h | h
    · rw [h]; cases B.u <;> rfl
    · have := isEmpty_false (X := ⟨A.l, B.u⟩) ⟨h, hB.2⟩
      exact this
  have h2 : Ext.lt A.u B.l = false := by
    rcases hA.2 with h | h
    · rw [h]; cases B.l <;> rfl
    · have := isEmpty_false (X := ⟨B.l, A.u⟩) ⟨hB.1, h⟩
      exact this
  rw [disjoint, h1, h2]; rfl

/-- **C70**: an infeasibility certificate is a proof that no point of the domain satisfies the
constraints, which may be unbounded.  The Taylor model is assumed to enclose the function. -/
theorem C70_certificate {D : Box n K} {yg : (Fin m → K) → Bounds K} {C : Box m K} {y : Fin m → K}
    {f : (Fin n → K) → Fin m → K} (hyg : ∀ p, Mem D p → (yg y).Contains (∑ i, y i * f p i))
    (h : isInfeasibilityCertificate Q D yg C y = true) : ¬ Feas D C f := by
  rintro ⟨p, hp, hc⟩
  rw [isInfeasibilityCertificate] at h
  by_cases hm : m = 0
  · rw [if_pos hm, boxEmpty_false hp] at h
    exact absurd h (by decide)
  · rw [if_neg hm, weak_not_disjoint (weak_dotFB Q y hc) (hyg p hp)] at h
    exact absurd h (by decide)

/-! ## Equality constraints -/

theorem mem_eqs {C : Box m K} (j : Fin (eqs C).length) : isSing (C ((eqs C).get j)) = true := by
  have := List.get_mem (eqs C) j
  simp only [eqs, List.mem_filter] at this
  exact this.2

theorem exists_eq {C : Box m K} {i : Fin m} (h : isSing (C i) = true) : ∃ j, (eqs C).get j = i := by
  have : i ∈ eqs C := by simp [eqs, h]
  obtain ⟨j, hj⟩ := List.mem_iff_get.1 this
  exact ⟨j, hj⟩

theorem sing_value {c : Bounds K} (h : isSing c = true) (hf : c.Finite) : ∃ v, c = ⟨fin v, fin v⟩ := by
  obtain ⟨⟨a, ha⟩, b, hb⟩ := hf
  obtain ⟨l, u⟩ := c
  simp only at ha hb
  subst ha hb
  simp only [isSing, Ext.eq, decide_eq_true_eq] at h
  exact ⟨a, by rw [h]⟩

theorem ineqOk_contains {C gx : Box m K} {v : Fin m → K} (h : ineqOk C gx = true) (hv : ∀ i, In (gx i) (v i))
    {i : Fin m} (hi : isSing (C i) = false) : (C i).Contains (v i) := by
  have := List.all_eq_true.1 h i (List.mem_finRange i)
  rw [hi, Bool.false_or] at this
  exact refines_mem this (hv i)

variable (R : Rounding K)

local notation "XR" => XRounding.ofRounding R

theorem in_rectVec {M : Mat n k (Bounds K)} {v : Box k K} {A : Matrix (Fin n) (Fin k) K} {x : Fin k → K}
    (hM : ∀ i j, In (M i j) (A i j)) (hv : ∀ j, In (v j) (x j)) (i : Fin n) :
    In (rectVec XR M v i) (A.mulVec x i) := in_fold R _ _ (hM i) hv

theorem in_rectMul {l : ℕ} {M : Mat n k (Bounds K)} {N : Mat k l (Bounds K)} {A : Matrix (Fin n) (Fin k) K}
    {B : Matrix (Fin k) (Fin l) K} (hM : ∀ i j, In (M i j) (A i j)) (hN : ∀ i j, In (N i j) (B i j)) (i : Fin n)
    (j : Fin l) :
    In (matMul (⟨fin 0, fin 0⟩ : Bounds K) (Bounds.add XR) (Bounds.mul XR) M N i j) ((A * B) i j) :=
  in_fold R _ _ (hM i) fun k => hN k j

theorem in_xOf {x0 : Fin n → K} {AT : Mat n k (Bounds K)} {w : Box k K} {A : Matrix (Fin n) (Fin k) K}
    {v : Fin k → K} (hA : ∀ i j, In (AT i j) (A i j)) (hw : ∀ j, In (w j) (v j)) (i : Fin n) :
    In (xOf XR x0 AT w i) (x0 i + A.mulVec v i) :=
  in_add R (in_pt (x0 i)) (in_rectVec R hA hw i)

theorem in_dotFB (y : Fin m → K) {B : Box m K} {v : Fin m → K} (h : ∀ i, In (B i) (v i)) :
    In (dotFB XR y B) (∑ i, y i * v i) := by
  rw [← dotBB_eq]
  exact in_fold R _ _ (in_exactPt y) h

theorem opMulBF_eq (B : Bounds K) (a : K) : Bounds.opMulBF Q B (fin a) = Bounds.opMulFB Q (fin a) B := by
  simp only [Bounds.opMulBF, Bounds.opMulFB]
  split_ifs <;> simp only [mul_comm_ext]

theorem in_meanValue {J : GJac n m K} {D : Box n K} {x p : Fin n → K} {y : Fin m → K} {gx : Box m K}
    {v : Fin m → K} {A : Fin m → Fin n → K} (hg : ∀ i, In (gx i) (v i)) (hJ : ∀ i j, In (J D i j) (A i j))
    (hD : ∀ i, In (D i) (p i)) :
    In (meanValue XR J D x y gx) ((∑ j, y j * v j) + ∑ i, (∑ j, y j * A j i) * (p i - x i)) := by
  have key : ∀ (l : List (Fin n)) (s : Bounds K) (z : K), In s z →
      In (l.foldl (fun s i => Bounds.add XR s (Bounds.mul XR
        ((List.finRange m).foldl (fun s j => Bounds.add XR s (Bounds.opMulBF XR (J D j i) (fin (y j))))
          ⟨fin 0, fin 0⟩)
        (Bounds.subBF XR (D i) (fin (x i))))) s)
        (z + (l.map fun i => (∑ j, y j * A j i) * (p i - x i)).sum) := by
    intro l
    induction l with
    | nil => intro s z h; simpa using h
    | cons i l ih =>
      intro s z hs
      simp only [List.foldl_cons, List.map_cons, List.sum_cons]
      rw [← add_assoc]
      refine ih _ _ (in_add R hs (in_mul R ?_ (in_subBF R (hD i))))
      have := in_dotFB R y (B := fun j => J D j i) (v := fun j => A j i) fun j => hJ j i
      simpa only [dotFB, opMulBF_eq] using this
  have := key (List.finRange n) _ _ (in_dotFB R y hg)
  rwa [sum_finRange] at this

end General

/-! ## Over the reals -/

section Real

variable {n m k : ℕ} {R : Rounding ℝ} {g : GFn n m ℝ} {J : GJac n m ℝ} {f : (Fin n → ℝ) → Fin m → ℝ}
  {f' : (Fin n → ℝ) → Matrix (Fin m) (Fin n) ℝ}

local notation "XR" => XRounding.ofRounding R

/-- The mean value theorem for a weighted sum of components. -/
theorem mean_value {s : Set (Fin n → ℝ)} (hs : Convex ℝ s) (hd : ∀ p ∈ s, HasFDerivAt f (linR (f' p)) p)
    (y : Fin m → ℝ) {x p : Fin n → ℝ} (hx : x ∈ s) (hp : p ∈ s) :
    ∃ q ∈ s, ∑ j, y j * f p j = (∑ j, y j * f x j) + ∑ i, (∑ j, y j * f' q j i) * (p i - x i) := by
  let γ : ℝ → Fin n → ℝ := fun t => x + t • (p - x)
  have hγ : ∀ t, 0 ≤ t → t ≤ 1 → γ t ∈ s := by
    intro t h0 h1
    have := hs hx hp (sub_nonneg.2 h1) h0 (by ring)
    convert this using 1
    simp only [γ]; module
  have hγ' : ∀ t, HasDerivAt γ (p - x) t := by
    intro t
    have := ((hasDerivAt_id t).smul_const (p - x)).const_add x
    rw [one_smul] at this
    exact this
  obtain ⟨t, ht, e⟩ := mvt (g := fun t => ∑ j, y j * f (γ t) j)
    (g' := fun t => ∑ j, y j * (f' (γ t)).mulVec (p - x) j) (by
      intro t h0 h1
      refine HasDerivAt.fun_sum fun j _ => ?_
      have h2 := (hd (γ t) (hγ t h0 h1)).comp_hasDerivAt t (hγ' t)
      exact (hasDerivAt_pi.1 h2 j).const_mul (y j))
  refine ⟨γ t, hγ t ht.1 ht.2, ?_⟩
  have e1 : γ 1 = p := by simp [γ]
  have e0 : γ 0 = x := by simp [γ]
  simp only [e1, e0] at e
  rw [sub_eq_iff_eq_add'.1 e]
  congr 1
  simp only [Matrix.mulVec, dotProduct, Pi.sub_apply, Finset.mul_sum, Finset.sum_mul]
  rw [Finset.sum_comm]
  refine Finset.sum_congr rfl fun i _ => Finset.sum_congr rfl fun j _ => by ring

theorem meanValue_contains (hv : GValid g J f f') {D : Box n ℝ} (hD : ∀ i, (D i).Finite) {x p : Fin n → ℝ}
    {y : Fin m → ℝ} (hx : Mem D x) (hp : Mem D p) :
    (meanValue XR J D x y (g (exactPt x))).Contains (∑ j, y j * f p j) := by
  have hconv : Convex ℝ {p | Mem D p} := by
    intro a ha b hb s t hs ht hst i
    obtain ⟨⟨l, hl⟩, u, hu⟩ := hD i
    have h1 := ha i
    have h2 := hb i
    simp only [Bounds.Contains, hl, hu, IsLower, IsUpper, Pi.add_apply, Pi.smul_apply, smul_eq_mul] at *
    have e : t = 1 - s := by linarith
    subst e
    constructor
    · linarith [mul_le_mul_of_nonneg_left h1.1 hs, mul_le_mul_of_nonneg_left h2.1 ht]
    · linarith [mul_le_mul_of_nonneg_left h1.2 hs, mul_le_mul_of_nonneg_left h2.2 ht]
  obtain ⟨q, hq, e⟩ := mean_value hconv (fun p _ => (hv.der p).hasFDerivAt) y hx hp
  rw [e]
  exact (in_meanValue R (hv.eval _ _ (in_exactPt x)) (hv.jac D q fun i => ⟨hD i, hq i⟩)
    fun i => ⟨hD i, hp i⟩).2

/-- **C70** (partial): the mean value test for infeasibility is correct if the point it is centred at is
in the domain, which the code does not check (see `C70_validate_infeasibility_wrong`). -/
theorem C70_validate_infeasibility_partial (hv : GValid g J f f') {D : Box n ℝ} (hD : ∀ i, (D i).Finite)
    {C : Box m ℝ} {x : Fin n → ℝ} (hx : Mem D x) {y : Fin m → ℝ}
    (h : validateInfeasibility XR D g J C x y = true) : ¬ Feas D C f := by
  rintro ⟨p, hp, hc⟩
  rw [validateInfeasibility, weak_not_empty (weak_dotFB XR y hc) (meanValue_contains hv hD hx hp)] at h
  exact absurd h (by decide)

/-! ## The test on a box -/

theorem definitely_not_upperSubset (X Y : Box n ℝ) : LV.definitely (LV.not_ (upperBoxSubset X Y)) = false := by
  have : ∀ (l : List (Fin n)) (s : LV), s = .true_ ∨ s = .unlikely →
      (l.foldl (fun s i => LV.and_ s (upperSubset (X i) (Y i))) s) = .true_ ∨
      (l.foldl (fun s i => LV.and_ s (upperSubset (X i) (Y i))) s) = .unlikely := by
    intro l
    induction l with
    | nil => intro s h; exact h
    | cons i l ih =>
      intro s h
      refine ih _ ?_
      simp only [upperSubset]
      rcases h with rfl | rfl <;> split_ifs <;> decide
  rcases this (List.finRange n) .true_ (Or.inl rfl) with h | h <;>
  · rw [upperBoxSubset, h]; rfl

/-- **C70**: if the test of a box answers false, no point of the box is feasible. -/
theorem C70_contains_false (hg : Encl g f) {D : Box n ℝ} {C : Box m ℝ} {L : Fin n → Fin (eqs C).length → ℝ}
    {X : Box n ℝ} (hX : ∀ i, (X i).Finite) (h : containsFeasiblePoint XR D g J C L X = some .false_)
    {p : Fin n → ℝ} (hp : Mem X p) : ¬ (Mem D p ∧ Mem C (f p)) := by
  rintro ⟨hpD, hpC⟩
  rw [containsFeasiblePoint] at h
  have h1 : ((List.finRange n).any fun i => disjoint (X i) (D i)) = false := by
    simp only [List.any_eq_false]
    intro i _
    simp [disjoint_false (hp i) (hpD i)]
  have h2 : ((List.finRange m).any fun i => disjoint (g X i) (C i)) = false := by
    simp only [List.any_eq_false]
    intro i _
    simp [disjoint_false (hg X p (fun i => ⟨hX i, hp i⟩) i).2 (hpC i)]
  simp only [h1, h2, Bool.false_eq_true, if_false] at h
  split_ifs at h with h3 h4 h5
  · exact absurd h (by simp)
  · exact absurd h (by simp)
  · rw [Option.map_eq_some_iff] at h
    obtain ⟨nX, -, h⟩ := h
    split_ifs at h

/-- Derivative of the equality constraints. -/
theorem eq_der (hv : GValid g J f f') {C : Box m ℝ} (c : Fin (eqs C).length → ℝ) (p : Fin n → ℝ) :
    HasStrictFDerivAt (fun p j => f p ((eqs C).get j) - c j)
      (linR (Matrix.of fun j i => f' p ((eqs C).get j) i)) p := by
  rw [hasStrictFDerivAt_pi']
  intro j
  have h1 := (hasStrictFDerivAt_pi'.1 (hv.der p)) ((eqs C).get j)
  refine (h1.sub_const (c j)).congr_fderiv ?_
  ext v
  rfl

theorem sing_values {C : Box m ℝ} (hC : ∀ i, isSing (C i) = true → (C i).Finite) :
    ∃ c : Fin (eqs C).length → ℝ, ∀ j, C ((eqs C).get j) = ⟨fin (c j), fin (c j)⟩ := by
  have : ∀ j, ∃ v, C ((eqs C).get j) = ⟨fin v, fin v⟩ := fun j => sing_value (mem_eqs j) (hC _ (mem_eqs j))
  choose c hc using this
  exact ⟨c, hc⟩

/-- **C70**: the projected Newton step.  If its result is inside the box, the box contains a point that
satisfies the equality constraints. -/
theorem C70_projected_step (hv : GValid g J f f') {C : Box m ℝ}
    (hC : ∀ i, isSing (C i) = true → (C i).Finite) {L : Fin n → Fin (eqs C).length → ℝ} {X nX : Box n ℝ}
    (hX : GoodBox R X) (h : projectedStep XR g J C L X = some nX) (href : vRefines nX X = true) :
    ∃ p, Mem X p ∧ ∀ i, isSing (C i) = true → (C i).Contains (f p i) := by
  obtain ⟨c, hc⟩ := sing_values hC
  simp only [projectedStep, Option.map_eq_some_iff] at h
  obtain ⟨Sinv, hinv, rfl⟩ := h
  obtain ⟨q, hq, hqX⟩ := mids_mem R hX
  obtain ⟨a, b, hab⟩ := GoodBox.icc hX
  let A0 : Matrix (Fin (eqs C).length) (Fin n) ℝ := Matrix.of fun j i => f' q ((eqs C).get j) i
  have hJin : ∀ p, Mem X p → ∀ j i, In (eqJac J C X j i) (f' p ((eqs C).get j) i) := fun p hp j i =>
    hv.jac X p (GoodBox.mem_in R hX hp) _ i
  have hJf : ∀ j i, (eqJac J C X j i).Finite := fun j i => (hJin q hqX j i).1
  have hJ2 : ∃ lo hi : Matrix (Fin (eqs C).length) (Fin n) ℝ,
      ∀ j i, eqJac J C X j i = ⟨fin (lo j i), fin (hi j i)⟩ := by
    have : ∀ j i, ∃ l u, eqJac J C X j i = ⟨fin l, fin u⟩ := by
      intro j i
      obtain ⟨⟨l, hl⟩, u, hu⟩ := hJf j i
      exact ⟨l, u, by rw [← hl, ← hu]⟩
    choose lo hi e using this
    exact ⟨lo, hi, e⟩
  obtain ⟨lo, hi, hlh⟩ := hJ2
  have hLin : ∀ i j, In (pt (fin (L i j)) : Bounds ℝ) ((Matrix.of L : Matrix _ _ ℝ) i j) := fun i j => in_pt _
  have hSin : ∀ A : Matrix (Fin (eqs C).length) (Fin n) ℝ, (∀ i j, lo i j ≤ A i j ∧ A i j ≤ hi i j) →
      ∀ i j, In (matMul (⟨fin 0, fin 0⟩ : Bounds ℝ) (Bounds.add XR) (Bounds.mul XR) (eqJac J C X)
        (fun i j => pt (fin (L i j))) i j) ((A * Matrix.of L) i j) := fun A hA =>
    in_rectMul R (fun i j => ⟨hJf i j, by rw [hlh]; exact hA i j⟩) hLin
  have hA0 : ∀ i j, lo i j ≤ A0 i j ∧ A0 i j ≤ hi i j := by
    intro i j
    have := (hJin q hqX i j).2
    rw [hlh] at this
    exact this
  obtain ⟨slo, shi, hS⟩ := iMat_of_finite fun i j => (hSin A0 hA0 i j).1
  have hF : ∀ j, In (Bounds.sub XR (eqFn g C (fun i => pt (mids XR X i)) j) (C ((eqs C).get j)))
      (f q ((eqs C).get j) - c j) := by
    intro j
    rw [hc j]
    exact in_sub R (hv.eval _ q (fun i => by rw [hq i]; exact in_pt (q i)) _) (in_pt (c j))
  have hmem : ∀ A ∈ IMat slo shi, ∀ i, In (Bounds.subFB XR (mids XR X i)
      (rectVec XR (fun i j => pt (fin (L i j))) (matVec XR Sinv fun j =>
        Bounds.sub XR (eqFn g C (fun i => pt (mids XR X i)) j) (C ((eqs C).get j))) i))
      ((q - (Matrix.of L : Matrix _ _ ℝ).mulVec (A⁻¹.mulVec fun j => f q ((eqs C).get j) - c j)) i) := by
    intro A hA i
    rw [hq i]
    refine in_subFB R (in_rectVec R hLin (in_matVec R (fun i j => ?_) hF) i)
    exact (C55_bounds_inverse R (fun i j => (hSin A0 hA0 i j).1) hinv A ((hS A).1 hA)).2 i j
  obtain ⟨z, hz, h0⟩ := projected_newton (f := fun p j => f p ((eqs C).get j) - c j)
    (f' := fun p => Matrix.of fun j i => f' p ((eqs C).get j) i) (lo := lo) (hi := hi) (slo := slo)
    (shi := shi) (L := Matrix.of L) (a := a) (b := b) (m := q)
    (fun x _ => eq_der hv c x)
    (fun x hx i j => by
      have := (hJin x ((hab x).2 hx) i j).2
      rw [hlh] at this
      exact this)
    (fun A hA => (hS _).2 fun i j => (hSin A hA i j).2)
    (fun A hA => isUnit_iff_ne_zero.1
      (C55_bounds_inverse R (fun i j => (hSin A0 hA0 i j).1) hinv A ((hS A).1 hA)).1)
    ((hab q).1 hqX)
    (fun A hA => (hab _).1 (vRefines_in href (hmem A hA)))
  refine ⟨z, (hab z).2 hz, fun i hi => ?_⟩
  obtain ⟨j, rfl⟩ := exists_eq hi
  have := congrFun h0 j
  simp only [Pi.zero_apply, sub_eq_zero] at this
  rw [this, hc j]
  exact ⟨le_rfl, le_rfl⟩

/-- **C70** (partial): if the test of a box answers true, the box contains a point that satisfies the
equality constraints.  That the box is in the domain and that the inequality constraints hold on it are
extra hypotheses: the tests for this in the code never fail (see `C70_contains_wrong`). -/
theorem C70_contains_true_partial (hv : GValid g J f f') {D : Box n ℝ} {C : Box m ℝ}
    (hC : ∀ i, isSing (C i) = true → (C i).Finite) {L : Fin n → Fin (eqs C).length → ℝ} {X : Box n ℝ}
    (hX : GoodBox R X) (h : containsFeasiblePoint XR D g J C L X = some .true_) :
    (∃ p, Mem X p ∧ ∀ i, isSing (C i) = true → (C i).Contains (f p i)) ∧
    (vRefines X D = true → ineqOk C (g X) = true → Feas D C f) := by
  have h1 : ∃ p, Mem X p ∧ ∀ i, isSing (C i) = true → (C i).Contains (f p i) := by
    simp only [containsFeasiblePoint] at h
    split_ifs at h
    all_goals try cases h
    · rw [Option.map_eq_some_iff] at h
      obtain ⟨nX, h2, h⟩ := h
      by_cases href : vRefines nX X = true
      · exact C70_projected_step hv hC hX h2 href
      · rw [if_neg href] at h
        exact absurd h (by decide)
  refine ⟨h1, fun hD hi => ?_⟩
  obtain ⟨p, hp, he⟩ := h1
  have hin := GoodBox.mem_in R hX hp
  refine ⟨p, vRefines_in hD hin, fun i => ?_⟩
  by_cases hs : isSing (C i) = true
  · exact he i hs
  · exact ineqOk_contains hi (hv.eval X p hin) (by simpa using hs)

end Real

end Verif.Optimiser
