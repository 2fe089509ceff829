import Verif.Solver.Model
import Verif.Solver.Existence

/-!
# C57: solutions of algebraic equations
-/

namespace Verif.Solver

open Ariadne Verif.ConstraintSolver Verif.Matrix Set
open Ariadne.Ext (fin)

section General

variable {n : ℕ} {K : Type*} [Field K] [LinearOrder K] [IsStrictOrderedRing K] (R : Rounding K)

local notation "XR" => XRounding.ofRounding R

/-! ## Arithmetic -/

theorem in_pt (x : K) : In (pt (fin x) : Bounds K) x := ⟨⟨⟨x, rfl⟩, x, rfl⟩, le_rfl, le_rfl⟩

theorem in_subFB {x y : K} {B : Bounds K} (h : In B y) : In (Bounds.subFB XR (fin x) B) (x - y) :=
  in_sub R (in_pt x) h

theorem in_subBF {x y : K} {B : Bounds K} (h : In B y) : In (Bounds.subBF XR B (fin x)) (y - x) :=
  in_sub R h (in_pt x)

theorem in_fold (A v : Fin n → Bounds K) {a x : Fin n → K} (hA : ∀ j, In (A j) (a j))
    (hv : ∀ j, In (v j) (x j)) :
    In ((List.finRange n).foldl (fun s j => Bounds.add XR s (Bounds.mul XR (A j) (v j))) ⟨fin 0, fin 0⟩)
      (∑ j, a j * x j) := by
  have key : ∀ (l : List (Fin n)) (s : Bounds K) (y : K), In s y →
      In (l.foldl (fun s j => Bounds.add XR s (Bounds.mul XR (A j) (v j))) s)
        (y + (l.map fun j => a j * x j).sum) := by
    intro l
    induction l with
    | nil => intro s y h; simpa using h
    | cons j l ih =>
      intro s y h
      simp only [List.foldl_cons, List.map_cons, List.sum_cons]
      rw [← add_assoc]
      exact ih _ _ (in_add R h (in_mul R (hA j) (hv j)))
  have := key (List.finRange n) _ _ (in_pt 0)
  rwa [zero_add, ← List.ofFn_eq_map, List.sum_ofFn] at this

theorem in_matVec {M : Mat n n (Bounds K)} {v : Box n K} {A : Matrix (Fin n) (Fin n) K} {x : Fin n → K}
    (hM : ∀ i j, In (M i j) (A i j)) (hv : ∀ j, In (v j) (x j)) (i : Fin n) :
    In (matVec XR M v i) (A.mulVec x i) := in_fold R _ _ (hM i) hv

theorem in_matMul {M N : Mat n n (Bounds K)} {A B : Matrix (Fin n) (Fin n) K}
    (hM : ∀ i j, In (M i j) (A i j)) (hN : ∀ i j, In (N i j) (B i j)) (i j : Fin n) :
    In (matMul (⟨fin 0, fin 0⟩ : Bounds K) (Bounds.add XR) (Bounds.mul XR) M N i j) ((A * B) i j) :=
  in_fold R _ _ (hM i) fun k => hN k j

theorem in_identity (i j : Fin n) :
    In (identity (boundsOps XR) i j : Bounds K) ((1 : Matrix (Fin n) (Fin n) K) i j) := by
  rw [identity, Matrix.one_apply]
  split_ifs
  · exact in_pt 1
  · exact in_pt 0

/-! ## Boxes -/

theorem GoodBox.mem_in {X : Box n K} (h : GoodBox R X) {p : Fin n → K} (hp : Mem X p) (i : Fin n) :
    In (X i) (p i) := by
  obtain ⟨a, b, e, -⟩ := h i
  exact ⟨by rw [e]; exact ⟨⟨a, rfl⟩, b, rfl⟩, hp i⟩

/-- The midpoint of a box with floating-point end points is in the box. -/
theorem mids_mem {X : Box n K} (h : GoodBox R X) :
    ∃ m : Fin n → K, (∀ i, mids XR X i = fin (m i)) ∧ Mem X m := by
  have : ∀ i, ∃ v, mids XR X i = fin v ∧ (X i).Contains v := by
    intro i
    obtain ⟨a, b, e, ha, hb, hab⟩ := h i
    obtain ⟨v, h1, h2, h3⟩ := Bounds.C08_value_mem R hab ha hb
    exact ⟨v, by rw [mids, e, h1], by rw [e]; exact ⟨h2, h3⟩⟩
  choose m h1 h2 using this
  exact ⟨m, h1, h2⟩

/-- A rounded difference has floating-point end points. -/
theorem rep_subFB {x y : K} {B : Bounds K} (h : In B y) :
    ∃ a b, Bounds.subFB XR (fin x) B = ⟨fin a, fin b⟩ ∧ R.Rep a ∧ R.Rep b ∧ a ≤ b := by
  have h2 := in_subFB R (x := x) h
  obtain ⟨⟨⟨a, ha⟩, b, hb⟩, -⟩ := h
  obtain ⟨bl, bu⟩ := B
  simp only at ha hb
  subst ha hb
  refine ⟨R.down (x + -b), R.up (x + -a), rfl, R.rep_down _, R.rep_up _, ?_⟩
  exact le_trans h2.2.1 h2.2.2

theorem rep_add {B C : Bounds K} {x y : K} (hB : In B x) (hC : In C y) :
    ∃ a b, Bounds.add XR B C = ⟨fin a, fin b⟩ ∧ R.Rep a ∧ R.Rep b ∧ a ≤ b := by
  have h2 := in_add R hB hC
  obtain ⟨⟨⟨a, ha⟩, b, hb⟩, -⟩ := hB
  obtain ⟨⟨⟨c, hc⟩, d, hd⟩, -⟩ := hC
  obtain ⟨bl, bu⟩ := B
  obtain ⟨cl, cu⟩ := C
  simp only at ha hb hc hd
  subst ha hb hc hd
  exact ⟨R.down (a + c), R.up (b + d), rfl, R.rep_down _, R.rep_up _, le_trans h2.2.1 h2.2.2⟩

theorem vRefines_mem {X Y : Box n K} (hX : GoodBox R X) (hY : GoodBox R Y) (h : vRefines Y X = true)
    {p : Fin n → K} (hp : Mem Y p) : Mem X p := by
  intro i
  simp only [vRefines, List.all_eq_true] at h
  have h1 := h i (List.mem_finRange i)
  have h2 := hp i
  obtain ⟨a, b, e, -⟩ := hX i
  obtain ⟨c, d, e', -⟩ := hY i
  rw [e, e'] at h1
  rw [e'] at h2
  rw [e]
  simp only [Bounds.refines, Ext.le, Bool.and_eq_true, decide_eq_true_eq] at h1
  exact ⟨h1.1.trans h2.1, h2.2.trans h1.2⟩

theorem vConsistent_of_mem {X Y : Box n K} (hX : ∀ i, (X i).Finite) (hY : ∀ i, (Y i).Finite)
    {p : Fin n → K} (h1 : Mem X p) (h2 : Mem Y p) : vConsistent X Y = true := by
  simp only [vConsistent, List.all_eq_true]
  intro i _
  obtain ⟨⟨a, ha⟩, b, hb⟩ := hX i
  obtain ⟨⟨c, hc⟩, d, hd⟩ := hY i
  have := h1 i
  have h3 := h2 i
  rw [Bounds.consistent, ha, hb, hc, hd]
  simp only [Bounds.Contains, ha, hb, hc, hd, IsLower, IsUpper] at this h3
  simp only [Ext.le, Bool.and_eq_true, decide_eq_true_eq]
  exact ⟨this.1.trans h3.2, h3.1.trans this.2⟩

theorem vInconsistent_of_mem {X Y : Box n K} (hX : ∀ i, (X i).Finite) (hY : ∀ i, (Y i).Finite)
    {p : Fin n → K} (h1 : Mem X p) (h2 : Mem Y p) : vInconsistent X Y = false := by
  simp only [vInconsistent, List.any_eq_false]
  intro i _
  obtain ⟨⟨a, ha⟩, b, hb⟩ := hX i
  obtain ⟨⟨c, hc⟩, d, hd⟩ := hY i
  have := h1 i
  have h3 := h2 i
  rw [Bounds.inconsistent, ha, hb, hc, hd]
  simp only [Bounds.Contains, ha, hb, hc, hd, IsLower, IsUpper] at this h3
  simp only [Ext.lt, Bool.or_eq_true, decide_eq_true_eq, not_or, not_lt]
  exact ⟨this.1.trans h3.2, h3.1.trans this.2⟩

/-- The common refinement of consistent boxes. -/
theorem goodBox_refinement {X Y : Box n K} (hX : GoodBox R X) (hY : GoodBox R Y)
    (h : vConsistent X Y = true) : GoodBox R fun i => Bounds.refinement (X i) (Y i) := by
  intro i
  simp only [vConsistent, List.all_eq_true] at h
  have h1 := h i (List.mem_finRange i)
  obtain ⟨a, b, e, ha, hb, hab⟩ := hX i
  obtain ⟨c, d, e', hc, hd, hcd⟩ := hY i
  rw [e, e'] at h1
  simp only [Bounds.consistent, Ext.le, Bool.and_eq_true, decide_eq_true_eq] at h1
  simp only [e, e', Bounds.refinement]
  have m1 : ∃ l, Ext.max (fin a) (fin c) = fin l ∧ R.Rep l ∧ (l = a ∨ l = c) := by
    by_cases hl : a < c
    · exact ⟨c, by simp [Ext.max, Ext.lt, hl], hc, Or.inr rfl⟩
    · exact ⟨a, by simp [Ext.max, Ext.lt, hl], ha, Or.inl rfl⟩
  have m2 : ∃ u, Ext.min (fin b) (fin d) = fin u ∧ R.Rep u ∧ (u = b ∨ u = d) := by
    by_cases hl : d < b
    · exact ⟨d, by simp [Ext.min, Ext.lt, hl], hd, Or.inr rfl⟩
    · exact ⟨b, by simp [Ext.min, Ext.lt, hl], hb, Or.inl rfl⟩
  obtain ⟨l, e1, hl, hl'⟩ := m1
  obtain ⟨u, e2, hu, hu'⟩ := m2
  refine ⟨l, u, by rw [e1, e2], hl, hu, ?_⟩
  rcases hl' with rfl | rfl <;> rcases hu' with rfl | rfl
  · exact hab
  · exact h1.1
  · exact h1.2
  · exact hcd

/-- A refinement is in both boxes. -/
theorem mem_refinement {X Y : Box n K} (hX : GoodBox R X) (hY : GoodBox R Y)
    {p : Fin n → K} (h : Mem (fun i => Bounds.refinement (X i) (Y i)) p) : Mem X p ∧ Mem Y p := by
  refine ⟨fun i => ?_, fun i => ?_⟩ <;>
  · have := h i
    obtain ⟨a, b, e, -⟩ := hX i
    obtain ⟨c, d, e', -⟩ := hY i
    simp only [e, e', Bounds.refinement] at this ⊢
    simp only [Bounds.Contains, Ext.max, Ext.min, Ext.lt, decide_eq_true_eq] at this ⊢
    split_ifs at this <;> simp only [IsLower, IsUpper, not_lt] at * <;> constructor <;> linarith [this.1, this.2]

end General

/-! ## The contractors -/

section Step

variable {n : ℕ} (R : Rounding ℝ)

local notation "XR" => XRounding.ofRounding R

/-- `F` and `J` enclose a function with continuous derivative and its Jacobian matrix. -/
structure Valid (F : VFn n ℝ) (J : JFn n ℝ) (f : (Fin n → ℝ) → Fin n → ℝ)
    (f' : (Fin n → ℝ) → Matrix (Fin n) (Fin n) ℝ) : Prop where
  der : ∀ p, HasStrictFDerivAt f (lin (f' p)) p
  eval : ∀ X p, (∀ i, In (X i) (p i)) → ∀ i, In (F X i) (f p i)
  jac : ∀ X p, (∀ i, In (X i) (p i)) → ∀ i j, In (J X i j) (f' p i j)

/-- The same, where the Jacobian matrix is needed on one box only. -/
structure ValidAt (F : VFn n ℝ) (J : JFn n ℝ) (f : (Fin n → ℝ) → Fin n → ℝ)
    (f' : (Fin n → ℝ) → Matrix (Fin n) (Fin n) ℝ) (X : Box n ℝ) : Prop where
  der : ∀ p, HasStrictFDerivAt f (lin (f' p)) p
  eval : ∀ X p, (∀ i, In (X i) (p i)) → ∀ i, In (F X i) (f p i)
  jac : ∀ p, (∀ i, In (X i) (p i)) → ∀ i j, In (J X i j) (f' p i j)

theorem Valid.at {F : VFn n ℝ} {J : JFn n ℝ} {f : (Fin n → ℝ) → Fin n → ℝ}
    {f' : (Fin n → ℝ) → Matrix (Fin n) (Fin n) ℝ} (h : Valid F J f f') (X : Box n ℝ) : ValidAt F J f f' X :=
  ⟨h.der, h.eval, h.jac X⟩

/-- What a contractor must satisfy: no zero of the box is lost, and if the result is inside the box it
contains a zero. -/
def StepSound (f : (Fin n → ℝ) → Fin n → ℝ) (step : Box n ℝ → Option (Box n ℝ)) : Prop :=
  ∀ X Y, GoodBox R X → step X = some Y → GoodBox R Y ∧ (∀ z, Mem X z → f z = 0 → Mem Y z) ∧
    (vRefines Y X = true → ∃ z, Mem Y z ∧ f z = 0)

/-- The same for one box. -/
def StepSoundAt (f : (Fin n → ℝ) → Fin n → ℝ) (X Y : Box n ℝ) : Prop :=
  GoodBox R Y ∧ (∀ z, Mem X z → f z = 0 → Mem Y z) ∧ (vRefines Y X = true → ∃ z, Mem Y z ∧ f z = 0)

variable {R} {F : VFn n ℝ} {J : JFn n ℝ} {f : (Fin n → ℝ) → Fin n → ℝ}
  {f' : (Fin n → ℝ) → Matrix (Fin n) (Fin n) ℝ}

/-- The end points of a box. -/
theorem GoodBox.icc {X : Box n ℝ} (h : GoodBox R X) :
    ∃ a b : Fin n → ℝ, ∀ p, Mem X p ↔ p ∈ Icc a b := by
  choose a b e _ _ _ using h
  refine ⟨a, b, fun p => ⟨fun hp => ⟨fun i => ?_, fun i => ?_⟩, fun hp i => ?_⟩⟩
  · have := (hp i).1; rw [e] at this; exact this
  · have := (hp i).2; rw [e] at this; exact this
  · rw [e]; exact ⟨hp.1 i, hp.2 i⟩

/-- The entries of a finite matrix of bounds. -/
theorem iMat_of_finite {A : Mat n n (Bounds ℝ)} (h : ∀ i j, (A i j).Finite) :
    ∃ lo hi : Matrix (Fin n) (Fin n) ℝ, ∀ B, B ∈ IMat lo hi ↔ ∀ i j, (A i j).Contains (B i j) := by
  have h1 : ∀ i j, ∃ l u, A i j = ⟨fin l, fin u⟩ := by
    intro i j
    obtain ⟨⟨l, hl⟩, u, hu⟩ := h i j
    exact ⟨l, u, by rw [← hl, ← hu]⟩
  choose lo hi e using h1
  refine ⟨lo, hi, fun B => forall_congr' fun i => forall_congr' fun j => ?_⟩
  rw [e]; rfl

/-- The slopes of `f` over a box are in the enclosure of the Jacobian matrix. -/
theorem ValidAt.slopes {X : Box n ℝ} (hv : ValidAt F J f f' X) (hX : GoodBox R X) {x y : Fin n → ℝ}
    (hx : Mem X x) (hy : Mem X y) :
    ∃ A : Matrix (Fin n) (Fin n) ℝ, (∀ i j, (J X i j).Contains (A i j)) ∧ f y - f x = A.mulVec (y - x) := by
  obtain ⟨a, b, hab⟩ := GoodBox.icc hX
  obtain ⟨lo, hi, hlh⟩ := iMat_of_finite fun i j => (hv.jac x (GoodBox.mem_in R hX hx) i j).1
  obtain ⟨A, hA, e⟩ := Solver.slopes (convex_Icc a b) (fun p _ => (hv.der p).hasFDerivAt)
    (fun p hp => (hlh _).2 fun i j => (hv.jac p (GoodBox.mem_in R hX ((hab p).2 hp)) i j).2)
    ((hab x).1 hx) ((hab y).1 hy)
  exact ⟨A, (hlh A).1 hA, e⟩

theorem newton_step_at {X Y : Box n ℝ} (hv : ValidAt F J f f' X) (hX : GoodBox R X)
    (h : newtonStep XR F J X = some Y) : StepSoundAt R f X Y := by
  simp only [newtonStep, Option.map_eq_some_iff] at h
  obtain ⟨Ainv, hinv, rfl⟩ := h
  obtain ⟨m, hm, hmX⟩ := mids_mem R hX
  have hJf : ∀ i j, (J X i j).Finite := fun i j => (hv.jac m (GoodBox.mem_in R hX hmX) i j).1
  have hw : ∀ i, In (F (fun i => pt (mids XR X i)) i) (f m i) :=
    hv.eval _ _ fun i => by rw [hm i]; exact in_pt (m i)
  have key : ∀ A : Matrix (Fin n) (Fin n) ℝ, (∀ i j, (J X i j).Contains (A i j)) → ∀ i,
      In (matVec XR Ainv (F fun i => pt (mids XR X i)) i) (A⁻¹.mulVec (f m) i) := fun A hA i =>
    in_matVec R (fun i j => (C55_bounds_inverse R hJf hinv A hA).2 i j) hw i
  have hreg : ∀ A : Matrix (Fin n) (Fin n) ℝ, (∀ i j, (J X i j).Contains (A i j)) → IsUnit A.det :=
    fun A hA => (C55_bounds_inverse R hJf hinv A hA).1
  have hgood : GoodBox R fun i => Bounds.subFB XR (mids XR X i)
      (matVec XR Ainv (F fun i => pt (mids XR X i)) i) := by
    intro i
    beta_reduce
    rw [hm i]
    exact rep_subFB R (key _ (fun i j => (hv.jac m (GoodBox.mem_in R hX hmX) i j).2) i)
  have hmem : ∀ A : Matrix (Fin n) (Fin n) ℝ, (∀ i j, (J X i j).Contains (A i j)) →
      Mem (fun i => Bounds.subFB XR (mids XR X i) (matVec XR Ainv (F fun i => pt (mids XR X i)) i))
        (m - A⁻¹.mulVec (f m)) := by
    intro A hA i
    simp only [hm i]
    exact (in_subFB R (key A hA i)).2
  refine ⟨hgood, ?_, ?_⟩
  · intro z hz h0
    obtain ⟨A, hA, e⟩ := hv.slopes hX hz hmX
    have := hmem A hA
    rw [h0, sub_zero] at e
    rwa [e, Matrix.mulVec_mulVec, Matrix.nonsing_inv_mul _ (hreg A hA), Matrix.one_mulVec,
      sub_sub_cancel] at this
  · intro href
    obtain ⟨a, b, hab⟩ := GoodBox.icc hX
    obtain ⟨lo, hi, hlh⟩ := iMat_of_finite hJf
    obtain ⟨z, -, hz, A, hA, e⟩ := newton_exists (f := f) (f' := f') (lo := lo) (hi := hi) (a := a) (b := b)
      (m := m) (fun x _ => hv.der x)
      (fun p hp => (hlh _).2 fun i j => (hv.jac p (GoodBox.mem_in R hX ((hab p).2 hp)) i j).2)
      (fun A hA => isUnit_iff_ne_zero.1 (hreg A ((hlh A).1 hA))) ((hab m).1 hmX)
      (fun A hA => (hab _).1 (vRefines_mem R hX hgood href (hmem A ((hlh A).1 hA))))
    exact ⟨z, by rw [e]; exact hmem A ((hlh A).1 hA), hz⟩

/-- **C57**: the interval Newton step loses no zero, and shows that there is a zero if its result is
inside the box. -/
theorem C57_newton_step (hv : Valid F J f f') : StepSound R f (newtonStep XR F J) :=
  fun X _ hX h => newton_step_at (hv.at X) hX h

/-- The common part of the two Krawczyk contractors. -/
theorem krawczyk_sound {X Y : Box n ℝ} (hv : ValidAt F J f f' X) (hX : GoodBox R X) {m : Fin n → ℝ}
    (hmX : Mem X m) {M : Matrix (Fin n) (Fin n) ℝ} (hM : IsUnit M.det) (hY : GoodBox R Y)
    (hmem : ∀ A : Matrix (Fin n) (Fin n) ℝ, (∀ i j, (J X i j).Contains (A i j)) → ∀ y, Mem X y →
      Mem Y (m - M.mulVec (f m) + (1 - M * A).mulVec (y - m))) :
    (∀ z, Mem X z → f z = 0 → Mem Y z) ∧ (vRefines Y X = true → ∃ z, Mem Y z ∧ f z = 0) := by
  have hlost : ∀ z, Mem X z → f z = 0 → Mem Y z := by
    intro z hz h0
    obtain ⟨A, hA, e⟩ := hv.slopes hX hmX hz
    have := hmem A hA z hz
    have e2 : m - M.mulVec (f m) + (1 - M * A).mulVec (z - m) = z := by
      rw [Matrix.sub_mulVec, Matrix.one_mulVec, ← Matrix.mulVec_mulVec, ← e, h0, zero_sub, Matrix.mulVec_neg]
      abel
    rwa [e2] at this
  refine ⟨hlost, fun href => ?_⟩
  obtain ⟨a, b, hab⟩ := GoodBox.icc hX
  obtain ⟨lo, hi, hlh⟩ := iMat_of_finite fun i j => (hv.jac m (GoodBox.mem_in R hX hmX) i j).1
  obtain ⟨z, hz, h0⟩ := krawczyk_exists (f := f) (lo := lo) (hi := hi) (M := M) (a := a) (b := b) (m := m)
    (fun x _ => (hv.der x).hasFDerivAt.continuousAt.continuousWithinAt)
    (fun x hx y hy => by
      obtain ⟨A, hA, e⟩ := hv.slopes hX ((hab x).2 hx) ((hab y).2 hy)
      exact ⟨A, (hlh A).2 hA, e⟩)
    (isUnit_iff_ne_zero.1 hM) ((hab m).1 hmX)
    (fun A hA y hy => (hab _).1 (vRefines_mem R hX hY href (hmem A ((hlh A).1 hA) y ((hab y).2 hy))))
  exact ⟨z, hlost z ((hab z).2 hz) h0, h0⟩

/-- The midpoints of a finite matrix of bounds. -/
theorem midMat_eq {A : Mat n n (Bounds ℝ)} (h : ∀ i j, (A i j).Finite) :
    ∃ C : Matrix (Fin n) (Fin n) ℝ, ∀ i j, midMat XR A i j = pt (fin (C i j)) := by
  have h1 : ∀ i j, ∃ c, Bounds.value XR (A i j) = fin c := by
    intro i j
    obtain ⟨⟨l, hl⟩, u, hu⟩ := h i j
    exact ⟨_, by rw [Bounds.value, hl, hu]; rfl⟩
  choose C e using h1
  exact ⟨C, fun i j => by rw [midMat, e]⟩

theorem krawczyk_step_at {X Y : Box n ℝ} (hv : ValidAt F J f f' X) (hX : GoodBox R X)
    (h : krawczykStep XR F J X = some Y) : StepSoundAt R f X Y := by
  simp only [krawczykStep, Option.map_eq_some_iff] at h
  obtain ⟨N, hinv, rfl⟩ := h
  obtain ⟨m, hm, hmX⟩ := mids_mem R hX
  have hJf : ∀ i j, (J X i j).Finite := fun i j => (hv.jac m (GoodBox.mem_in R hX hmX) i j).1
  have hw : ∀ i, In (F (fun i => pt (mids XR X i)) i) (f m i) :=
    hv.eval _ _ fun i => by rw [hm i]; exact in_pt (m i)
  obtain ⟨C, hC⟩ := midMat_eq (R := R) hJf
  obtain ⟨hCu, hN⟩ := C55_bounds_inverse R (fun i j => by rw [hC]; exact (in_pt _).1) hinv C
    (fun i j => by rw [hC]; exact (in_pt _).2)
  have hN' : ∀ i j, In (N i j) (C⁻¹ i j) := fun i j => hN i j
  have hdx : ∀ A : Matrix (Fin n) (Fin n) ℝ, (∀ i j, (J X i j).Contains (A i j)) → ∀ y, Mem X y → ∀ i,
      In (Bounds.sub XR (matVec XR N (F fun i => pt (mids XR X i)) i)
        (matVec XR (fun i j => Bounds.sub XR (identity (boundsOps XR) i j)
          (matMul (⟨fin 0, fin 0⟩ : Bounds ℝ) (Bounds.add XR) (Bounds.mul XR) N (J X) i j))
          (fun j => Bounds.subBF XR (X j) (mids XR X j)) i))
        (C⁻¹.mulVec (f m) i - (1 - C⁻¹ * A).mulVec (y - m) i) := by
    intro A hA y hy i
    refine in_sub R (in_matVec R hN' hw i) (in_matVec R (fun i j => ?_) (fun j => ?_) i)
    · exact in_sub R (in_identity R i j) (in_matMul R hN' (fun i j => ⟨hJf i j, hA i j⟩) i j)
    · rw [hm j]; exact in_subBF R (GoodBox.mem_in R hX hy j)
  have hmem : ∀ A : Matrix (Fin n) (Fin n) ℝ, (∀ i j, (J X i j).Contains (A i j)) → ∀ y, Mem X y → ∀ i,
      In (Bounds.subFB XR (mids XR X i) (Bounds.sub XR (matVec XR N (F fun i => pt (mids XR X i)) i)
        (matVec XR (fun i j => Bounds.sub XR (identity (boundsOps XR) i j)
          (matMul (⟨fin 0, fin 0⟩ : Bounds ℝ) (Bounds.add XR) (Bounds.mul XR) N (J X) i j))
          (fun j => Bounds.subBF XR (X j) (mids XR X j)) i)))
        ((m - C⁻¹.mulVec (f m) + (1 - C⁻¹ * A).mulVec (y - m)) i) := by
    intro A hA y hy i
    have := in_subFB R (x := m i) (hdx A hA y hy i)
    rw [hm i]
    convert this using 1
    simp only [Pi.add_apply, Pi.sub_apply]
    ring
  have hgood : GoodBox R fun i => Bounds.subFB XR (mids XR X i) (Bounds.sub XR (matVec XR N (F fun i => pt (mids XR X i)) i)
        (matVec XR (fun i j => Bounds.sub XR (identity (boundsOps XR) i j)
          (matMul (⟨fin 0, fin 0⟩ : Bounds ℝ) (Bounds.add XR) (Bounds.mul XR) N (J X) i j))
          (fun j => Bounds.subBF XR (X j) (mids XR X j)) i)) := by
    intro i
    beta_reduce
    rw [hm i]
    exact rep_subFB R (hdx _ (fun i j => (hv.jac m (GoodBox.mem_in R hX hmX) i j).2) m hmX i)
  have hMu : IsUnit (C⁻¹).det := by
    rw [Matrix.det_nonsing_inv]; exact hCu.ringInverse
  exact ⟨hgood, krawczyk_sound hv hX hmX hMu hgood fun A hA y hy i => (hmem A hA y hy i).2⟩

/-- **C57**: the Krawczyk step loses no zero, and shows that there is a zero if its result is inside the
box. -/
theorem C57_krawczyk_step (hv : Valid F J f f') : StepSound R f (krawczykStep XR F J) :=
  fun X _ hX h => krawczyk_step_at (hv.at X) hX h

theorem factored_step_at {X Y : Box n ℝ} (hv : ValidAt F J f f' X) (hX : GoodBox R X)
    (h : factoredStep XR F J X = some Y) : StepSoundAt R f X Y := by
  simp only [factoredStep, Option.map_eq_some_iff] at h
  obtain ⟨N, hinv, rfl⟩ := h
  obtain ⟨m, hm, hmX⟩ := mids_mem R hX
  have hJf : ∀ i j, (J X i j).Finite := fun i j => (hv.jac m (GoodBox.mem_in R hX hmX) i j).1
  have hw : ∀ i, In (F (fun i => pt (mids XR X i)) i) (f m i) :=
    hv.eval _ _ fun i => by rw [hm i]; exact in_pt (m i)
  obtain ⟨C, hC⟩ := midMat_eq (R := R) hJf
  obtain ⟨hCu, hN⟩ := C55_bounds_inverse R (fun i j => by rw [hC]; exact (in_pt _).1) hinv C
    (fun i j => by rw [hC]; exact (in_pt _).2)
  have hN' : ∀ i j, In (N i j) (C⁻¹ i j) := fun i j => hN i j
  have hdx : ∀ A : Matrix (Fin n) (Fin n) ℝ, (∀ i j, (J X i j).Contains (A i j)) → ∀ y, Mem X y → ∀ i,
      In (matVec XR N (fun i => Bounds.add XR (F (fun i => pt (mids XR X i)) i)
        (matVec XR (fun i j => Bounds.sub XR (J X i j) (midMat XR (J X) i j))
          (fun j => Bounds.subBF XR (X j) (mids XR X j)) i)) i)
        (C⁻¹.mulVec (f m + (A - C).mulVec (y - m)) i) := by
    intro A hA y hy i
    refine in_matVec R hN' (fun i => in_add R (hw i) (in_matVec R (fun i j => ?_) (fun j => ?_) i)) i
    · rw [hC]; exact in_sub R ⟨hJf i j, hA i j⟩ (in_pt _)
    · rw [hm j]; exact in_subBF R (GoodBox.mem_in R hX hy j)
  have hgood : GoodBox R fun i => Bounds.subFB XR (mids XR X i)
      (matVec XR N (fun i => Bounds.add XR (F (fun i => pt (mids XR X i)) i)
        (matVec XR (fun i j => Bounds.sub XR (J X i j) (midMat XR (J X) i j))
          (fun j => Bounds.subBF XR (X j) (mids XR X j)) i)) i) := by
    intro i
    beta_reduce
    rw [hm i]
    exact rep_subFB R (hdx _ (fun i j => (hv.jac m (GoodBox.mem_in R hX hmX) i j).2) m hmX i)
  have hMu : IsUnit (C⁻¹).det := by
    rw [Matrix.det_nonsing_inv]; exact hCu.ringInverse
  refine ⟨hgood, krawczyk_sound hv hX hmX hMu hgood fun A hA y hy i => ?_⟩
  have := in_subFB R (x := m i) (hdx A hA y hy i)
  beta_reduce
  rw [hm i]
  have e : (m - C⁻¹.mulVec (f m) + (1 - C⁻¹ * A).mulVec (y - m)) i =
      m i - C⁻¹.mulVec (f m + (A - C).mulVec (y - m)) i := by
    have e1 : C⁻¹.mulVec (f m + (A - C).mulVec (y - m)) =
        C⁻¹.mulVec (f m) - (1 - C⁻¹ * A).mulVec (y - m) := by
      rw [Matrix.mulVec_add, Matrix.mulVec_mulVec, Matrix.mul_sub, Matrix.nonsing_inv_mul _ hCu,
        Matrix.sub_mulVec, Matrix.sub_mulVec]
      abel
    rw [e1]
    simp only [Pi.add_apply, Pi.sub_apply]
    ring
  rw [e]
  exact this.2

/-- **C57**: the factored Krawczyk step loses no zero, and shows that there is a zero if its result is
inside the box. -/
theorem C57_factored_krawczyk_step (hv : Valid F J f f') : StepSound R f (factoredStep XR F J) :=
  fun X _ hX h => factored_step_at (hv.at X) hX h

/-- **C57**: if the enclosure of the Jacobian matrix over a box can be inverted, the box contains at
most one zero. -/
theorem C57_unique {X : Box n ℝ} (hv : ValidAt F J f f' X) (hX : GoodBox R X)
    {N : Mat n n (Bounds ℝ)} (h : luInverse (boundsOps XR) (J X) = some N) {x y : Fin n → ℝ}
    (hx : Mem X x) (hy : Mem X y) (h1 : f x = 0) (h2 : f y = 0) : x = y := by
  obtain ⟨A, hA, e⟩ := hv.slopes hX hx hy
  have hu := (C55_bounds_inverse R (fun i j => (hv.jac x (GoodBox.mem_in R hX hx) i j).1) h A hA).1
  rw [h1, h2, sub_zero] at e
  have := congrArg (fun v => A⁻¹.mulVec v) e
  simp only [Matrix.mulVec_zero, Matrix.mulVec_mulVec, Matrix.nonsing_inv_mul _ hu, Matrix.one_mulVec] at this
  exact (sub_eq_zero.1 this.symm).symm

end Step

end Verif.Solver
