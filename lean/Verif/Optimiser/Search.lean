import Verif.Optimiser.Props

/-!
# C70: the search for a feasible point
-/

namespace Verif.Optimiser

open Ariadne Ariadne.Logical Verif.ConstraintSolver Verif.Matrix Verif.Solver Set
open Ariadne.Ext (fin)

section Loop

variable {k : ℕ} {R : Rounding ℝ}

local notation "XR" => XRounding.ofRounding R

theorem goodBox_zero : GoodBox R (zeroBox : Box k ℝ) := fun _ => ⟨0, 0, rfl, R.rep_zero, R.rep_zero, le_rfl⟩

theorem in_unit : In (⟨fin 0, fin 1⟩ : Bounds ℝ) 0 := ⟨⟨⟨0, rfl⟩, 1, rfl⟩, le_rfl, zero_le_one⟩

theorem stretch_good {w v : Box k ℝ} (hw : GoodBox R w) {q : Fin k → ℝ} (hv : ∀ i, In (v i) (q i)) :
    GoodBox R (stretch XR w v) ∧ ∀ p, Mem w p → Mem (stretch XR w v) p := by
  have key : ∀ p, Mem w p → ∀ i, In (Bounds.mul XR ⟨fin 0, fin 1⟩ (Bounds.sub XR (v i) (w i)))
      (0 * (q i - p i)) := fun p hp i => in_mul R in_unit (in_sub R (hv i) (GoodBox.mem_in R hw hp i))
  constructor
  · intro i
    obtain ⟨m, -, hm⟩ := mids_mem R hw
    exact rep_add R (GoodBox.mem_in R hw hm i) (key m hm i)
  · intro p hp i
    have := in_add R (GoodBox.mem_in R hw hp i) (key p hp i)
    rw [zero_mul, add_zero] at this
    exact this.2

theorem searchLoop_sound {F : (Fin k → ℝ) → Fin k → ℝ} {step : Box k ℝ → Option (Box k ℝ)}
    (hs : StepSound R F step) : ∀ (t : ℕ) (found validated : Bool) (w w' : Box k ℝ), GoodBox R w →
      (found = true → ∃ v, Mem w v ∧ F v = 0) → (validated = true → found = true) →
      searchLoop XR step t found validated w = some (true, w') →
      GoodBox R w' ∧ ∃ v, Mem w' v ∧ F v = 0 := by
  intro t
  induction t with
  | zero =>
    intro found validated w w' hw hf hv h
    simp only [searchLoop, Option.some.injEq, Prod.mk.injEq] at h
    obtain ⟨h1, rfl⟩ := h
    exact ⟨hw, hf (hv h1)⟩
  | succ t ih =>
    intro found validated w w' hw hf hv h
    simp only [searchLoop] at h
    cases hstep : step w with
    | none => rw [hstep] at h; exact absurd h (by simp)
    | some nw =>
      rw [hstep] at h
      simp only at h
      obtain ⟨hg, hlost, hex⟩ := hs w nw hw hstep
      by_cases hfd : found = false
      · rw [if_pos hfd] at h
        have hval : validated = false := by
          by_contra hc
          have := hv (by simpa using hc)
          rw [hfd] at this
          exact absurd this (by decide)
        by_cases href : vRefines nw w = true
        · rw [if_pos href] at h
          obtain ⟨z, hz, h0⟩ := hex href
          have hzw := vRefines_mem R hw hg href hz
          have hst := stretch_good hw (v := zeroBox) (q := fun _ => 0) fun _ => in_pt 0
          exact ih _ _ _ _ hst.1 (fun _ => ⟨z, hst.2 z hzw, h0⟩) (fun _ => rfl) h
        · rw [if_neg href] at h
          obtain ⟨m, -, hm⟩ := mids_mem R hg
          have hst := stretch_good hw (v := fun i => Bounds.mul XR ⟨fin 2, fin 2⟩ (nw i))
            (q := fun i => 2 * m i) fun i => in_mul R (in_pt 2) (GoodBox.mem_in R hg hm i)
          exact ih _ _ _ _ hst.1 (fun hc => absurd hc (by decide)) (fun hc => absurd (hval ▸ hc) (by decide)) h
      · rw [if_neg hfd] at h
        have hft : found = true := by simpa using hfd
        obtain ⟨z, hz, h0⟩ := hf hft
        have hzn := hlost z hz h0
        have hfin : ∀ {B : Box k ℝ}, GoodBox R B → ∀ i, (B i).Finite := fun hB i => by
          obtain ⟨a, b, e, -⟩ := hB i
          rw [e]; exact ⟨⟨a, rfl⟩, b, rfl⟩
        have hr := goodBox_refinement R hg hw (vConsistent_of_mem (hfin hg) (hfin hw) hzn hz)
        have hzr : Mem (fun i => Bounds.refinement (nw i) (w i)) z := fun i =>
          refinement_contains (hzn i) (hz i)
        by_cases href : vRefines nw w = true
        · rw [if_pos href] at h
          exact ih _ _ _ _ hr (fun _ => ⟨z, hzr, h0⟩) (fun _ => rfl) h
        · rw [if_neg href] at h
          by_cases hval : validated = true
          · rw [if_pos hval] at h
            simp only [Option.some.injEq, Prod.mk.injEq] at h
            obtain ⟨-, rfl⟩ := h
            exact ⟨hw, z, hz, h0⟩
          · rw [if_neg hval] at h
            exact ih _ _ _ _ hr (fun _ => ⟨z, hzr, h0⟩) (fun _ => rfl) h

end Loop

section Feasible

variable {n m : ℕ} {R : Rounding ℝ} {g : GFn n m ℝ} {J : GJac n m ℝ} {f : (Fin n → ℝ) → Fin m → ℝ}
  {f' : (Fin n → ℝ) → Matrix (Fin m) (Fin n) ℝ}

local notation "XR" => XRounding.ofRounding R

/-- The function of which the search looks for a zero, and its derivative. -/
theorem search_valid (hv : GValid g J f f') {C : Box m ℝ} {c : Fin (eqs C).length → ℝ}
    (hc : ∀ j, C ((eqs C).get j) = ⟨fin (c j), fin (c j)⟩) (x0 : Fin n → ℝ)
    {AT : Mat n (eqs C).length (Bounds ℝ)} {A : Matrix (Fin n) (Fin (eqs C).length) ℝ}
    (hA : ∀ i j, In (AT i j) (A i j)) :
    Valid (searchF XR g C x0 AT) (searchJ XR J C x0 AT)
      (fun v j => f (x0 + A.mulVec v) ((eqs C).get j) - c j)
      (fun v => (Matrix.of fun j i => f' (x0 + A.mulVec v) ((eqs C).get j) i) * A) := by
  refine ⟨fun v => ?_, fun X v hX j => ?_, fun X v hX i j => ?_⟩
  · have h1 : HasStrictFDerivAt (fun v : Fin (eqs C).length → ℝ => x0 + A.mulVec v) (linR A) v :=
      ((linR A).hasStrictFDerivAt).const_add x0
    have h2 := (eq_der hv c (x0 + A.mulVec v)).comp v h1
    refine h2.congr_fderiv ?_
    refine ContinuousLinearMap.ext fun u => ?_
    simp only [ContinuousLinearMap.comp_apply, linR_apply, lin_apply, Matrix.mulVec_mulVec]
  · simp only [searchF, hc j]
    exact in_subBF R (hv.eval _ _ (in_xOf R hA hX) _)
  · exact in_rectMul R (fun i j => hv.jac _ _ (in_xOf R hA hX) _ j) hA i j

/-- **C70** (partial): if `validate_feasibility` answers true, there is a point which `g` maps into `C`.
Nothing is claimed about the domain: the code does not check that the point is in it (see
`C70_validate_feasibility_outside`). -/
theorem C70_validate_feasibility_partial (hv : GValid g J f f') {C : Box m ℝ}
    (hC : ∀ i, isSing (C i) = true → (C i).Finite) {x0 : Fin n → ℝ}
    (h : validateFeasibility XR g J C x0 = some true) : ∃ p, Mem C (f p) := by
  simp only [validateFeasibility] at h
  by_cases hi : ineqOk C (g (exactPt x0)) = false
  · rw [if_pos hi] at h; exact absurd h (by simp)
  rw [if_neg hi] at h
  by_cases he : (eqs C).isEmpty = true
  · refine ⟨x0, fun i => ineqOk_contains (by simpa using hi) (hv.eval _ _ (in_exactPt x0)) ?_⟩
    by_contra hc
    have : i ∈ eqs C := by simp [eqs, (by simpa using hc : isSing (C i) = true)]
    rw [List.isEmpty_iff.1 he] at this
    exact absurd this (by simp)
  rw [if_neg he] at h
  obtain ⟨c, hc⟩ := sing_values hC
  let A : Matrix (Fin n) (Fin (eqs C).length) ℝ := Matrix.of fun i j => f' x0 ((eqs C).get j) i
  have hA : ∀ i j, In (startAT J C x0 i j) (A i j) := fun i j => hv.jac _ _ (in_exactPt x0) _ i
  have hs := C57_newton_step (R := R) (search_valid (R := R) hv hc x0 hA)
  revert h
  cases hl : searchLoop XR (newtonStep XR (searchF XR g C x0 (startAT J C x0)) (searchJ XR J C x0 (startAT J C x0)))
      12 false false zeroBox with
  | none => intro h; simp at h
  | some r =>
    obtain ⟨b, w⟩ := r
    cases b with
    | false => intro h; simp at h
    | true =>
      intro h
      simp only [Option.some.injEq] at h
      obtain ⟨hw, v, hvw, h0⟩ := searchLoop_sound hs 12 false false zeroBox w goodBox_zero
        (fun hc => absurd hc (by decide)) (fun hc => absurd hc (by decide)) hl
      refine ⟨x0 + A.mulVec v, fun i => ?_⟩
      have hin : ∀ i, In (xOf XR x0 (startAT J C x0) w i) ((x0 + A.mulVec v) i) :=
        in_xOf R hA (GoodBox.mem_in R hw hvw)
      by_cases hsi : isSing (C i) = true
      · obtain ⟨j, rfl⟩ := exists_eq hsi
        have := congrFun h0 j
        simp only [Pi.zero_apply, sub_eq_zero] at this
        rw [this, hc j]
        exact ⟨le_rfl, le_rfl⟩
      · exact ineqOk_contains h (hv.eval _ _ hin) (by simpa using hsi)

/-- **C70**: if the interior point optimiser answers false, no point of the domain satisfies the
constraints, whatever its iterates are. -/
theorem C70_feasible_false {D : Box n ℝ} {yg : (Fin m → ℝ) → Bounds ℝ} {C : Box m ℝ}
    (hyg : ∀ y p, Mem D p → (yg y).Contains (∑ i, y i * f p i))
    {l : List ((Fin n → ℝ) × (Fin m → ℝ) × Bool)} (h : feasibleLoop XR D g J yg C l = some .false_) :
    ¬ Feas D C f := by
  induction l with
  | nil => exact absurd h (by simp [feasibleLoop])
  | cons e l ih =>
    obtain ⟨x, y, small⟩ := e
    simp only [feasibleLoop] at h
    cases hvf : validateFeasibility XR g J C x with
    | none => rw [hvf] at h; exact absurd h (by simp)
    | some b =>
      rw [hvf] at h
      cases b with
      | true => exact absurd h (by simp)
      | false =>
        simp only at h
        by_cases hcert : isInfeasibilityCertificate XR D yg C y = true
        · exact C70_certificate XR (hyg y) hcert
        · rw [if_neg hcert] at h
          by_cases hsm : small = true
          · rw [if_pos hsm] at h; exact absurd h (by simp)
          · rw [if_neg hsm] at h; exact ih h

/-- **C70** (partial): if the interior point optimiser answers true, some point satisfies the constraints;
it need not be in the domain. -/
theorem C70_feasible_true_partial (hv : GValid g J f f') {D : Box n ℝ} {yg : (Fin m → ℝ) → Bounds ℝ} {C : Box m ℝ}
    (hC : ∀ i, isSing (C i) = true → (C i).Finite)
    {l : List ((Fin n → ℝ) × (Fin m → ℝ) × Bool)} (h : feasibleLoop XR D g J yg C l = some .true_) :
    ∃ p, Mem C (f p) := by
  induction l with
  | nil => exact absurd h (by simp [feasibleLoop])
  | cons e l ih =>
    obtain ⟨x, y, small⟩ := e
    simp only [feasibleLoop] at h
    cases hvf : validateFeasibility XR g J C x with
    | none => rw [hvf] at h; exact absurd h (by simp)
    | some b =>
      rw [hvf] at h
      cases b with
      | true => exact C70_validate_feasibility_partial hv hC hvf
      | false =>
        simp only at h
        split_ifs at h
        · exact absurd h (by simp)
        · exact absurd h (by simp)
        · exact ih h

/-- **C70**: the constraint set for inequalities `g(x)≤0` and equalities `h(x)=0` means what it says. -/
theorem C70_standard {p q : ℕ} (a : Fin p → ℝ) (b : Fin q → ℝ) :
    Mem (standardC p q : Box (p + q) ℝ) (Fin.append a b) ↔ (∀ i, a i ≤ 0) ∧ ∀ j, b j = 0 := by
  constructor
  · intro h
    refine ⟨fun i => ?_, fun j => ?_⟩
    · have := h (Fin.castAdd q i)
      simp only [standardC, Fin.append_left] at this
      exact this.2
    · have := h (Fin.natAdd p j)
      simp only [standardC, Fin.append_right] at this
      exact le_antisymm this.2 this.1
  · rintro ⟨h1, h2⟩ i
    refine Fin.addCases (fun i => ?_) (fun j => ?_) i
    · simp only [standardC, Fin.append_left]
      exact ⟨trivial, h1 i⟩
    · simp only [standardC, Fin.append_right, h2 j]
      exact ⟨le_rfl, le_rfl⟩

/-! ## The penalty function optimiser -/

theorem upperBoxSubset_iff (X Y : Box n ℝ) : LV.definitely (upperBoxSubset X Y) = vRefines X Y := by
  have key : ∀ (l : List (Fin n)) (s : LV),
      LV.definitely (l.foldl (fun s i => LV.and_ s (upperSubset (X i) (Y i))) s) =
        (LV.definitely s && l.all fun i => Bounds.refines (X i) (Y i)) := by
    intro l
    induction l with
    | nil => intro s; simp
    | cons i l ih =>
      intro s
      simp only [List.foldl_cons, List.all_cons]
      rw [ih, ← Bool.and_assoc]
      congr 1
      simp only [upperSubset]
      cases hb : Bounds.refines (X i) (Y i) <;> cases s <;> decide
  rw [upperBoxSubset, key]
  rfl

theorem penalty_newton (hv : GValid g J f f') {C : Box m ℝ} (hC : ∀ i, isSing (C i) = true → (C i).Finite)
    {tol : ℝ} (ht : 0 ≤ tol) {D : Box n ℝ} {x : Fin n → ℝ}
    (h : penaltyNewton XR tol D g J C x = some true) :
    ∃ p, Mem D p ∧ (∀ i, isSing (C i) = true → (C i).Contains (f p i)) ∧
      ∀ i, In (xOf XR x (midAT XR J C x) (searchBox tol) i) (p i) := by
  obtain ⟨c, hc⟩ := sing_values hC
  have hJf : ∀ i j, (eqJac J C (exactPt x) i j).Finite := fun i j => (hv.jac _ _ (in_exactPt x) _ j).1
  have hmid : ∃ A : Matrix (Fin n) (Fin (eqs C).length) ℝ, ∀ i j, midAT XR J C x i j = pt (fin (A i j)) := by
    have : ∀ i j, ∃ a, midAT XR J C x i j = pt (fin a) := by
      intro i j
      obtain ⟨⟨l, hl⟩, u, hu⟩ := hJf j i
      exact ⟨_, by rw [midAT, Bounds.value, hl, hu]; rfl⟩
    choose A e using this
    exact ⟨A, e⟩
  obtain ⟨A, hA⟩ := hmid
  have hAin : ∀ i j, In (midAT XR J C x i j) (A i j) := fun i j => by rw [hA]; exact in_pt _
  simp only [penaltyNewton, Option.map_eq_some_iff, Bool.and_eq_true] at h
  obtain ⟨Sinv, hinv, hsub, href⟩ := h
  rw [upperBoxSubset_iff] at hsub
  let W : Box (eqs C).length ℝ := searchBox tol
  have hWin : ∀ v, Mem W v → ∀ j, In (W j) (v j) := fun v hvv j => ⟨⟨⟨_, rfl⟩, _, rfl⟩, hvv j⟩
  have hWv : ∀ v, Mem W v ↔ v ∈ Icc (fun _ => -tol) (fun _ => tol) := fun v =>
    ⟨fun h => ⟨fun i => (h i).1, fun i => (h i).2⟩, fun h i => ⟨h.1 i, h.2 i⟩⟩
  have hW0 : Mem W 0 := fun i => ⟨by change -tol ≤ 0; linarith, by change 0 ≤ tol; exact ht⟩
  let F : (Fin (eqs C).length → ℝ) → Fin (eqs C).length → ℝ := fun v j =>
    f (x + A.mulVec v) ((eqs C).get j) - c j
  let F' : (Fin (eqs C).length → ℝ) → Matrix (Fin (eqs C).length) (Fin (eqs C).length) ℝ := fun v =>
    (Matrix.of fun j i => f' (x + A.mulVec v) ((eqs C).get j) i) * A
  have hval := search_valid (R := R) hv hc x hAin
  have hSin : ∀ v, Mem W v → ∀ i j, In (searchJ XR J C x (midAT XR J C x) W i j) (F' v i j) := fun v hvv =>
    hval.jac W v (hWin v hvv)
  obtain ⟨lo, hi, hlh⟩ := iMat_of_finite fun i j => (hSin 0 hW0 i j).1
  have hF0 : F 0 = fun j => f x ((eqs C).get j) - c j := by
    funext j; simp only [F, Matrix.mulVec_zero, add_zero]
  have hG : ∀ j, In (Bounds.subBF XR (eqFn g C (exactPt x) j) (C ((eqs C).get j)).l) (F 0 j) := by
    intro j
    rw [hF0, hc j]
    exact in_subBF R (hv.eval _ _ (in_exactPt x) _)
  have hreg := fun B hB => C55_bounds_inverse R (fun i j => (hSin 0 hW0 i j).1) hinv B ((hlh B).1 hB)
  obtain ⟨z, hz, h0, -⟩ := newton_exists (f := F) (f' := F') (lo := lo) (hi := hi)
    (a := fun _ => -tol) (b := fun _ => tol) (m := 0) (fun v _ => hval.der v)
    (fun v hvv => (hlh _).2 fun i j => (hSin v ((hWv v).2 hvv) i j).2)
    (fun B hB => isUnit_iff_ne_zero.1 (hreg B hB).1) ((hWv 0).1 hW0)
    (fun B hB => by
      have h2 := vRefines_in href (in_matVec R (fun i j => (hreg B hB).2 i j) hG)
      have h3 := (hWv _).1 h2
      refine ⟨fun i => ?_, fun i => ?_⟩
      · have := h3.2 i
        simp only [Pi.sub_apply, Pi.zero_apply]
        linarith
      · have := h3.1 i
        simp only [Pi.sub_apply, Pi.zero_apply]
        linarith)
  have hzW := (hWv z).2 hz
  have hin : ∀ i, In (xOf XR x (midAT XR J C x) W i) ((x + A.mulVec z) i) := in_xOf R hAin (hWin z hzW)
  refine ⟨x + A.mulVec z, vRefines_in hsub hin, fun i hi => ?_, hin⟩
  obtain ⟨j, rfl⟩ := exists_eq hi
  have := congrFun h0 j
  simp only [F, Pi.zero_apply, sub_eq_zero] at this
  rw [this, hc j]
  exact ⟨le_rfl, le_rfl⟩

/-- Some constraint is violated at the point (1937). -/
noncomputable def violated (C gx : Box m ℝ) : Bool :=
  (List.finRange m).any fun j => Ext.lt (gx j).u (C j).l || Ext.lt (C j).u (gx j).l

/-- **C70** (partial): if the penalty function optimiser answers true and there are no equality
constraints, the point it has found satisfies the constraints; it need not be in the domain.  If there are
equality constraints, some point of the domain satisfies them, and the inequality constraints hold at the
point found; the two points need not be the same (see `C70_penalty_inequality_wrong`).  With the missing
tests as extra hypotheses there is a feasible point. -/
theorem C70_penalty_true_partial (hv : GValid g J f f') {C : Box m ℝ}
    (hC : ∀ i, isSing (C i) = true → (C i).Finite) {tol : ℝ} (ht : 0 ≤ tol) {D : Box n ℝ} {x : Fin n → ℝ}
    {y : Fin m → ℝ} (h : checkFeasibility XR tol D g J C x y = some .true_) :
    (∀ i, isSing (C i) = false → (C i).Contains (f x i)) ∧
    ((∃ i, isSing (C i) = true) → ∃ p, Mem D p ∧ ∀ i, isSing (C i) = true → (C i).Contains (f p i)) ∧
    (((∃ i, isSing (C i) = true) → ineqOk C (g (xOf XR x (midAT XR J C x) (searchBox tol))) = true) →
      ((∀ i, isSing (C i) = false) → Mem D x) → Feas D C f) := by
  simp only [checkFeasibility] at h
  have hlast : (if isEmpty (Bounds.refinement (dotBB XR (exactPt y) C)
      (meanValue XR J D x y (g (exactPt x)))) = true then LV.false_ else .indeterminate) ≠ .true_ := by
    split_ifs <;> decide
  generalize (if isEmpty (Bounds.refinement (dotBB XR (exactPt y) C)
      (meanValue XR J D x y (g (exactPt x)))) = true then LV.false_ else .indeterminate) = last at h hlast
  split_ifs at h with h1 h2 h3
  · cases h
  · have hin := fun i (hi : isSing (C i) = false) => ineqOk_contains h2 (hv.eval _ _ (in_exactPt x)) hi
    have hno : ∀ i, isSing (C i) = false := by
      intro i
      by_contra hc
      have : i ∈ eqs C := by simp [eqs, (by simpa using hc : isSing (C i) = true)]
      rw [List.isEmpty_iff.1 h3] at this
      exact absurd this (by simp)
    refine ⟨hin, fun ⟨i, hi⟩ => absurd hi (by simp [hno i]), fun _ hD => ⟨x, hD hno, fun i => hin i (hno i)⟩⟩
  · have hin := fun i (hi : isSing (C i) = false) => ineqOk_contains h2 (hv.eval _ _ (in_exactPt x)) hi
    rw [Option.map_eq_some_iff] at h
    obtain ⟨b, hb, hb2⟩ := h
    have hbt : b = true := by
      cases b with
      | true => rfl
      | false => exact absurd hb2 hlast
    subst hbt
    obtain ⟨p, hpD, hpe, hpin⟩ := penalty_newton hv hC ht hb
    refine ⟨hin, fun _ => ⟨p, hpD, hpe⟩, fun hi _ => ⟨p, hpD, fun i => ?_⟩⟩
    by_cases hs : isSing (C i) = true
    · exact hpe i hs
    · have hex : ∃ i, isSing (C i) = true := by
        by_contra hc
        apply h3
        rw [List.isEmpty_iff, eqs, List.filter_eq_nil_iff]
        intro j _ hj
        exact hc ⟨j, hj⟩
      exact ineqOk_contains (hi hex) (hv.eval _ p hpin) (by simpa using hs)
  · exact absurd (Option.some.inj h) hlast

/-- **C70** (partial): if the penalty function optimiser answers false although no constraint is
definitely violated at the point it has found, and the point is in the domain, there is no feasible
point.  Without these hypotheses this is not so (see `C70_penalty_false_wrong`). -/
theorem C70_penalty_false_partial (hv : GValid g J f f') {C : Box m ℝ} {tol : ℝ} {D : Box n ℝ}
    (hD : ∀ i, (D i).Finite) {x : Fin n → ℝ} (hx : Mem D x) {y : Fin m → ℝ}
    (hn : violated C (g (exactPt x)) = false)
    (h : checkFeasibility XR tol D g J C x y = some .false_) : ¬ Feas D C f := by
  rintro ⟨p, hp, hc⟩
  have hl : isEmpty (Bounds.refinement (dotBB XR (exactPt y) C) (meanValue XR J D x y (g (exactPt x)))) = false := by
    rw [dotBB_eq]
    exact weak_not_empty (weak_dotFB XR y hc) (meanValue_contains hv hD hx hp)
  simp only [violated] at hn
  simp only [checkFeasibility, hl, hn, Bool.false_eq_true, if_false] at h
  split_ifs at h <;> try cases h
  rw [Option.map_eq_some_iff] at h
  obtain ⟨b, -, h⟩ := h
  split_ifs at h

/-- **C70**: if `feasible_zero` of the approximate optimiser answers false, the function has no zero in
the box, whatever the iterates are. -/
theorem C70_zero_false (hg : Encl g f) {D : Box n ℝ} (hD : ∀ i, (D i).Finite) {tol : ℝ} {hx y : Fin m → ℝ}
    (h : feasibleZero XR tol D g hx y = .false_) {p : Fin n → ℝ} (hp : Mem D p) : f p ≠ 0 := by
  intro h0
  have hin : ∀ i, In (ConstraintSolver.apply (fun X => g X i) D) (f p i) := fun i => by
    rw [apply_eq hp]; exact hg D p (fun i => ⟨hD i, hp i⟩) i
  have := (in_dotFB R y hin).2
  simp only [h0, Pi.zero_apply, mul_zero, Finset.sum_const_zero] at this
  simp only [feasibleZero] at h
  split_ifs at h with h1 h2
  apply h2
  rw [dotBB_eq, (Ext.le_fin_iff _ _).2 this.1, (Ext.fin_le_iff _ _).2 this.2]
  rfl

end Feasible

end Verif.Optimiser
