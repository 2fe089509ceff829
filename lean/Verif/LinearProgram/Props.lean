import Verif.LinearProgram.Lemmas
import Verif.Matrix.Props

/-!
# C79: feasibility of linear programs
-/

namespace Verif.LinearProgram

open Ariadne
open Verif.Matrix (In luSolve boundsOps encl_bounds)

variable {K : Type*} [Field K] [LinearOrder K] [IsStrictOrderedRing K] {m n : ℕ}

/-! ## Infeasibility -/

/-- The dual vector times the equations. -/
theorem dual_eq {A : Fin m → Fin n → K} {b : Fin m → K} {x : Fin n → K} (h : Solves A b x) (y : Fin m → K) :
    ∑ i, y i * b i = ∑ j, (∑ i, A i j * y i) * x j := by
  simp only [Finset.sum_mul]
  rw [Finset.sum_comm]
  refine Finset.sum_congr rfl fun i _ => ?_
  rw [← h i, Finset.mul_sum]
  exact Finset.sum_congr rfl fun j _ => by ring

theorem not_lt_of_weak {a b : Ext K} {v : K} (ha : WUpper a v) (hb : WLower b v) : Ext.lt a b = false := by
  by_cases h1 : a = .nan
  · rw [h1]; exact nan_lt b
  by_cases h2 : b = .nan
  · rw [h2]; exact lt_nan a
  have h1 := ha h1
  have h2 := hb h2
  cases a <;> cases b <;> simp [IsLower, IsUpper] at h1 h2 <;> simp [Ext.lt]
  linarith

/-- A datum above another is neither `-inf` nor NaN, and the other is neither `+inf` nor NaN. -/
theorem lt_bad {a b : Ext K} (h : Ext.lt a b = true) : ¬ BadP a ∧ ¬ BadN b := by
  cases a <;> cases b <;> simp [Ext.lt] at h <;> simp [BadP, BadN]

theorem mulF_inf (R : XRounding K) {y : Ext K} (hy : ∀ v, y ≠ .fin v) (a : K) :
    ((Bounds.mulF R (.fin a) y).l = (Bounds.mulF R (.fin a) y).u ∧
      Bounds.mulF R y (.fin a) = Bounds.mulF R (.fin a) y) ∧
    (y = .nan ∧ (Bounds.mulF R (.fin a) y).l = .nan ∨ y = .pinf ∧ (Bounds.mulF R (.fin a) y).l = Ext.infSign a ∨
      y = .ninf ∧ (Bounds.mulF R (.fin a) y).l = Ext.infSign (-a)) := by
  cases y with
  | fin v => exact absurd rfl (hy v)
  | ninf => simp [Bounds.mulF, Ext.mul]
  | pinf => simp [Bounds.mulF, Ext.mul]
  | nan => simp [Bounds.mulF, Ext.mul]

/-- The sign of an infinite number. -/
theorem inf_sign (R : XRounding K) {y : Ext K} (hy : ∀ v, y ≠ .fin v) :
    ∃ s : K, ∀ a : K, (¬ BadN (Bounds.mulF R (.fin a) y).l → 0 < s * a) ∧
      (¬ BadP (Bounds.mulF R (.fin a) y).l → s * a < 0) ∧
      (0 < s * a → (Bounds.mulF R (.fin a) y).l = .pinf) ∧ (s * a < 0 → (Bounds.mulF R (.fin a) y).l = .ninf) := by
  cases y with
  | fin v => exact absurd rfl (hy v)
  | nan => exact ⟨0, fun a => ⟨fun h => absurd badN_nan h, fun h => absurd badP_nan h, by simp, by simp⟩⟩
  | pinf =>
    refine ⟨1, fun a => ?_⟩
    simp only [Bounds.mulF, Ext.mul, one_mul]
    refine ⟨infSign_badN, infSign_badP, fun h => ?_, fun h => ?_⟩
    · simp [Ext.infSign, h]
    · simp [Ext.infSign, h, h.not_gt]
  | ninf =>
    refine ⟨-1, fun a => ?_⟩
    simp only [Bounds.mulF, Ext.mul, neg_one_mul]
    refine ⟨infSign_badN, infSign_badP, fun h => ?_, fun h => ?_⟩
    · simp only [Ext.infSign, if_pos h]
    · simp only [Ext.infSign, if_pos h, if_neg h.not_gt]

/-- **C79** (the dual certificate): if the test on the multipliers `y` succeeds then the problem has no solution,
whatever `y` is (it may be infinite or NaN), and whatever the bounds on the variables are, with overflow. -/
theorem C79_certificate (R : XRounding K) {xl xu : Fin n → Ext K} {A : Fin m → Fin n → K} {b : Fin m → K}
    {y : Fin m → Ext K} (h : certificate R xl xu A b y = true) (x : Fin n → K) : ¬ Feasible xl xu A b x := by
  rintro ⟨hA, hx⟩
  have hx : ∀ j, (⟨xl j, xu j⟩ : Bounds K).Contains (x j) := hx
  unfold certificate Bounds.inconsistent at h
  simp only [Bool.or_eq_true] at h
  by_cases hy : ∀ i, ∃ v, y i = .fin v
  · choose v hv using hy
    obtain rfl : y = fun i => .fin (v i) := funext hv
    have hb := sum_contains R (zeroF_contains R) fun i => mulF_contains R (v i) (b i)
    have hz := fun j => sum_contains R (zeroF_contains R) fun i => mulF_contains R (A i j) (v i)
    have hs := sum_weak R (zeroB_contains R) fun j => mul_weak R (hz j) (hx j)
    rw [← dual_eq hA v] at hs
    rcases h with h | h
    · rw [not_lt_of_weak hs.2 fun _ => hb.1] at h; exact absurd h (by simp)
    · rw [not_lt_of_weak (fun _ => hb.2) hs.1] at h; exact absurd h (by simp)
  · push Not at hy
    obtain ⟨i, hi⟩ := hy
    obtain ⟨s, hs⟩ := inf_sign R hi
    have hm := fun a => (mulF_inf R hi a).1
    have hsum : s * b i = ∑ j, s * A i j * x j := by
      rw [← hA i, Finset.mul_sum]; exact Finset.sum_congr rfl fun j _ => by ring
    have hzP : ∀ j, 0 < s * A i j → BadP (sumB R (zeroF R) fun i => Bounds.mulF R (.fin (A i j)) (y i)).l ∧
        BadP (sumB R (zeroF R) fun i => Bounds.mulF R (.fin (A i j)) (y i)).u := fun j h0 =>
      ⟨lower_badP R (i := i) (by rw [(hs (A i j)).2.2.1 h0]; exact badP_inf),
        upper_badP R (i := i) (by rw [← (hm (A i j)).1, (hs (A i j)).2.2.1 h0]; exact badP_inf)⟩
    have hzN : ∀ j, s * A i j < 0 → BadN (sumB R (zeroF R) fun i => Bounds.mulF R (.fin (A i j)) (y i)).l ∧
        BadN (sumB R (zeroF R) fun i => Bounds.mulF R (.fin (A i j)) (y i)).u := fun j h0 =>
      ⟨lower_badN R (i := i) (by rw [(hs (A i j)).2.2.2 h0]; exact badN_inf),
        upper_badN R (i := i) (by rw [← (hm (A i j)).1, (hs (A i j)).2.2.2 h0]; exact badN_inf)⟩
    rcases h with h | h
    · obtain ⟨h1, h2⟩ := lt_bad h
      have hb : 0 < s * b i := (hs (b i)).1 fun hc => h2 (lower_badN R (i := i) (by rwa [(hm (b i)).2]))
      have hj : ∀ j, s * A i j * x j ≤ 0 := by
        intro j
        have hn : ¬ BadP (Bounds.mul R (sumB R (zeroF R) fun i => Bounds.mulF R (.fin (A i j)) (y i)) ⟨xl j, xu j⟩).u :=
          fun hc => h1 (upper_badP R (i := j) hc)
        rcases lt_trichotomy (s * A i j) 0 with h0 | h0 | h0
        · exact mul_nonpos_of_nonpos_of_nonneg h0.le ((mul_badN R (hzN j h0).1 (hzN j h0).2 (hx j)).1 hn)
        · rw [h0, zero_mul]
        · exact mul_nonpos_of_nonneg_of_nonpos h0.le ((mul_badP R (hzP j h0).1 (hzP j h0).2 (hx j)).1 hn)
      have := Finset.sum_nonpos fun j (_ : j ∈ Finset.univ) => hj j
      linarith
    · obtain ⟨h1, h2⟩ := lt_bad h
      have hb : s * b i < 0 :=
        (hs (b i)).2.1 fun hc => h1 (upper_badP R (i := i) (by rw [(hm (b i)).2, ← (hm (b i)).1]; exact hc))
      have hj : ∀ j, 0 ≤ s * A i j * x j := by
        intro j
        have hn : ¬ BadN (Bounds.mul R (sumB R (zeroF R) fun i => Bounds.mulF R (.fin (A i j)) (y i)) ⟨xl j, xu j⟩).l :=
          fun hc => h2 (lower_badN R (i := j) hc)
        rcases lt_trichotomy (s * A i j) 0 with h0 | h0 | h0
        · exact mul_nonneg_of_nonpos_of_nonpos h0.le ((mul_badN R (hzN j h0).1 (hzN j h0).2 (hx j)).2 hn)
        · rw [h0, zero_mul]
        · exact mul_nonneg h0.le ((mul_badP R (hzP j h0).1 (hzP j h0).2 (hx j)).2 hn)
      have := Finset.sum_nonneg fun j (_ : j ∈ Finset.univ) => hj j
      linarith

/-! ## Feasibility -/

section Primal

variable (R : Rounding K)

local notation "XR" => XRounding.ofRounding R

theorem in_exact (a : K) : In (Bounds.ofExt (.fin a)) a := ⟨⟨⟨a, rfl⟩, ⟨a, rfl⟩⟩, le_refl a, le_refl a⟩

theorem in_mulFB (a : K) {X : Bounds K} {x : K} (hx : In X x) : In (mulFB XR a X) (a * x) :=
  Verif.Matrix.in_mul R (in_exact a) hx

theorem in_zeroB : In (zeroB XR) (0 : K) := by
  have := Verif.Matrix.in_mul R (in_exact (0 : K)) (in_exact (0 : K))
  rwa [mul_zero] at this

theorem in_mulF (a b : K) : In (Bounds.mulF XR (.fin a) (.fin b)) (a * b) :=
  ⟨⟨⟨_, rfl⟩, ⟨_, rfl⟩⟩, R.down_le _, R.le_up _⟩

theorem in_sum {z : Bounds K} (hz : In z 0) {t : Fin n → Bounds K} {x : Fin n → K} (h : ∀ i, In (t i) (x i)) :
    In (sumB XR z t) (∑ i, x i) :=
  sum_induct XR (P := In) (fun h1 h2 => Verif.Matrix.in_add R h1 h2) hz h

theorem in_subFB (a : K) {X : Bounds K} {x : K} (hx : In X x) : In (Bounds.subFB XR (.fin a) X) (a - x) := by
  have := Verif.Matrix.in_sub R (in_exact a) hx
  exact this

/-- **C79** (correction): from a finite approximation the solver computes bounds on a solution of `A*x=b`, if it does
not find `A*transpose(A)` to be singular. -/
theorem C79_correct {A : Fin m → Fin n → K} {b : Fin m → K} {x : Fin n → K} {X : Fin n → Bounds K}
    (h : correct XR A b (fun j => .fin (x j)) = some X) : ∃ x', Solves A b x' ∧ ∀ j, (X j).Contains (x' j) := by
  obtain ⟨W, hW, rfl⟩ := Option.map_eq_some_iff.1 h
  have hg : ∀ i k, In (gram XR A i k) (∑ j, A i j * A k j) := fun i k =>
    in_sum R (by have := in_mulF R (0 : K) 0; rwa [mul_zero] at this) fun j => in_mulF R (A i j) (A k j)
  have he : ∀ i, In (Bounds.subFB XR (.fin (b i)) (matVec XR A (fun j => Bounds.ofExt (.fin (x j))) i))
      (b i - ∑ j, A i j * x j) := fun i =>
    in_subFB R _ (in_sum R (in_zeroB R) fun j => in_mulFB R (A i j) (in_exact (x j)))
  obtain ⟨w, hw, -, hm⟩ := Verif.Matrix.C55_lu_solve (encl_bounds R) hW
    (a := fun i k => ∑ j, A i j * A k j) (b := fun i (_ : Fin 1) => b i - ∑ j, A i j * x j) hg fun i _ => he i
  refine ⟨fun j => x j + ∑ i, A i j * w i 0, fun i => ?_, fun j => ?_⟩
  · have h1 := congrFun (congrFun hw i) 0
    have h1 : ∑ k, (∑ j, A i j * A k j) * w k 0 = b i - ∑ j, A i j * x j := h1
    have h2 : ∑ j, A i j * ∑ k, A k j * w k 0 = ∑ k, (∑ j, A i j * A k j) * w k 0 := by
      simp only [Finset.mul_sum, Finset.sum_mul]
      rw [Finset.sum_comm]
      exact Finset.sum_congr rfl fun k _ => Finset.sum_congr rfl fun j _ => by ring
    simp only [mul_add, Finset.sum_add_distrib]
    rw [h2, h1]; ring
  · exact (Verif.Matrix.in_add R (in_exact (x j))
      (in_sum R (in_zeroB R) fun i => in_mulFB R (A i j) (hm i 0))).2

/-- **C79** (validation of feasibility): for a finite approximation `validate_feasibility` is only true if there is a
point which satisfies the equations and lies strictly between the bounds.  For NaN this is false:
see `C79_validate_nan`. -/
theorem C79_validate_feasible_partial {xl xu : Fin n → Ext K} (hl : ∀ j, xl j ≠ .nan) (hu : ∀ j, xu j ≠ .nan)
    {A : Fin m → Fin n → K} {b : Fin m → K} {x : Fin n → K} {y : Fin m → Ext K}
    (h : validate XR xl xu A b (fun j => .fin (x j)) y = some true) : ∃ x', StrictlyFeasible xl xu A b x' := by
  unfold validate at h
  split at h
  · exact absurd h (by simp)
  · rename_i X hX
    by_cases hi : inside xl xu X = true
    · obtain ⟨x', hs, hc⟩ := C79_correct R hX
      refine ⟨x', hs, fun j => ?_⟩
      have := List.all_eq_true.1 hi j (List.mem_finRange j)
      simp only [Bool.not_eq_true', Bool.or_eq_false_iff] at this
      have h1 := hc j
      have h2 := hl j
      have h3 := hu j
      obtain ⟨h4, h5⟩ := h1
      obtain ⟨h6, h7⟩ := this
      generalize (X j).l = a at *
      generalize (X j).u = c at *
      generalize xl j = l at *
      generalize xu j = u at *
      constructor
      · cases a <;> cases l <;> simp [IsLower, Ext.le, Ext.lt] at * ; linarith
      · cases c <;> cases u <;> simp [IsUpper, Ext.le, Ext.lt] at * ; linarith
    · rw [if_neg hi] at h
      split_ifs at h
      all_goals exact absurd h (by simp)

end Primal

/-! ## Validation of infeasibility -/

theorem sub_wlower (R : XRounding K) {a b : Ext K} {x y : K} (ha : WLower a x) (hb : WUpper b y) :
    WLower (Ext.sub R.down a b) (x - y) := by
  rw [sub_eq_add_neg]
  refine add_wlower R ha fun hn => ?_
  exact Ext.isLower_neg (hb (by rintro rfl; exact hn rfl))

/-- The part of one variable, if its lower bound is not negative. -/
theorem mxStep_ok (R : XRounding K) {xl xu : Fin n → Ext K} {z : Fin n → Bounds K} {i : Fin n} {zi xi v : K}
    (hz : (z i).Contains zi) (hx : IsLower (xl i) xi) (hx' : IsUpper (xu i) xi) (h0 : Ext.le (.fin 0) (xl i) = true)
    {M : Bounds K} (hM : WLower M.l v) : WLower (mxStep R xl xu z M i).l (v - zi * xi) := by
  have hxi : 0 ≤ xi := by
    rw [Ext.fin_le_iff] at h0
    cases hl : xl i <;> rw [hl] at hx h0 <;> simp [IsLower, IsUpper] at *; linarith
  have weak : ∀ {a : Ext K} {p q : K}, WLower a p → p ≤ q → WLower a q := fun h hpq hn => Ext.isLower_mono (h hn) hpq
  -- the part of the upper bound
  have h1 : WLower (if Ext.lt (.fin 0) (z i).u then Bounds.sub R M (Bounds.mulF R (z i).u (xu i)) else M).l
      (v - max 0 zi * xi) := by
    by_cases hu : Ext.lt (.fin 0) (z i).u = true
    · rw [if_pos hu]
      refine sub_wlower R hM fun hn => ?_
      have hz' : IsUpper (z i).u (max 0 zi) := by
        have := hz.2
        cases hzu : (z i).u <;> rw [hzu] at hu this <;> simp [IsUpper, Ext.lt] at *
        exact ⟨hu.le, this⟩
      exact mul_up_pp R hz' hx' (Ext.isUpper_mono hz' (le_max_left _ _)) (Ext.isUpper_mono hx' hxi)
        (Or.inl (le_max_left _ _)) hn
    · rw [if_neg hu]
      have : zi ≤ 0 := by
        have := hz.2
        cases hzu : (z i).u <;> rw [hzu] at hu this <;> simp [IsUpper, Ext.lt] at *
        linarith
      rw [max_eq_left this, zero_mul, sub_zero]
      exact hM
  unfold mxStep
  simp only
  by_cases hl : Ext.lt (z i).l (.fin 0) = true
  · rw [if_pos hl]
    have h2 : WLower (Bounds.mulF R (z i).l (xl i)).l 0 := by
      intro hn
      cases hzl : (z i).l <;> cases hxl : xl i <;> simp only [hzl, hxl, Bounds.mulF, Ext.mul] at *
        <;> simp_all [Ext.lt, Ext.le, IsLower, Ext.infSign]
      · rename_i a
        rcases h0.lt_or_eq with h | h
        · simp [h, h.not_gt]
        · rw [← h] at hn; simp at hn
      · rename_i a c
        exact R.down_of_le (mul_nonpos_of_nonpos_of_nonneg hl.le h0)
    have := add_wlower R h1 h2
    rw [add_zero] at this
    refine weak this ?_
    have := mul_le_mul_of_nonneg_right (le_max_right 0 zi) hxi
    linarith
  · rw [if_neg hl]
    refine weak h1 ?_
    have := mul_le_mul_of_nonneg_right (le_max_right 0 zi) hxi
    linarith

/-- **C79** (validation of infeasibility, partial): for finite multipliers, and if no lower bound is negative,
`validate_feasibility` is only false if the problem has no solution.  For negative lower bounds this is wrong: see
`C79_validate_infeasible_wrong`. -/
theorem C79_validate_infeasible_partial (R : XRounding K) {xl xu : Fin n → Ext K}
    (h0 : ∀ j, Ext.le (.fin 0) (xl j) = true) {A : Fin m → Fin n → K} {b : Fin m → K} {x : Fin n → Ext K}
    {y : Fin m → K} (h : validate R xl xu A b x (fun i => .fin (y i)) = some false) (x' : Fin n → K) :
    ¬ Feasible xl xu A b x' := by
  rintro ⟨hA, hx⟩
  have hz : ∀ j, (transVec R A (fun i => Bounds.ofExt (.fin (y i))) j).Contains (∑ i, A i j * y i) := fun j =>
    sum_contains R (zeroB_contains R) fun i =>
      mulFB_contains R (A i j) ⟨⟨_, rfl⟩, ⟨_, rfl⟩⟩ ⟨le_refl (y i), le_refl (y i)⟩
  have hb : (sumB R (Bounds.ofExt (.fin 0)) fun i => mulFB R (b i) (Bounds.ofExt (.fin (y i)))).Contains
      (∑ i, b i * y i) :=
    sum_contains R (z := Bounds.ofExt (.fin 0)) ⟨le_refl (0 : K), le_refl (0 : K)⟩ fun i =>
      mulFB_contains R (b i) ⟨⟨_, rfl⟩, ⟨_, rfl⟩⟩ ⟨le_refl (y i), le_refl (y i)⟩
  have key : ∀ (l : List (Fin n)) (M : Bounds K) (v : K), WLower M.l v →
      WLower (l.foldl (mxStep R xl xu (transVec R A fun i => Bounds.ofExt (.fin (y i)))) M).l
        (v - (l.map fun j => (∑ i, A i j * y i) * x' j).sum) := by
    intro l
    induction l with
    | nil => intro M v hM; simpa using hM
    | cons j l ih =>
      intro M v hM
      have := ih _ _ (mxStep_ok R (hz j) (hx j).1 (hx j).2 (h0 j) hM)
      rw [List.foldl_cons, List.map_cons, List.sum_cons, ← sub_sub]
      exact this
  have hmx := key (List.finRange n) _ _ fun _ => hb.1
  rw [← List.ofFn_eq_map, List.sum_ofFn, ← dual_eq hA y] at hmx
  have e : ∑ i, b i * y i - ∑ i, y i * b i = 0 := by
    rw [sub_eq_zero]; exact Finset.sum_congr rfl fun i _ => mul_comm _ _
  rw [e] at hmx
  unfold validate at h
  split at h
  · exact absurd h (by simp)
  · rename_i X hX
    by_cases h1 : inside xl xu X = true
    · rw [if_pos h1] at h; exact absurd h (by simp)
    rw [if_neg h1] at h
    have h2 : Ext.lt (.fin 0) (mx R xl xu A b fun i => .fin (y i)).l = true := by
      by_contra hc
      rw [if_neg hc] at h
      exact absurd h (by simp)
    have : Ext.lt (.fin 0) (mx R xl xu A b fun i => .fin (y i)).l = false := by
      have h3 : WLower (mx R xl xu A b fun i => .fin (y i)).l (0 : K) := hmx
      exact not_lt_of_weak (v := 0) (fun _ => le_refl (0 : K)) h3
    rw [this] at h2
    exact absurd h2 (by simp)

/-! ## The solver -/

theorem loop_true {R : XRounding K} {xl xu : Fin n → Ext K} {A : Fin m → Fin n → K} {b : Fin m → K} (k : ℕ) :
    ∀ s : ℕ → Iter m n K, loop R xl xu A b k s = some true →
      ∃ i < k, ((s i).status = .primalDual ∨ (s i).status = .primal) ∧
        validate R xl xu A b (s i).x (s i).y = some true := by
  induction k with
  | zero => intro s h; exact absurd h (by simp [loop])
  | succ k ih =>
    intro s h
    unfold loop at h
    by_cases h1 : ((s 0).status = .primalDual ∨ (s 0).status = .primal) ∧
        validate R xl xu A b (s 0).x (s 0).y = some true
    · exact ⟨0, Nat.succ_pos k, h1⟩
    · rw [if_neg h1] at h
      split_ifs at h
      · exact absurd h (by simp)
      · obtain ⟨i, hi, h2⟩ := ih _ h
        exact ⟨i + 1, by omega, h2⟩

theorem loop_false {R : XRounding K} {xl xu : Fin n → Ext K} {A : Fin m → Fin n → K} {b : Fin m → K} (k : ℕ) :
    ∀ s : ℕ → Iter m n K, loop R xl xu A b k s = some false → ∃ i < k, certificate R xl xu A b (s i).y = true := by
  induction k with
  | zero => intro s h; exact absurd h (by simp [loop])
  | succ k ih =>
    intro s h
    unfold loop at h
    by_cases h2 : certificate R xl xu A b (s 0).y = true
    · exact ⟨0, Nat.succ_pos k, h2⟩
    rw [if_neg h2] at h
    split_ifs at h
    · exact absurd h (by simp)
    · obtain ⟨i, hi, h2⟩ := ih _ h
      exact ⟨i + 1, by omega, h2⟩

/-- **C79** (infeasible problems): if `feasible` is false, or if its assertion fails, then no point satisfies the
constraints, whatever the steps of the solver compute, with overflow, infinities and NaN. -/
theorem C79_infeasible (R : XRounding K) {xl xu : Fin n → Ext K} {A : Fin m → Fin n → K} {b : Fin m → K}
    {s : ℕ → Iter m n K}
    (h : feasible R xl xu A b s = some (some false) ∨ feasible R xl xu A b s = none) (x : Fin n → K) :
    ¬ Feasible xl xu A b x := by
  unfold feasible at h
  by_cases h1 : ((List.finRange n).all fun i => boundsOk (xl i) (xu i)) = true
  · rw [if_pos h1] at h
    rcases h with h | h
    · obtain ⟨i, -, hi⟩ := loop_false 24 s (Option.some.inj h)
      exact C79_certificate R hi x
    · exact absurd h (by simp)
  · rintro ⟨-, hx⟩
    apply h1
    rw [List.all_eq_true]
    intro j _
    have := hx j
    unfold boundsOk
    cases hl : xl j <;> cases hu : xu j <;> rw [hl, hu] at this <;> simp [IsLower, IsUpper] at this <;>
      simp [Ext.eq, Ext.le]
    exact this.1.trans this.2

/-- **C79** (feasible problems, partial): if `feasible` is true then there is a point which satisfies the equations and
lies strictly between the bounds, provided that the approximations computed by the steps are finite.  The steps
(375-478) accept no NaN: see the comparisons in `emul_gtr` (119-124); this is not part of the model. -/
theorem C79_feasible_partial (R : Rounding K) {xl xu : Fin n → Ext K} (hl : ∀ j, xl j ≠ .nan) (hu : ∀ j, xu j ≠ .nan)
    {A : Fin m → Fin n → K} {b : Fin m → K} {s : ℕ → Iter m n K} (hs : ∀ i j, ∃ v, (s i).x j = .fin v)
    (h : feasible (XRounding.ofRounding R) xl xu A b s = some (some true)) : ∃ x, StrictlyFeasible xl xu A b x := by
  unfold feasible at h
  split_ifs at h
  obtain ⟨i, -, -, hv⟩ := loop_true 24 s (Option.some.inj h)
  choose v hv' using hs i
  rw [show (s i).x = fun j => .fin (v j) from funext hv'] at hv
  exact C79_validate_feasible_partial R hl hu hv

end Verif.LinearProgram
