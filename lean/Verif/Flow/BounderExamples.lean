import Verif.Flow.Bounder

/-!
# C59: examples and limits of flow bounds
-/

namespace Verif.Flow

open Ariadne Verif.ConstraintSolver Verif.Matrix Verif.Solver Set
open Ariadne.Ext (fin)

/-- A 2-bit number between 6 and 7 is 6. -/
theorem two_bits {x : ℝ} (h : PBit.Rep 2 x) (h6 : 6 ≤ x) (h7 : x ≤ 7) : x = 6 := by
  obtain ⟨m, e, rfl, hm⟩ := h
  have hm' : |m| < 4 := by simpa using hm
  rw [abs_lt] at hm'
  have hpos : (0 : ℝ) < 2 ^ e := by positivity
  have hm0 : 0 < m := by
    by_contra hcon
    have : (m : ℝ) ≤ 0 := by exact_mod_cast not_lt.1 hcon
    nlinarith
  have h3 : (m : ℝ) ≤ 3 := by exact_mod_cast (by omega : m ≤ 3)
  rcases le_or_gt e 1 with he | he
  · have h2 : (2 : ℝ) ^ e ≤ 2 := by
      calc (2 : ℝ) ^ e ≤ 2 ^ (1 : ℤ) := zpow_le_zpow_right₀ (by norm_num) he
        _ = 2 := zpow_one 2
    nlinarith
  · exfalso
    have h4 : (4 : ℝ) ≤ 2 ^ e := by
      calc (4 : ℝ) = 2 ^ (2 : ℤ) := by norm_num
        _ ≤ 2 ^ e := zpow_le_zpow_right₀ (by norm_num) (by omega)
    rcases le_or_gt m 1 with h1 | h1
    · have hm1 : m = 1 := by omega
      subst hm1
      simp only [Int.cast_one, one_mul] at h6 h7
      rcases le_or_gt e 2 with he2 | he2
      · have : (2 : ℝ) ^ e ≤ 2 ^ (2 : ℤ) := zpow_le_zpow_right₀ (by norm_num) he2
        norm_num at this
        linarith
      · have : (2 : ℝ) ^ (3 : ℤ) ≤ 2 ^ e := zpow_le_zpow_right₀ (by norm_num) (by omega)
        norm_num at this
        linarith
    · have h2 : (2 : ℝ) ≤ m := by exact_mod_cast h1
      nlinarith

/-- Arithmetic with two bits. -/
noncomputable def R2 : Rounding ℝ := PBit.rounding 2 (by norm_num)

theorem down7 : R2.down 7 = 6 := by
  have h6 : R2.Rep 6 := ⟨3, 1, by norm_num, by norm_num⟩
  exact two_bits (R2.rep_down 7) (R2.down_max _ _ h6 (by norm_num)) (R2.down_le 7)

/-- The vector field that is constantly one, and its range. -/
noncomputable def oneF : RangeFn 1 ℝ := fun _ _ _ => ⟨fin 1, fin 1⟩

/-- The initial point zero. -/
noncomputable def zeroD : Box 1 ℝ := fun _ => ⟨fin 0, fin 0⟩

theorem good_zeroD (R : Rounding ℝ) : GoodBox R zeroD := fun _ => ⟨0, 0, rfl, R.rep_zero, R.rep_zero, le_rfl⟩

theorem encloses_oneF : EnclosesRange oneF (univ : Set Unit) (fun _ _ _ _ => 1) :=
  fun _ _ _ _ _ _ _ _ _ => ⟨le_rfl, le_rfl⟩

theorem regular_one : Regular (n := 1) (fun _ _ _ => 1) := Regular.of_contDiff contDiff_const

/-- The Euler steps of the constant vector field. -/
theorem formula_one {R : Rounding ℝ} {a b w v c : ℝ} (hab : a ≤ b) (hv : 0 ≤ v) (hba : R.Rep (b - a))
    (hc : R.Rep (v * (b - a))) (e : v * (b - a) = c) (i : Fin 1) (B : Box 1 ℝ) :
    formula (.ofRounding R) oneF zeroD ⟨fin a, fin b⟩ B w v i = ⟨fin 0, fin c⟩ := by
  have hz : R.down 0 = 0 := R.down_of_rep R.rep_zero
  have hzu : R.up 0 = 0 := R.up_of_rep R.rep_zero
  have hzn : R.near 0 = 0 := R.near_of_rep R.rep_zero
  have hu1 : R.up (b - a) = b - a := R.up_of_rep hba
  have hu2 : R.up (v * (b - a)) = v * (b - a) := R.up_of_rep hc
  have hw : widened (.ofRounding R) (zeroD i) w = ⟨fin 0, fin 0⟩ := by
    unfold widened
    split_ifs with h1
    · rfl
    · simp only [not_not] at h1
      subst h1
      have hm : midpoint (.ofRounding R) (zeroD i) = fin 0 := by
        show fin (R.near (R.down (0 + 0) / 2 + R.up (0 + 0) / 2) / 2) = fin 0
        rw [add_zero, hz, hzu]
        norm_num [hzn]
      rw [hm]
      have hle : Ext.le (fin 0) (fin (1 : ℝ)) = true := by simp [Ext.le]
      have : Bounds.opMulFB (.ofRounding R) (fin 1) (Bounds.subBF (.ofRounding R) (zeroD i) (fin 0)) =
          ⟨fin 0, fin 0⟩ := by
        simp only [Bounds.opMulFB, hle, if_true]
        show (⟨fin (R.down (1 * R.down (0 + -0))), fin (R.up (1 * R.up (0 + -0)))⟩ : Bounds ℝ) = _
        simp [hz, hzu]
      rw [this]
      show (⟨fin (R.down (0 + 0)), fin (R.up (0 + 0))⟩ : Bounds ℝ) = _
      simp [hz, hzu]
  have ht : Bounds.opMulFB (.ofRounding R) (fin v) (Bounds.subBF (.ofRounding R) ⟨fin a, fin b⟩ (fin a)) =
      ⟨fin 0, fin c⟩ := by
    have hle : Ext.le (fin 0) (fin v) = true := by simp [Ext.le, hv]
    simp only [Bounds.opMulFB, hle, if_true]
    show (⟨fin (R.down (v * R.down (a + -a))), fin (R.up (v * R.up (b + -a)))⟩ : Bounds ℝ) = _
    rw [add_neg_cancel, hz, mul_zero, hz, ← sub_eq_add_neg, hu1, hu2, e]
  unfold formula
  rw [hw]
  show Bounds.add (.ofRounding R) ⟨fin 0, fin 0⟩ (Bounds.mul (.ofRounding R)
    (Bounds.opMulFB (.ofRounding R) (fin v) (Bounds.subBF (.ofRounding R) ⟨fin a, fin b⟩ (fin a)))
    ⟨fin 1, fin 1⟩) = _
  rw [ht]
  have h0 : Ext.le (fin (0 : ℝ)) (fin 0) = true := by simp [Ext.le]
  have h1 : Ext.le (fin 0) (fin (1 : ℝ)) = true := by simp [Ext.le]
  simp only [Bounds.mul, h0, h1, if_true]
  show (⟨fin (R.down (0 + R.down (0 * 1))), fin (R.up (0 + R.up (c * 1)))⟩ : Bounds ℝ) = _
  rw [zero_mul, hz, add_zero, hz, mul_one, ← e, hu2, zero_add, hu2]

/-- What the bounder computes for the constant vector field. -/
theorem compute_one {R : Rounding ℝ} {t h c : ℝ} (hm : ℝ) (hc : 0 < c) (hrc : R.Rep c)
    (e : R.down (t + h) - R.down t = c) :
    ∃ B, compute (.ofRounding R) oneF id hm zeroD t h h 1 = .found h B ∧ ∀ i, B i = ⟨fin 0, fin c⟩ := by
  have hT : timeBounds (.ofRounding R) t h = ⟨fin (R.down t), fin (R.down (t + h))⟩ := rfl
  have hf1 : ∀ B i, refine (.ofRounding R) oneF zeroD (timeBounds (.ofRounding R) t h) B i = ⟨fin 0, fin c⟩ := by
    intro B i
    rw [hT]
    exact formula_one (by linarith) zero_le_one (by rwa [e]) (by rwa [e, one_mul]) (by rw [e, one_mul]) i B
  have hf2 : ∀ B i, formula (.ofRounding R) oneF zeroD (timeBounds (.ofRounding R) t h) B (1 / 4) 2 i =
      ⟨fin 0, fin (2 * c)⟩ := by
    intro B i
    rw [hT]
    exact formula_one (by linarith) zero_le_two (by rwa [e]) (by rw [e]; exact R.rep_two _ hrc) (by rw [e]) i B
  have hex : expand (.ofRounding R) oneF zeroD (timeBounds (.ofRounding R) t h) 4
      (formula (.ofRounding R) oneF zeroD (timeBounds (.ofRounding R) t h) zeroD (1 / 4) 2) =
      some (refine (.ofRounding R) oneF zeroD (timeBounds (.ofRounding R) t h)
        (formula (.ofRounding R) oneF zeroD (timeBounds (.ofRounding R) t h) zeroD (1 / 4) 2)) := by
    rw [expand, if_neg, if_pos]
    · simp only [vRefines, List.all_eq_true]
      intro i _
      rw [hf1, hf2]
      simp only [Bounds.refines, Ext.le, Bool.and_eq_true, decide_eq_true_eq]
      constructor <;> linarith
    · have : isBounded (refine (.ofRounding R) oneF zeroD (timeBounds (.ofRounding R) t h)
          (formula (.ofRounding R) oneF zeroD (timeBounds (.ofRounding R) t h) zeroD (1 / 4) 2)) = true := by
        simp only [isBounded, List.all_eq_true]
        intro i _
        rw [hf1]
        simp [Ext.lt, Ext.neg]
      rw [this]
      simp
  refine ⟨refineLoop (.ofRounding R) oneF zeroD (timeBounds (.ofRounding R) t h) 4
    (refine (.ofRounding R) oneF zeroD (timeBounds (.ofRounding R) t h)
      (formula (.ofRounding R) oneF zeroD (timeBounds (.ofRounding R) t h) zeroD (1 / 4) 2)), ?_, fun i => ?_⟩
  · rw [compute, min_self, search, hex]
  · simp only [refineLoop]
    exact hf1 _ i

/-- The hypotheses of `C59_flow` can be met. -/
example : ∃ B, compute (.ofRounding TaylorModel.exactRounding) oneF id 1 zeroD 4 3 3 1 = .found (3 : ℝ) B ∧
    BoundsFlow (fun _ _ _ => 1) zeroD 4 (4 + 3) B := by
  obtain ⟨B, hB, -⟩ := compute_one (R := TaylorModel.exactRounding) (t := 4) (h := 3) (c := 3) 1
    (by norm_num) trivial (by simp [TaylorModel.exactRounding])
  exact ⟨B, hB, C59_flow _ encloses_oneF (good_zeroD _) (fun x hx => ⟨hx, le_rfl⟩) (by norm_num) (by norm_num)
    hB trivial trivial (by norm_num) (mem_univ ()) regular_one⟩

/-- **C59** fails for times that are no floating-point numbers: `to_time_bounds` rounds the final time
down.  With two bits, the solution of `x' = 1` from `x = 0` at time 4 is said to remain in `[0,2]` for
3 units of time. -/
theorem C59_time_rounding :
    ∃ B, compute (.ofRounding R2) oneF id 1 zeroD 4 3 3 1 = .found 3 B ∧ (∀ i, B i = ⟨fin 0, fin 2⟩) ∧
      ¬ BoundsFlow (fun _ _ _ => 1) zeroD 4 (4 + 3) B := by
  have h4 : R2.Rep 4 := ⟨1, 2, by norm_num, by norm_num⟩
  have h2 : R2.Rep 2 := ⟨1, 1, by norm_num, by norm_num⟩
  obtain ⟨B, hB, hB'⟩ := compute_one (R := R2) (t := 4) (h := 3) (c := 2) 1 (by norm_num) h2
    (by rw [show (4 : ℝ) + 3 = 7 by norm_num, down7, R2.down_of_rep h4]; norm_num)
  refine ⟨B, hB, hB', fun hcon => ?_⟩
  have hsol : IsSolution (n := 1) (fun _ _ _ => 1) 4 (4 + 3) (fun s _ => s - 4) := by
    intro s _
    refine hasDerivWithinAt_pi.2 fun i => ?_
    exact ((hasDerivAt_id' s).sub_const 4).hasDerivWithinAt
  have h := (hcon (fun _ => 0) (fun i => ⟨le_rfl, le_rfl⟩)).2 (4 + 3) le_rfl (fun s _ => s - 4)
    (by funext i; norm_num) hsol 7 ⟨by norm_num, by norm_num⟩ 0
  rw [hB' 0] at h
  have h2 : (7 : ℝ) - 4 ≤ 2 := h.2
  norm_num at h2

/-- The condition on bounder.cpp 133 is inverted: the initial set `[-1,1]` is widened to `[-2,2]` when no
widening is asked for, and not at all when a widening is. -/
theorem C59_widening_inverted :
    (widened (.ofRounding (TaylorModel.exactRounding : Rounding ℚ)) ⟨fin (-1), fin 1⟩ 1).u = fin 2 ∧
    (widened (.ofRounding (TaylorModel.exactRounding : Rounding ℚ)) ⟨fin (-1), fin 1⟩ (1 / 4)).u = fin 1 := by
  decide +kernel

/-- So the box returned is wider than necessary: for `x' = 0` on `[-1,1]` the least bound is `[-1,1]`,
but no step of the iteration gives a box smaller than `[-2,2]`. -/
theorem C59_refinement_wide {R : Rounding ℝ} {F : RangeFn 1 ℝ} {a b : ℝ} (hab : a < b)
    (hF : ∀ B T i, (F B T i).Contains 0) (B : Box 1 ℝ) :
    (refine (.ofRounding R) F (fun _ => ⟨fin (-1), fin 1⟩) ⟨fin a, fin b⟩ B 0).Contains 2 ∧
    (refine (.ofRounding R) F (fun _ => ⟨fin (-1), fin 1⟩) ⟨fin a, fin b⟩ B 0).Contains (-2) := by
  have hm : midpoint (.ofRounding R) ⟨fin (-1), fin 1⟩ = fin 0 := by
    show fin (R.near (R.down (-1 + 1) / 2 + R.up (-1 + 1) / 2) / 2) = fin 0
    norm_num [R.down_of_rep R.rep_zero, R.up_of_rep R.rep_zero, R.near_of_rep R.rep_zero]
  have hD : ∀ y : ℝ, -1 ≤ y → y ≤ 1 → In (⟨fin (-1), fin 1⟩ : Bounds ℝ) y := fun y hy hy' =>
    ⟨⟨⟨-1, rfl⟩, 1, rfl⟩, hy, hy'⟩
  have key : ∀ y : ℝ, -1 ≤ y → y ≤ 1 →
      (refine (.ofRounding R) F (fun _ => ⟨fin (-1), fin 1⟩) ⟨fin a, fin b⟩ B 0).Contains (y + y) := by
    intro y hy hy'
    have hw : (widened (.ofRounding R) ⟨fin (-1), fin 1⟩ 1).Contains (y + y) := by
      unfold widened
      rw [if_neg (by simp), hm]
      have := in_add R (hD y hy hy')
        (in_opMulFB R (rfl : fin (1 : ℝ) = fin 1) (in_subBF R (hD y hy hy') (x := 0)))
      simpa using this.2
    have ht := in_opMulFB R (rfl : fin (1 : ℝ) = fin 1) (time_in R (le_refl 0) (by linarith : 0 ≤ b - a))
    obtain ⟨c, hc, ec⟩ := time_eq R hab one_pos
    have hmul := Bounds.C05_mul_extended (.ofRounding R) (by rw [ec] at ht; exact ht.2)
      (hF B ⟨fin a, fin b⟩ 0) (mul_noNaN R hc (hF B ⟨fin a, fin b⟩ 0))
    have := Bounds.C05_add (.ofRounding R) hw hmul
    rw [← ec, mul_zero, add_zero] at this
    exact this
  have h2 := key 1 (by norm_num) le_rfl
  have h3 := key (-1) le_rfl (by norm_num)
  norm_num at h2 h3
  exact ⟨h2, h3⟩

end Verif.Flow
