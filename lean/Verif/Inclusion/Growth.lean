import Mathlib.Analysis.ODE.Gronwall
import Mathlib.Analysis.Calculus.Deriv.Pi
import Mathlib.Analysis.Calculus.MeanValue
import Mathlib.Analysis.Calculus.Deriv.MeanValue
import Mathlib.Analysis.Convex.Segment

/-!
# Growth of the distance of two curves

The distance in the maximum norm of two curves grows with the logarithmic norm of the matrix that relates
their derivatives.  This is mathematics about curves, independent of the model.
-/

namespace Verif.Inclusion

open Set Filter
open scoped Topology

variable {n : ℕ}

/-- A step in direction `A d + r` from `d` has norm at most `(1 + s λ) |d| + s ε` if the rows of `A` have
logarithmic norm at most `λ` and the step is short. -/
theorem norm_step {A : Fin n → Fin n → ℝ} {d r : Fin n → ℝ} {lam ε s : ℝ} (hs : 0 ≤ s)
    (hA : ∀ j, A j j + ∑ k ∈ Finset.univ.erase j, |A j k| ≤ lam) (hr : ∀ j, |r j| ≤ ε)
    (hsmall : ∀ j, s * |A j j| ≤ 1) (hn : 0 ≤ (1 + s * lam) * ‖d‖ + s * ε) :
    ‖d + s • ((fun j => ∑ k, A j k * d k) + r)‖ ≤ (1 + s * lam) * ‖d‖ + s * ε := by
  rw [pi_norm_le_iff_of_nonneg hn]
  intro j
  have hd : ∀ k, |d k| ≤ ‖d‖ := fun k => by simpa using norm_le_pi_norm d k
  have e1 : (d + s • ((fun j => ∑ k, A j k * d k) + r)) j =
      (1 + s * A j j) * d j + s * (∑ k ∈ Finset.univ.erase j, A j k * d k) + s * r j := by
    simp only [Pi.add_apply, Pi.smul_apply, smul_eq_mul]
    rw [← Finset.add_sum_erase _ _ (Finset.mem_univ j)]
    ring
  rw [e1, Real.norm_eq_abs]
  have h1 : 0 ≤ 1 + s * A j j := by
    have := hsmall j
    have := neg_abs_le (A j j)
    nlinarith
  have h2 : |∑ k ∈ Finset.univ.erase j, A j k * d k| ≤ (∑ k ∈ Finset.univ.erase j, |A j k|) * ‖d‖ := by
    refine (Finset.abs_sum_le_sum_abs _ _).trans ?_
    rw [Finset.sum_mul]
    refine Finset.sum_le_sum fun k _ => ?_
    rw [abs_mul]
    exact mul_le_mul_of_nonneg_left (hd k) (abs_nonneg _)
  calc |(1 + s * A j j) * d j + s * (∑ k ∈ Finset.univ.erase j, A j k * d k) + s * r j|
      ≤ |(1 + s * A j j) * d j| + |s * (∑ k ∈ Finset.univ.erase j, A j k * d k)| + |s * r j| :=
        abs_add_three _ _ _
    _ = (1 + s * A j j) * |d j| + s * |∑ k ∈ Finset.univ.erase j, A j k * d k| + s * |r j| := by
        rw [abs_mul, abs_mul, abs_mul, abs_of_nonneg h1, abs_of_nonneg hs]
    _ ≤ (1 + s * A j j) * ‖d‖ + s * ((∑ k ∈ Finset.univ.erase j, |A j k|) * ‖d‖) + s * ε := by
        gcongr
        · exact hd j
        · exact hr j
    _ = ‖d‖ + s * ((A j j + ∑ k ∈ Finset.univ.erase j, |A j k|) * ‖d‖) + s * ε := by ring
    _ ≤ ‖d‖ + s * (lam * ‖d‖) + s * ε := by
        gcongr
        exact hA j
    _ = _ := by ring

/-- If the right derivative of `d` is `A(t) d + r(t)`, where the rows of `A` have logarithmic norm at most
`λ` and `r` is at most `ε`, then `d` grows no faster than the solution of `u' = λ u + ε`. -/
theorem norm_le_growth {d : ℝ → Fin n → ℝ} {h lam ε : ℝ} {A : ℝ → Fin n → Fin n → ℝ}
    {r : ℝ → Fin n → ℝ} (hc : ContinuousOn d (Icc 0 h)) (hd0 : d 0 = 0)
    (hd : ∀ t ∈ Ico 0 h, HasDerivWithinAt d ((fun j => ∑ k, A t j k * d t k) + r t) (Ici t) t)
    (hA : ∀ t ∈ Ico 0 h, ∀ j, A t j j + ∑ k ∈ Finset.univ.erase j, |A t j k| ≤ lam)
    (hr : ∀ t ∈ Ico 0 h, ∀ j, |r t j| ≤ ε) (hε : 0 ≤ ε) :
    ∀ t ∈ Icc 0 h, ‖d t‖ ≤ gronwallBound 0 lam ε t := by
  intro t ht
  have := le_gronwallBound_of_liminf_deriv_right_le (f := fun t => ‖d t‖)
    (f' := fun t => lam * ‖d t‖ + ε) (δ := 0) (K := lam) (ε := ε) (continuous_norm.comp_continuousOn hc)
    ?_ (by simp [hd0]) (fun _ _ => le_rfl) t ht
  · simpa using this
  intro x hx q hq
  refine Eventually.frequently ?_
  set D := (fun j => ∑ k, A x j k * d x k) + r x with hD
  set η := (q - (lam * ‖d x‖ + ε)) / 2 with hη
  have hη0 : 0 < η := by rw [hη]; linarith
  have hlit : ∀ᶠ z in 𝓝[>] x, ‖d z - d x - (z - x) • D‖ ≤ η * ‖z - x‖ := by
    have h1 := (hasDerivWithinAt_iff_isLittleO.1 (hd x hx)).def hη0
    exact h1.filter_mono (nhdsWithin_mono _ Ioi_subset_Ici_self)
  obtain ⟨M, hM0, hM⟩ : ∃ M : ℝ, 0 < M ∧ (∀ j, |A x j j| ≤ M) ∧ |lam| ≤ M := by
    refine ⟨∑ j, |A x j j| + |lam| + 1, by positivity, fun j => ?_, ?_⟩
    · have h1 := Finset.single_le_sum (f := fun j => |A x j j|) (fun i _ => abs_nonneg _)
        (Finset.mem_univ j)
      have h2 := abs_nonneg lam
      linarith
    · have h1 : 0 ≤ ∑ j, |A x j j| := Finset.sum_nonneg fun i _ => abs_nonneg _
      linarith
  have hsm : ∀ᶠ z in 𝓝[>] x, z < x + 1 / M :=
    (eventually_lt_nhds (by have : 0 < 1 / M := by positivity
                            linarith)).filter_mono nhdsWithin_le_nhds
  filter_upwards [hlit, hsm, self_mem_nhdsWithin] with z h1 h2 h3
  have hs : 0 < z - x := by simpa using h3
  have hsM : (z - x) * M ≤ 1 := by
    have : z - x < 1 / M := by linarith
    rw [lt_div_iff₀ hM0] at this
    exact this.le
  have h4 : ‖d x + (z - x) • D‖ ≤ (1 + (z - x) * lam) * ‖d x‖ + (z - x) * ε := by
    refine norm_step hs.le (hA x hx) (hr x hx) (fun j => ?_) ?_
    · exact (mul_le_mul_of_nonneg_left (hM.1 j) hs.le).trans hsM
    · have h5 : 0 ≤ 1 + (z - x) * lam := by
        have := neg_abs_le lam
        have := hM.2
        nlinarith
      have := norm_nonneg (d x)
      positivity
  have h6 : ‖d z‖ ≤ ‖d x + (z - x) • D‖ + ‖d z - d x - (z - x) • D‖ := by
    have : d z = (d x + (z - x) • D) + (d z - d x - (z - x) • D) := by abel
    calc ‖d z‖ = ‖(d x + (z - x) • D) + (d z - d x - (z - x) • D)‖ := by rw [← this]
      _ ≤ _ := norm_add_le _ _
  rw [Real.norm_eq_abs, abs_of_pos hs] at h1
  rw [inv_mul_lt_iff₀ hs]
  have h7 : η * (z - x) < (q - (lam * ‖d x‖ + ε)) * (z - x) := by
    have : 0 < q - (lam * ‖d x‖ + ε) := by linarith
    rw [hη]
    nlinarith
  nlinarith

/-- The increments of a function are given by its partial derivatives at an intermediate point. -/
theorem exists_partial {B : Set (Fin n → ℝ)} (hB : Convex ℝ B) {φ : (Fin n → ℝ) → ℝ}
    {φ' : (Fin n → ℝ) → Fin n → ℝ}
    (hφ : ∀ x ∈ B, HasFDerivWithinAt φ (∑ k, φ' x k • ContinuousLinearMap.proj (R := ℝ)
      (φ := fun _ : Fin n => ℝ) k) B x) {x y : Fin n → ℝ} (hx : x ∈ B) (hy : y ∈ B) :
    ∃ z ∈ B, φ x - φ y = ∑ k, φ' z k * (x k - y k) := by
  have hseg : ∀ s ∈ Icc (0 : ℝ) 1, y + s • (x - y) ∈ B := fun s hs => by
    have := hB hy hx (sub_nonneg.2 hs.2) hs.1 (by ring)
    convert this using 1
    rw [smul_sub, sub_smul, one_smul]
    abel
  have hl : ∀ s : ℝ, HasDerivAt (fun s : ℝ => y + s • (x - y)) (x - y) s := fun s => by
    simpa using ((hasDerivAt_id s).smul_const (x - y)).const_add y
  have hd : ∀ s ∈ Icc (0 : ℝ) 1, HasDerivWithinAt (fun s => φ (y + s • (x - y)))
      (∑ k, φ' (y + s • (x - y)) k * (x k - y k)) (Icc 0 1) s := fun s hs => by
    have := (hφ _ (hseg s hs)).comp_hasDerivWithinAt s ((hl s).hasDerivWithinAt (s := Icc 0 1))
      (fun t ht => hseg t ht)
    refine this.congr_deriv ?_
    simp [ContinuousLinearMap.sum_apply]
  obtain ⟨c, hc, hc'⟩ := exists_hasDerivAt_eq_slope (fun s => φ (y + s • (x - y)))
    (fun s => ∑ k, φ' (y + s • (x - y)) k * (x k - y k)) (by norm_num : (0 : ℝ) < 1)
    (fun s hs => (hd s hs).continuousWithinAt)
    (fun s hs => (hd s (Ioo_subset_Icc_self hs)).hasDerivAt (Icc_mem_nhds hs.1 hs.2))
  refine ⟨_, hseg c (Ioo_subset_Icc_self hc), ?_⟩
  rw [hc']
  simp

/-- Bounds for the growth by constants: `(e^(λh) - 1)/(λh)` times `ε h`, if `λ` is positive. -/
theorem growth_le_pos {lam ε t h : ℝ} (hl : 0 < lam) (hε : 0 ≤ ε) (hh : 0 < h) (hth : t ≤ h) :
    gronwallBound 0 lam ε t ≤ ε * ((Real.exp (lam * h) - 1) / (lam * h)) * h := by
  rw [gronwallBound_of_K_ne_0 hl.ne']
  have h1 : Real.exp (lam * t) ≤ Real.exp (lam * h) := Real.exp_le_exp.2 (by gcongr)
  have h2 : ε * ((Real.exp (lam * h) - 1) / (lam * h)) * h = ε / lam * (Real.exp (lam * h) - 1) := by
    field_simp
  rw [h2]
  simp only [zero_mul, zero_add]
  have : 0 ≤ ε / lam := by positivity
  gcongr

/-- If `λ` is not positive, the growth is at most `ε h`. -/
theorem growth_le_nonpos {lam ε t h : ℝ} (hl : lam ≤ 0) (hε : 0 ≤ ε) (hth : t ≤ h) :
    gronwallBound 0 lam ε t ≤ ε * h := by
  rcases hl.lt_or_eq with hl | rfl
  · rw [gronwallBound_of_K_ne_0 hl.ne]
    simp only [zero_mul, zero_add]
    have h1 := Real.add_one_le_exp (lam * t)
    have h2 : ε / lam ≤ 0 := div_nonpos_of_nonneg_of_nonpos hε hl.le
    calc ε / lam * (Real.exp (lam * t) - 1) ≤ ε / lam * (lam * t) :=
          mul_le_mul_of_nonpos_left (by linarith) h2
      _ = ε * t := by
          have := hl.ne
          field_simp
      _ ≤ ε * h := by gcongr
  · rw [gronwallBound_K0]
    simp only [zero_add]
    gcongr

/-- The growth is at most `ε e^(Lh) h`, if `L` is non-negative. -/
theorem growth_le_exp {L ε t h : ℝ} (hL : 0 ≤ L) (hε : 0 ≤ ε) (hh : 0 < h) (hth : t ≤ h) :
    gronwallBound 0 L ε t ≤ ε * Real.exp (L * h) * h := by
  rcases hL.lt_or_eq with hL | rfl
  · refine (growth_le_pos hL hε hh hth).trans ?_
    have hz : 0 < L * h := by positivity
    have h1 : (Real.exp (L * h) - 1) / (L * h) ≤ Real.exp (L * h) := by
      rw [div_le_iff₀ hz]
      have h2 := Real.add_one_le_exp (-(L * h))
      have h3 : Real.exp (-(L * h)) * Real.exp (L * h) = 1 := by rw [← Real.exp_add]; simp
      have h4 := Real.exp_pos (L * h)
      nlinarith
    gcongr
  · refine (growth_le_nonpos le_rfl hε hth).trans ?_
    simp

end Verif.Inclusion
