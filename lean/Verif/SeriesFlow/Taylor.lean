import Verif.Graded.Taylor
import Mathlib.Analysis.Calculus.Taylor

/-!
# Taylor's theorem in time and along segments

Mathematics used by the theorems on the expansion of a flow in space and time.  Nothing here models
code.
-/

namespace Verif.SeriesFlow

open Verif.Graded Set Filter Topology

theorem tc_shift (F : ℝ → ℝ) (ξ : ℝ) (k : ℕ) :
    tc (fun τ => F (ξ + τ)) k = iteratedDeriv k F ξ / (k.factorial : ℝ) := by
  rw [tc, iteratedDeriv_comp_const_add]; simp

/-- Taylor's theorem: the last coefficient is that at some point in between. -/
theorem lagrange {F : ℝ → ℝ} {m : ℕ} {x : ℝ} (hx : 0 ≤ x)
    (hF : ∀ ξ ∈ Icc 0 x, ContDiffAt ℝ m F ξ) :
    ∃ ξ ∈ Icc 0 x, F x = ∑ k ∈ Finset.range m, tc F k * x ^ k + tc (fun τ => F (ξ + τ)) m * x ^ m := by
  cases m with
  | zero => exact ⟨x, ⟨hx, le_rfl⟩, by simp [tc_zero]⟩
  | succ m =>
    rcases hx.eq_or_lt with rfl | h0
    · refine ⟨0, ⟨le_rfl, le_rfl⟩, ?_⟩
      rw [Finset.sum_range_succ', Finset.sum_eq_zero (fun k _ => by simp)]
      simp [tc_zero]
    · have hu : uIcc 0 x = Icc 0 x := uIcc_of_le hx
      have hc : ContDiffOn ℝ ((m : ℕ∞) + 1) F (uIcc 0 x) := by
        rw [hu]
        intro ξ hξ
        have := (hF ξ hξ).contDiffWithinAt (s := Icc 0 x)
        exact_mod_cast this
      obtain ⟨ξ, h1, h2⟩ := taylor_mean_remainder_lagrange_iteratedDeriv h0.ne hc
      rw [uIoo_of_le hx] at h1
      refine ⟨ξ, ⟨h1.1.le, h1.2.le⟩, ?_⟩
      rw [tc_shift]
      rw [sub_zero] at h2
      have h3 : taylorWithinEval F m (uIcc 0 x) 0 x = ∑ k ∈ Finset.range (m + 1), tc F k * x ^ k := by
        rw [taylor_within_apply]
        refine Finset.sum_congr rfl fun k hk => ?_
        have hk' : k ≤ m + 1 := (Finset.mem_range.1 hk).le
        rw [iteratedDerivWithin_eq_iteratedDeriv (uniqueDiffOn_uIcc h0.ne)
          ((hF 0 ⟨le_rfl, hx⟩).of_le (by exact_mod_cast hk')) (by simp)]
        rw [tc, smul_eq_mul, sub_zero]
        field_simp
      rw [h3] at h2
      rw [div_mul_eq_mul_div]
      linarith [h2]

variable {N : ℕ}

/-- Taylor's theorem along the segment from `p` to `p+v`. -/
theorem segment {g : (Fin N → ℝ) → ℝ} {p v : Fin N → ℝ} {m : ℕ}
    (hg : ∀ θ ∈ Icc (0 : ℝ) 1, ContDiffAt ℝ m (fun r : ℝ => g (p + θ • v + r • v)) 0) :
    ∃ θ ∈ Icc (0 : ℝ) 1, g (p + v) = ∑ k ∈ Finset.range m, tc (fun r : ℝ => g (p + r • v)) k +
      tc (fun r : ℝ => g (p + θ • v + r • v)) m := by
  have e : ∀ θ : ℝ, (fun r : ℝ => g (p + θ • v + r • v)) = fun r => g (p + (θ + r) • v) := by
    intro θ; funext r; rw [add_smul, add_assoc]
  have hF : ∀ θ ∈ Icc (0 : ℝ) 1, ContDiffAt ℝ m (fun r : ℝ => g (p + r • v)) θ := by
    intro θ hθ
    have h := hg θ hθ
    rw [e] at h
    have h2 : ContDiffAt ℝ m (fun r : ℝ => r - θ) θ := contDiffAt_id.sub contDiffAt_const
    have h3 := ContDiffAt.comp θ (g := fun r : ℝ => g (p + (θ + r) • v)) (f := fun r : ℝ => r - θ)
      (by simpa using h) h2
    have h4 : ((fun r : ℝ => g (p + (θ + r) • v)) ∘ fun r : ℝ => r - θ) = fun r => g (p + r • v) := by
      funext r; simp
    rwa [h4] at h3
  obtain ⟨θ, h1, h2⟩ := lagrange zero_le_one hF
  refine ⟨θ, h1, ?_⟩
  rw [e]
  simpa using h2

end Verif.SeriesFlow
