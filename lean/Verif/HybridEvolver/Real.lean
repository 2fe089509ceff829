import Verif.HybridEvolver.Paths
import Mathlib.Analysis.Calculus.Deriv.MeanValue

/-!
# Guards along solutions over the real numbers

The assumption `Along` on the guard of a transition along a solution holds over the real numbers if the functions of
the transition are the guard, its Lie derivative, and the Lie derivative of the Lie derivative.
-/

namespace Verif.HybridEvolver

open Set

variable {L Ev : Type*} {dim : L → ℕ}

/-- A derivative in the usual sense is a derivative in the sense of `Deriv`. -/
theorem deriv_of_hasDerivAt {u u' : ℝ → ℝ} (h : ∀ s, 0 ≤ s → HasDerivWithinAt u (u' s) (Ici 0) s) : Deriv u u' := by
  have hcont : ∀ a b : ℝ, 0 ≤ a → ContinuousOn u (Icc a b) := fun a b ha s hs =>
    (h s (ha.trans hs.1)).continuousWithinAt.mono fun x hx => ha.trans hx.1
  have hmem : ∀ {a b s : ℝ}, 0 ≤ a → s ∈ interior (Icc a b) → a ≤ s ∧ s ≤ b ∧ HasDerivAt u (u' s) s := by
    intro a b s ha hs
    rw [interior_Icc] at hs
    exact ⟨hs.1.le, hs.2.le, (h s (ha.trans hs.1.le)).hasDerivAt (Ici_mem_nhds (lt_of_le_of_lt ha hs.1))⟩
  refine ⟨fun a b ha hab hp => ?_, fun a b ha hab hp => ?_, fun a b ha hab hp => ?_, fun a b ha hab hp => ?_⟩
  · refine strictMonoOn_of_deriv_pos (convex_Icc a b) (hcont a b ha) (fun s hs => ?_) (left_mem_Icc.2 hab.le)
      (right_mem_Icc.2 hab.le) hab
    obtain ⟨h1, h2, h3⟩ := hmem ha hs
    rw [h3.deriv]
    exact hp s h1 h2
  · refine monotoneOn_of_deriv_nonneg (convex_Icc a b) (hcont a b ha)
      (fun s hs => (hmem ha hs).2.2.differentiableAt.differentiableWithinAt) (fun s hs => ?_) (left_mem_Icc.2 hab)
      (right_mem_Icc.2 hab) hab
    obtain ⟨h1, h2, h3⟩ := hmem ha hs
    rw [h3.deriv]
    exact hp s h1 h2
  · refine antitoneOn_of_deriv_nonpos (convex_Icc a b) (hcont a b ha)
      (fun s hs => (hmem ha hs).2.2.differentiableAt.differentiableWithinAt) (fun s hs => ?_) (left_mem_Icc.2 hab)
      (right_mem_Icc.2 hab) hab
    obtain ⟨h1, h2, h3⟩ := hmem ha hs
    rw [h3.deriv]
    exact hp s h1 h2
  · refine strictAntiOn_of_deriv_neg (convex_Icc a b) (hcont a b ha) (fun s hs => ?_) (left_mem_Icc.2 hab.le)
      (right_mem_Icc.2 hab.le) hab
    obtain ⟨h1, h2, h3⟩ := hmem ha hs
    rw [h3.deriv]
    exact hp s h1 h2

/-- **C74**: let `ξ` solve the differential equation with right-hand side `f`, and let the functions of the
transition be differentiable with the Lie derivatives along `f`.  Then the assumption of the evolver on the guard along
the solution holds, for the functions of time which are continuous from zero on. -/
theorem C74_along {M : Sem L Ev dim ℝ} {q : L} {tr : Trans L Ev dim ℝ q} {f : (Fin (dim q) → ℝ) → Fin (dim q) → ℝ}
    {ξ : ℝ → Fin (dim q) → ℝ} {G G' : (Fin (dim q) → ℝ) → (Fin (dim q) → ℝ) →L[ℝ] ℝ}
    (hξ : ∀ s, 0 ≤ s → HasDerivWithinAt ξ (f (ξ s)) (Ici 0) s)
    (hg : ∀ x, HasFDerivAt (M.g tr) (G x) x) (hdg : ∀ x, M.dg tr x = G x (f x))
    (hg' : ∀ x, HasFDerivAt (M.dg tr) (G' x) x) (hddg : ∀ x, M.ddg tr x = G' x (f x)) :
    Along M (fun v => ContinuousOn v (Ici 0)) tr ξ := by
  have h1 : ∀ s, 0 ≤ s → HasDerivWithinAt (fun s => M.g tr (ξ s)) (M.dg tr (ξ s)) (Ici 0) s := fun s hs => by
    rw [hdg]
    exact (hg (ξ s)).comp_hasDerivWithinAt s (hξ s hs)
  have h2 : ∀ s, 0 ≤ s → HasDerivWithinAt (fun s => M.dg tr (ξ s)) (M.ddg tr (ξ s)) (Ici 0) s := fun s hs => by
    rw [hddg]
    exact (hg' (ξ s)).comp_hasDerivWithinAt s (hξ s hs)
  have hc : ∀ {u u' : ℝ → ℝ}, (∀ s, 0 ≤ s → HasDerivWithinAt u (u' s) (Ici 0) s) → ∀ r, 0 ≤ r →
      ContinuousOn (fun s => u (r + s)) (Ici 0) := by
    intro u u' hu r hr
    exact ContinuousOn.comp (t := Ici 0) (fun s hs => (hu s hs).continuousWithinAt) (by fun_prop)
      fun s hs => add_nonneg hr hs
  exact ⟨deriv_of_hasDerivAt h1, deriv_of_hasDerivAt h2, fun r c hr => (hc h1 r hr).sub continuousOn_const,
    fun r hr => hc h2 r hr⟩

end Verif.HybridEvolver
