import Mathlib.Analysis.ODE.ExistUnique
import Mathlib.Analysis.Calculus.Deriv.MeanValue
import Mathlib.Analysis.Calculus.Deriv.Prod
import Mathlib.Analysis.Calculus.MeanValue
import Mathlib.Analysis.Calculus.ContDiff.Basic
import Mathlib.Topology.MetricSpace.Lipschitz

/-!
# Solutions of differential equations in boxes

What the flow bounds and integrators of Ariadne are specified against: solutions of `x' = f(t,x)` as
differentiable curves.  The box of a flow bound is invariant because the Picard operator maps curves in
the box to curves in the box.
-/

namespace Verif.Flow

open Set Metric
open scoped NNReal

variable {n : ℕ}

/-- The curve `x` solves `x' = f(t,x)` between the times `a` and `b`. -/
def IsSolution (f : ℝ → (Fin n → ℝ) → Fin n → ℝ) (a b : ℝ) (x : ℝ → Fin n → ℝ) : Prop :=
  ∀ s ∈ Icc a b, HasDerivWithinAt x (f s (x s)) (Icc a b) s

/-- Vector fields that are continuous and, on bounded sets, Lipschitz in the state. -/
structure Regular (f : ℝ → (Fin n → ℝ) → Fin n → ℝ) : Prop where
  cont : Continuous (Function.uncurry f)
  lip : ∀ a b r : ℝ, ∃ K : ℝ≥0, ∀ s ∈ Icc a b, LipschitzOnWith K (f s) (closedBall 0 r)

/-- Continuously differentiable vector fields are regular. -/
theorem Regular.of_contDiff {f : ℝ → (Fin n → ℝ) → Fin n → ℝ}
    (h : ContDiff ℝ 1 (Function.uncurry f)) : Regular f where
  cont := h.continuous
  lip a b r := by
    have hc : Continuous (fun p => ‖fderiv ℝ (Function.uncurry f) p‖₊) :=
      (h.continuous_fderiv one_ne_zero).nnnorm
    obtain ⟨K, hK⟩ := ((isCompact_Icc (a := a) (b := b)).prod
      (isCompact_closedBall (0 : Fin n → ℝ) r)).bddAbove_image hc.continuousOn
    refine ⟨K, fun s hs => ?_⟩
    have hle : ∀ x ∈ closedBall (0 : Fin n → ℝ) r,
        ‖(fderiv ℝ (Function.uncurry f) (s, x)).comp (ContinuousLinearMap.inr ℝ ℝ (Fin n → ℝ))‖₊ ≤ K := by
      intro x hx
      have h1 : ‖fderiv ℝ (Function.uncurry f) (s, x)‖₊ ≤ K := hK ⟨(s, x), ⟨hs, hx⟩, rfl⟩
      have h2 : ‖ContinuousLinearMap.inr ℝ ℝ (Fin n → ℝ)‖₊ ≤ 1 := by
        refine ContinuousLinearMap.opNNNorm_le_iff.2 fun y => ?_
        simp [Prod.nnnorm_def]
      calc _ ≤ ‖fderiv ℝ (Function.uncurry f) (s, x)‖₊ * ‖ContinuousLinearMap.inr ℝ ℝ (Fin n → ℝ)‖₊ :=
            ContinuousLinearMap.opNNNorm_comp_le _ _
        _ ≤ K * 1 := mul_le_mul' h1 h2
        _ = K := mul_one K
    refine (convex_closedBall (0 : Fin n → ℝ) r).lipschitzOnWith_of_nnnorm_hasFDerivWithin_le
      (f' := fun x => (fderiv ℝ (Function.uncurry f) (s, x)).comp
        (ContinuousLinearMap.inr ℝ ℝ (Fin n → ℝ))) (fun x _ => ?_) hle
    have hd : HasFDerivAt (Function.uncurry f) (fderiv ℝ (Function.uncurry f) (s, x)) (s, x) :=
      (h.differentiable (by norm_num)).differentiableAt.hasFDerivAt
    exact (HasFDerivAt.comp x hd (hasFDerivAt_prodMk_right s x)).hasFDerivWithinAt

theorem IsSolution.continuousOn {f : ℝ → (Fin n → ℝ) → Fin n → ℝ} {a b : ℝ} {x : ℝ → Fin n → ℝ}
    (h : IsSolution f a b x) : ContinuousOn x (Icc a b) := fun s hs => (h s hs).continuousWithinAt

theorem IsSolution.mono {f : ℝ → (Fin n → ℝ) → Fin n → ℝ} {a b c : ℝ} {x : ℝ → Fin n → ℝ}
    (h : IsSolution f a b x) (hc : c ≤ b) : IsSolution f a c x := fun s hs =>
  (h s ⟨hs.1, hs.2.trans hc⟩).mono (Icc_subset_Icc_right hc)

theorem IsSolution.hasDerivAt {f : ℝ → (Fin n → ℝ) → Fin n → ℝ} {a b : ℝ} {x : ℝ → Fin n → ℝ}
    (h : IsSolution f a b x) {s : ℝ} (hs : s ∈ Ioo a b) : HasDerivAt x (f s (x s)) s :=
  (h s ⟨hs.1.le, hs.2.le⟩).hasDerivAt (Icc_mem_nhds hs.1 hs.2)

/-- Each coordinate of a solution is given by some value of the vector field on the way. -/
theorem IsSolution.mean {f : ℝ → (Fin n → ℝ) → Fin n → ℝ} {a b : ℝ} {x : ℝ → Fin n → ℝ}
    (h : IsSolution f a b x) {s : ℝ} (hs : s ∈ Icc a b) (i : Fin n) :
    ∃ c ∈ Icc a s, x s i = x a i + (s - a) * f c (x c) i := by
  rcases hs.1.eq_or_lt with e | hlt
  · exact ⟨a, ⟨le_rfl, hs.1⟩, by rw [← e]; simp⟩
  · have hcont : ContinuousOn (fun r => x r i) (Icc a s) :=
      (continuous_apply i).comp_continuousOn (h.continuousOn.mono (Icc_subset_Icc_right hs.2))
    have hder : ∀ r ∈ Ioo a s, HasDerivAt (fun r => x r i) (f r (x r) i) r := fun r hr =>
      hasDerivAt_pi.1 (h.hasDerivAt ⟨hr.1, hr.2.trans_le hs.2⟩) i
    obtain ⟨c, hc, e⟩ := exists_hasDerivAt_eq_slope (fun r => x r i) (fun r => f r (x r) i) hlt hcont hder
    refine ⟨c, ⟨hc.1.le, hc.2.le⟩, ?_⟩
    have : s - a ≠ 0 := sub_ne_zero.2 hlt.ne'
    rw [e]
    field_simp
    ring

/-- Projection to a box. -/
noncomputable def clamp (l u : Fin n → ℝ) (x : Fin n → ℝ) : Fin n → ℝ := fun i => max (l i) (min (x i) (u i))

theorem clamp_mem {l u : Fin n → ℝ} (h : l ≤ u) (x : Fin n → ℝ) : clamp l u x ∈ Icc l u :=
  ⟨fun i => le_max_left _ _, fun i => max_le (h i) (min_le_right _ _)⟩

theorem clamp_of_mem {l u x : Fin n → ℝ} (h : x ∈ Icc l u) : clamp l u x = x := by
  funext i
  simp only [clamp]
  rw [min_eq_left (h.2 i), max_eq_right (h.1 i)]

theorem clamp_lipschitz (l u : Fin n → ℝ) : LipschitzWith 1 (clamp l u) := by
  refine LipschitzWith.of_dist_le_mul fun x y => ?_
  rw [NNReal.coe_one, one_mul, dist_pi_le_iff dist_nonneg]
  intro i
  have h1 : LipschitzWith 1 (fun t : ℝ => max (l i) (min t (u i))) :=
    (LipschitzWith.id.min_const (u i)).const_max (l i)
  calc dist (max (l i) (min (x i) (u i))) (max (l i) (min (y i) (u i))) ≤ dist (x i) (y i) := by
        simpa using h1.dist_le_mul (x i) (y i)
    _ ≤ dist x y := dist_le_pi_dist x y i

/-- If the Picard operator maps curves in a box to curves in that box, then there is a solution in it. -/
theorem exists_solution {f : ℝ → (Fin n → ℝ) → Fin n → ℝ} (hf : Regular f) {a b : ℝ} (hab : a ≤ b)
    {l u x₀ : Fin n → ℝ} (hlu : l ≤ u)
    (hbox : ∀ s ∈ Icc a b, ∀ y ∈ Icc l u, ∀ τ ∈ Icc 0 (b - a), ∀ i,
      l i ≤ x₀ i + τ * f s y i ∧ x₀ i + τ * f s y i ≤ u i) :
    ∃ x, x a = x₀ ∧ IsSolution f a b x ∧ ∀ s ∈ Icc a b, x s ∈ Icc l u := by
  obtain ⟨ρ, hρ⟩ := (isBounded_Icc l u).subset_closedBall (0 : Fin n → ℝ)
  obtain ⟨K, hK⟩ := hf.lip a b ρ
  have hvc : Continuous (fun p : ℝ × (Fin n → ℝ) => f p.1 (clamp l u p.2)) :=
    hf.cont.comp (continuous_fst.prodMk ((clamp_lipschitz l u).continuous.comp continuous_snd))
  have hnc : Continuous (fun p : ℝ × (Fin n → ℝ) => ‖f p.1 p.2‖₊) := hf.cont.nnnorm
  obtain ⟨L, hL⟩ := ((isCompact_Icc (a := a) (b := b)).prod
    (isCompact_Icc (a := l) (b := u))).bddAbove_image hnc.continuousOn
  set v : ℝ → (Fin n → ℝ) → Fin n → ℝ := fun s x => f s (clamp l u x) with hv
  have hpl : IsPicardLindelof v (⟨a, left_mem_Icc.2 hab⟩ : Icc a b) x₀
      (L * ⟨b - a, sub_nonneg.2 hab⟩) 0 L K := by
    refine ⟨fun s hs => ?_, fun x _ => ?_, fun s hs x _ => ?_, ?_⟩
    · have h1 := (hK s hs).mono hρ
      have h2 : LipschitzOnWith (K * 1) (v s) univ :=
        h1.comp (clamp_lipschitz l u).lipschitzOnWith (fun x _ => clamp_mem hlu x)
      rw [mul_one] at h2
      exact h2.mono (subset_univ _)
    · exact (hvc.comp (continuous_id.prodMk continuous_const)).continuousOn
    · have : ‖f s (clamp l u x)‖₊ ≤ L := hL ⟨(s, clamp l u x), ⟨hs, clamp_mem hlu x⟩, rfl⟩
      exact_mod_cast this
    · simp only [sub_self, NNReal.coe_mul, NNReal.coe_zero, sub_zero]
      rw [max_eq_left (sub_nonneg.2 hab)]
      exact le_rfl
  obtain ⟨x, hx0, hx⟩ := hpl.exists_eq_forall_mem_Icc_hasDerivWithinAt₀
  have hx0' : x a = x₀ := hx0
  have hsol : IsSolution v a b x := hx
  have hmem : ∀ s ∈ Icc a b, x s ∈ Icc l u := by
    intro s hs
    have key : ∀ i, l i ≤ x s i ∧ x s i ≤ u i := by
      intro i
      obtain ⟨c, hc, e⟩ := hsol.mean hs i
      rw [e, hx0']
      exact hbox c ⟨hc.1, hc.2.trans hs.2⟩ _ (clamp_mem hlu (x c)) (s - a)
        ⟨sub_nonneg.2 hs.1, by linarith [hs.2]⟩ i
    exact ⟨fun i => (key i).1, fun i => (key i).2⟩
  refine ⟨x, hx0', fun s hs => ?_, hmem⟩
  have := hx s hs
  simp only [hv, clamp_of_mem (hmem s hs)] at this
  exact this

/-- If the Picard operator maps curves in a tube to curves in that tube, then there is a solution in it. -/
theorem exists_tube_solution {f : ℝ → (Fin n → ℝ) → Fin n → ℝ} (hf : Regular f) {a b : ℝ} (hab : a ≤ b)
    {l u : ℝ → Fin n → ℝ} (hl : Continuous l) (hu : Continuous u) (hlu : ∀ s, l s ≤ u s) {x₀ : Fin n → ℝ}
    (htube : ∀ x c : ℝ → Fin n → ℝ, x a = x₀ → (∀ s ∈ Icc a b, c s ∈ Icc (l s) (u s)) →
      (∀ s ∈ Icc a b, HasDerivWithinAt x (f s (c s)) (Icc a b) s) →
      ∀ s ∈ Icc a b, x s ∈ Icc (l s) (u s)) :
    ∃ x, x a = x₀ ∧ IsSolution f a b x ∧ ∀ s ∈ Icc a b, x s ∈ Icc (l s) (u s) := by
  have hcc : Continuous (fun p : ℝ × (Fin n → ℝ) => clamp (l p.1) (u p.1) p.2) := by
    refine continuous_pi fun i => ?_
    exact (((continuous_apply i).comp hl).comp continuous_fst).max
      (((continuous_apply i).comp continuous_snd).min (((continuous_apply i).comp hu).comp continuous_fst))
  obtain ⟨ρ, hρ⟩ : ∃ ρ : ℝ, ∀ s ∈ Icc a b, Icc (l s) (u s) ⊆ closedBall (0 : Fin n → ℝ) ρ := by
    obtain ⟨r₁, h₁⟩ := (isCompact_Icc (a := a) (b := b)).exists_bound_of_continuousOn hl.continuousOn
    obtain ⟨r₂, h₂⟩ := (isCompact_Icc (a := a) (b := b)).exists_bound_of_continuousOn hu.continuousOn
    refine ⟨max r₁ r₂, fun s hs y hy => ?_⟩
    rw [mem_closedBall_zero_iff]
    have h0 : 0 ≤ max r₁ r₂ := ((norm_nonneg _).trans (h₁ s hs)).trans (le_max_left _ _)
    refine (pi_norm_le_iff_of_nonneg h0).2 fun i => ?_
    have e1 := (norm_le_pi_norm (l s) i).trans (h₁ s hs)
    have e2 := (norm_le_pi_norm (u s) i).trans (h₂ s hs)
    rw [Real.norm_eq_abs, abs_le] at *
    exact ⟨by linarith [hy.1 i, le_max_left r₁ r₂], by linarith [hy.2 i, le_max_right r₁ r₂]⟩
  obtain ⟨K, hK⟩ := hf.lip a b ρ
  have hvc : Continuous (fun p : ℝ × (Fin n → ℝ) => f p.1 (clamp (l p.1) (u p.1) p.2)) :=
    hf.cont.comp (continuous_fst.prodMk hcc)
  have hnc : Continuous (fun p : ℝ × (Fin n → ℝ) => ‖f p.1 p.2‖₊) := hf.cont.nnnorm
  obtain ⟨L, hL⟩ := ((isCompact_Icc (a := a) (b := b)).prod
    (isCompact_closedBall (0 : Fin n → ℝ) ρ)).bddAbove_image hnc.continuousOn
  set v : ℝ → (Fin n → ℝ) → Fin n → ℝ := fun s x => f s (clamp (l s) (u s) x) with hv
  have hpl : IsPicardLindelof v (⟨a, left_mem_Icc.2 hab⟩ : Icc a b) x₀
      (L * ⟨b - a, sub_nonneg.2 hab⟩) 0 L K := by
    refine ⟨fun s hs => ?_, fun x _ => ?_, fun s hs x _ => ?_, ?_⟩
    · have h1 := (hK s hs).mono (hρ s hs)
      have h2 : LipschitzOnWith (K * 1) (v s) univ :=
        h1.comp (clamp_lipschitz (l s) (u s)).lipschitzOnWith (fun x _ => clamp_mem (hlu s) x)
      rw [mul_one] at h2
      exact h2.mono (subset_univ _)
    · exact (hvc.comp (continuous_id.prodMk continuous_const)).continuousOn
    · have : ‖f s (clamp (l s) (u s) x)‖₊ ≤ L :=
        hL ⟨(s, clamp (l s) (u s) x), ⟨hs, hρ s hs (clamp_mem (hlu s) x)⟩, rfl⟩
      exact_mod_cast this
    · simp only [sub_self, NNReal.coe_mul, NNReal.coe_zero, sub_zero]
      rw [max_eq_left (sub_nonneg.2 hab)]
      exact le_rfl
  obtain ⟨x, hx0, hx⟩ := hpl.exists_eq_forall_mem_Icc_hasDerivWithinAt₀
  have hx0' : x a = x₀ := hx0
  have hmem := htube x (fun s => clamp (l s) (u s) (x s)) hx0' (fun s _ => clamp_mem (hlu s) _) hx
  refine ⟨x, hx0', fun s hs => ?_, hmem⟩
  have := hx s hs
  simp only [hv, clamp_of_mem (hmem s hs)] at this
  exact this

/-- Two solutions with the same initial point agree. -/
theorem IsSolution.unique {f : ℝ → (Fin n → ℝ) → Fin n → ℝ} (hf : Regular f) {a b : ℝ}
    {x y : ℝ → Fin n → ℝ} (hx : IsSolution f a b x) (hy : IsSolution f a b y) (h0 : x a = y a) :
    EqOn x y (Icc a b) := by
  obtain ⟨ρ, hρ⟩ := ((isCompact_Icc.image_of_continuousOn hx.continuousOn).union
    (isCompact_Icc.image_of_continuousOn hy.continuousOn)).isBounded.subset_closedBall (0 : Fin n → ℝ)
  obtain ⟨K, hK⟩ := hf.lip a b ρ
  have hd : ∀ {z : ℝ → Fin n → ℝ}, IsSolution f a b z → ∀ s ∈ Ico a b,
      HasDerivWithinAt z (f s (z s)) (Ici s) s := by
    intro z hz s hs
    exact (hz s ⟨hs.1, hs.2.le⟩).mono_of_mem_nhdsWithin
      (Filter.mem_of_superset (Icc_mem_nhdsGE hs.2) (Icc_subset_Icc_left hs.1))
  exact ODE_solution_unique_of_mem_Icc_right (s := fun _ => closedBall 0 ρ)
    (fun s hs => hK s ⟨hs.1, hs.2.le⟩) hx.continuousOn (hd hx)
    (fun s hs => hρ (Or.inl ⟨s, ⟨hs.1, hs.2.le⟩, rfl⟩)) hy.continuousOn (hd hy)
    (fun s hs => hρ (Or.inr ⟨s, ⟨hs.1, hs.2.le⟩, rfl⟩)) h0

end Verif.Flow
