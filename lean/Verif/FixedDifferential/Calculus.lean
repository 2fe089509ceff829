import Mathlib.Analysis.Calculus.ContDiff.Operations
import Mathlib.Analysis.Calculus.FDeriv.Mul
import Mathlib.Analysis.Calculus.Deriv.Comp

/-!
# Derivatives in directions

Mathematics used by the theorems on first and second differentials: first and second derivatives of
sums, products and compositions in given directions.  Nothing here models code.
-/

namespace Verif.FixedDifferential

open Filter Topology

variable {E : Type*} [NormedAddCommGroup E] [NormedSpace ℝ E]

/-- spec: the derivative of `g` at `p` in direction `e`; a partial derivative if `e` is a coordinate
vector, and the derivative if `g` depends on one variable and `e=1`. -/
noncomputable def dd (e : E) (g : E → ℝ) (p : E) : ℝ := fderiv ℝ g p e

variable {g h : E → ℝ} {p e e' : E}

theorem dd_const (c : ℝ) : dd e (fun _ => c) p = 0 := by simp [dd]

theorem dd_congr (H : g =ᶠ[𝓝 p] h) : dd e g p = dd e h p := by rw [dd, dd, H.fderiv_eq]

theorem dd_neg : dd e (fun q => -g q) p = -dd e g p := by
  have : (fun q => -g q) = -g := rfl
  rw [dd, dd, this, fderiv_neg]; rfl

theorem dd_add (hg : DifferentiableAt ℝ g p) (hh : DifferentiableAt ℝ h p) :
    dd e (fun q => g q + h q) p = dd e g p + dd e h p := by
  rw [dd, dd, dd, fderiv_fun_add hg hh]; rfl

theorem dd_sub (hg : DifferentiableAt ℝ g p) (hh : DifferentiableAt ℝ h p) :
    dd e (fun q => g q - h q) p = dd e g p - dd e h p := by
  rw [dd, dd, dd, fderiv_fun_sub hg hh]; rfl

theorem dd_mul (hg : DifferentiableAt ℝ g p) (hh : DifferentiableAt ℝ h p) :
    dd e (fun q => g q * h q) p = dd e g p * h p + g p * dd e h p := by
  rw [dd, dd, dd, fderiv_fun_mul hg hh]
  simp only [_root_.add_apply, _root_.smul_apply, smul_eq_mul]
  ring

theorem dd_comp {F : ℝ → ℝ} {c : ℝ} (hF : HasDerivAt F c (g p)) (hg : DifferentiableAt ℝ g p) :
    dd e (fun q => F (g q)) p = c * dd e g p := by
  have := (hF.comp_hasFDerivAt p hg.hasFDerivAt).fderiv
  have e1 : (F ∘ g) = fun q => F (g q) := rfl
  rw [dd, dd, ← e1, this]; rfl

theorem differentiableAt_dd (hg : ContDiffAt ℝ 2 g p) : DifferentiableAt ℝ (dd e g) p := by
  have h1 : ContDiffAt ℝ 1 (fderiv ℝ g) p := hg.fderiv_right (by norm_num)
  have h2 : ContDiffAt ℝ 1 (fun q => fderiv ℝ g q e) p := h1.clm_apply contDiffAt_const
  exact h2.differentiableAt (by norm_num)

theorem ev_differentiable (hg : ContDiffAt ℝ 2 g p) : ∀ᶠ q in 𝓝 p, DifferentiableAt ℝ g q :=
  (hg.eventually (by norm_num)).mono fun _ h => h.differentiableAt (by norm_num)

theorem diff2 (hg : ContDiffAt ℝ 2 g p) : DifferentiableAt ℝ g p := hg.differentiableAt (by norm_num)

theorem dd2_congr (H : g =ᶠ[𝓝 p] h) : dd e (dd e' g) p = dd e (dd e' h) p :=
  dd_congr ((eventually_eventually_nhds.2 H).mono fun _ hq => dd_congr hq)

theorem dd2_const (c : ℝ) : dd e (dd e' fun _ => c) p = 0 := by
  have : dd e' (fun _ : E => c) = fun _ => 0 := funext fun _ => dd_const c
  rw [this, dd_const]

theorem dd2_neg : dd e (dd e' fun q => -g q) p = -dd e (dd e' g) p := by
  have : dd e' (fun q => -g q) = fun q => -dd e' g q := funext fun q => dd_neg
  rw [this, dd_neg]

theorem dd2_add (hg : ContDiffAt ℝ 2 g p) (hh : ContDiffAt ℝ 2 h p) :
    dd e (dd e' fun q => g q + h q) p = dd e (dd e' g) p + dd e (dd e' h) p := by
  have : dd e' (fun q => g q + h q) =ᶠ[𝓝 p] fun q => dd e' g q + dd e' h q :=
    ((ev_differentiable hg).and (ev_differentiable hh)).mono fun q hq => dd_add hq.1 hq.2
  rw [dd_congr this, dd_add (differentiableAt_dd hg) (differentiableAt_dd hh)]

theorem dd2_sub (hg : ContDiffAt ℝ 2 g p) (hh : ContDiffAt ℝ 2 h p) :
    dd e (dd e' fun q => g q - h q) p = dd e (dd e' g) p - dd e (dd e' h) p := by
  have : dd e' (fun q => g q - h q) =ᶠ[𝓝 p] fun q => dd e' g q - dd e' h q :=
    ((ev_differentiable hg).and (ev_differentiable hh)).mono fun q hq => dd_sub hq.1 hq.2
  rw [dd_congr this, dd_sub (differentiableAt_dd hg) (differentiableAt_dd hh)]

theorem dd2_mul (hg : ContDiffAt ℝ 2 g p) (hh : ContDiffAt ℝ 2 h p) :
    dd e (dd e' fun q => g q * h q) p =
      dd e (dd e' g) p * h p + g p * dd e (dd e' h) p + (dd e g p * dd e' h p + dd e' g p * dd e h p) := by
  have : dd e' (fun q => g q * h q) =ᶠ[𝓝 p] fun q => dd e' g q * h q + g q * dd e' h q :=
    ((ev_differentiable hg).and (ev_differentiable hh)).mono fun q hq => dd_mul hq.1 hq.2
  have a1 := differentiableAt_dd (e := e') hg
  have a2 := differentiableAt_dd (e := e') hh
  have b1 := diff2 hg
  have b2 := diff2 hh
  rw [dd_congr this, dd_add (a1.fun_mul b2) (b1.fun_mul a2), dd_mul a1 b2, dd_mul b1 a2]
  ring

theorem dd2_comp {F F' : ℝ → ℝ} {c : ℝ} (hF : ∀ᶠ y in 𝓝 (g p), HasDerivAt F (F' y) y)
    (hF' : HasDerivAt F' c (g p)) (hg : ContDiffAt ℝ 2 g p) :
    dd e (dd e' fun q => F (g q)) p =
      F' (g p) * dd e (dd e' g) p + c * (dd e g p * dd e' g p) := by
  have hc : ∀ᶠ q in 𝓝 p, HasDerivAt F (F' (g q)) (g q) := hg.continuousAt.eventually hF
  have : dd e' (fun q => F (g q)) =ᶠ[𝓝 p] fun q => F' (g q) * dd e' g q :=
    (hc.and (ev_differentiable hg)).mono fun q hq => dd_comp hq.1 hq.2
  have a1 := differentiableAt_dd (e := e') hg
  have b1 : DifferentiableAt ℝ (fun q => F' (g q)) p :=
    (hF'.comp_hasFDerivAt p (diff2 hg).hasFDerivAt).differentiableAt
  rw [dd_congr this, dd_mul b1 a1, dd_comp hF' (diff2 hg)]
  ring

end Verif.FixedDifferential
