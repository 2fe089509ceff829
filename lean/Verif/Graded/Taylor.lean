import Mathlib.Analysis.Calculus.IteratedDeriv.Lemmas
import Mathlib.Analysis.SpecialFunctions.ExpDeriv
import Mathlib.Analysis.SpecialFunctions.Log.Deriv
import Mathlib.Analysis.SpecialFunctions.Sqrt
import Mathlib.Analysis.SpecialFunctions.Trigonometric.Deriv
import Mathlib.Analysis.Calculus.ContDiff.Operations
import Mathlib.Analysis.Calculus.Deriv.ZPow
import Mathlib.Algebra.BigOperators.Field

/-!
# Taylor coefficients

Mathematics used by the theorems on graded series: the Taylor coefficients at `0` of sums, products,
derivatives and compositions with elementary functions.  Nothing here models code.
-/

namespace Verif.Graded

open Filter Topology

/-- The `k`-th Taylor coefficient at `0` of a function of time. -/
noncomputable def tc (g : ℝ → ℝ) (k : ℕ) : ℝ := iteratedDeriv k g 0 / (k.factorial : ℝ)

variable {g h : ℝ → ℝ} {n k : ℕ}

theorem tc_zero (g : ℝ → ℝ) : tc g 0 = g 0 := by simp [tc]

theorem tc_congr (e : g =ᶠ[𝓝 0] h) (k : ℕ) : tc g k = tc h k := by
  rw [tc, tc, e.iteratedDeriv_eq]

theorem fact_ne (k : ℕ) : (k.factorial : ℝ) ≠ 0 := by exact_mod_cast k.factorial_ne_zero

theorem lift {m n : ℕ} (hg : ContDiffAt ℝ (n : ℕ) g 0) (hm : m ≤ n) : ContDiffAt ℝ (m : ℕ) g 0 :=
  hg.of_le (by exact_mod_cast hm)

theorem tc_add (hg : ContDiffAt ℝ n g 0) (hh : ContDiffAt ℝ n h 0) (hk : k ≤ n) :
    tc (fun t => g t + h t) k = tc g k + tc h k := by
  have := iteratedDeriv_add (lift hg hk) (lift hh hk)
  rw [tc, tc, tc, ← add_div, ← this]; rfl

theorem tc_sub (hg : ContDiffAt ℝ n g 0) (hh : ContDiffAt ℝ n h 0) (hk : k ≤ n) :
    tc (fun t => g t - h t) k = tc g k - tc h k := by
  have := iteratedDeriv_sub (lift hg hk) (lift hh hk)
  rw [tc, tc, tc, ← sub_div, ← this]; rfl

theorem tc_neg (g : ℝ → ℝ) (k : ℕ) : tc (fun t => -g t) k = -tc g k := by
  have := iteratedDeriv_neg k g 0
  rw [tc, tc, ← neg_div, ← this]; rfl

theorem tc_half (g : ℝ → ℝ) (k : ℕ) : tc (fun t => g t / 2) k = tc g k / 2 := by
  rw [tc, tc, iteratedDeriv_div_const]; ring

theorem tc_const (c : ℝ) (k : ℕ) : tc (fun _ => c) k = if k = 0 then c else 0 := by
  rw [tc, iteratedDeriv_const]
  split_ifs with h <;> simp [h]

theorem tc_mul (hg : ContDiffAt ℝ n g 0) (hh : ContDiffAt ℝ n h 0) (hk : k ≤ n) :
    tc (fun t => g t * h t) k = ∑ i ∈ Finset.range (k + 1), tc g i * tc h (k - i) := by
  have := iteratedDeriv_mul (lift hg hk) (lift hh hk)
  have e : (fun t => g t * h t) = g * h := rfl
  rw [tc, e, this, Finset.sum_div]
  refine Finset.sum_congr rfl fun i hi => ?_
  have hi' : i ≤ k := by simpa [Nat.lt_succ_iff] using hi
  rw [tc, tc, Nat.cast_choose ℝ hi']
  have h1 := fact_ne k; have h2 := fact_ne i; have h3 := fact_ne (k - i)
  field_simp

theorem tc_deriv (g : ℝ → ℝ) (k : ℕ) : tc (deriv g) k = (k + 1 : ℕ) * tc g (k + 1) := by
  rw [tc, tc, iteratedDeriv_succ', Nat.factorial_succ]
  have := fact_ne k
  have h2 : ((k : ℝ) + 1) ≠ 0 := by positivity
  push_cast
  field_simp

theorem contDiffAt_deriv (hg : ContDiffAt ℝ (n + 1 : ℕ) g 0) : ContDiffAt ℝ n (deriv g) 0 := by
  have h1 : ContDiffAt ℝ n (fderiv ℝ g) 0 := hg.fderiv_right (by norm_cast)
  have : deriv g = fun t => fderiv ℝ g t 1 := by ext t; simp
  rw [this]
  exact h1.clm_apply contDiffAt_const

/-- The derivative of a function differentiable near `0` determines its smoothness. -/
theorem contDiffAt_of_hasDerivAt (h1 : ∀ᶠ t in 𝓝 0, HasDerivAt g (h t) t) (hh : ContDiffAt ℝ n h 0) :
    ContDiffAt ℝ (n + 1 : ℕ) g 0 := by
  have : ((n + 1 : ℕ) : WithTop ℕ∞) = (n : WithTop ℕ∞) + 1 := by norm_cast
  rw [this]
  refine contDiffAt_succ_iff_hasFDerivAt.2
    ⟨fun t => ContinuousLinearMap.toSpanSingleton ℝ (h t), ⟨_, h1, fun t ht => ?_⟩, ?_⟩
  · exact ht.hasFDerivAt
  · exact (ContinuousLinearMap.toSpanSingletonCLE (𝕜 := ℝ) (E := ℝ)).contDiff.contDiffAt.comp _ hh

theorem tc_of_hasDerivAt (h1 : ∀ᶠ t in 𝓝 0, HasDerivAt g (h t) t) (k : ℕ) :
    tc g (k + 1) = tc h k / (k + 1 : ℕ) := by
  have h2 : (deriv g) =ᶠ[𝓝 0] h := h1.mono fun t ht => ht.deriv
  rw [← tc_congr h2 k, tc_deriv]
  have : ((k + 1 : ℕ) : ℝ) ≠ 0 := by positivity
  field_simp

theorem ev_ne (hg : ContinuousAt g 0) (h0 : g 0 ≠ 0) : ∀ᶠ t in 𝓝 0, g t ≠ 0 := hg.eventually_ne h0

theorem ev_pos (hg : ContinuousAt g 0) (h0 : 0 < g 0) : ∀ᶠ t in 𝓝 0, 0 < g t :=
  hg.eventually_const_lt h0

/-- A product with one factor's highest coefficient isolated. -/
theorem tc_mul_last (hg : ContDiffAt ℝ n g 0) (hh : ContDiffAt ℝ n h 0) (hk : k ≤ n) :
    tc (fun t => g t * h t) k = (∑ i ∈ Finset.range k, tc g i * tc h (k - i)) + tc g k * tc h 0 := by
  rw [tc_mul hg hh hk, Finset.sum_range_succ, Nat.sub_self]

theorem tc_div (hg : ContDiffAt ℝ n g 0) (hh : ContDiffAt ℝ n h 0) (h0 : h 0 ≠ 0) (hk : k ≤ n) :
    tc (fun t => g t / h t) k =
      (tc g k - ∑ i ∈ Finset.range k, tc h (k - i) * tc (fun t => g t / h t) i) / tc h 0 := by
  have hq : ContDiffAt ℝ n (fun t => g t / h t) 0 := hg.div hh h0
  have e : (fun t => g t / h t * h t) =ᶠ[𝓝 0] g :=
    (ev_ne hh.continuousAt h0).mono fun t ht => by field_simp
  have := tc_mul_last hq hh hk
  rw [tc_congr e] at this
  rw [tc_zero h] at *
  rw [eq_div_iff h0, this]
  simp only [mul_comm (tc h _)]
  ring

theorem tc_inv (hh : ContDiffAt ℝ n h 0) (h0 : h 0 ≠ 0) (hk : k + 1 ≤ n) :
    tc (fun t => (h t)⁻¹) (k + 1) =
      (0 - ∑ i ∈ Finset.range (k + 1), tc h (k + 1 - i) * tc (fun t => (h t)⁻¹) i) *
        tc (fun t => (h t)⁻¹) 0 := by
  have := tc_div (g := fun _ => 1) contDiffAt_const hh h0 hk
  simp only [one_div] at this
  rw [this, tc_const, tc_zero, tc_zero, if_neg (by omega), div_eq_mul_inv]

theorem tc_sqrt (hg : ContDiffAt ℝ n g 0) (h0 : 0 < g 0) (hk : k + 1 ≤ n) :
    tc (fun t => Real.sqrt (g t)) (k + 1) =
      (tc g (k + 1) - ∑ i ∈ Finset.range k,
        tc (fun t => Real.sqrt (g t)) (k + 1 - (i + 1)) * tc (fun t => Real.sqrt (g t)) (i + 1)) /
        (2 * tc (fun t => Real.sqrt (g t)) 0) := by
  have hq : ContDiffAt ℝ n (fun t => Real.sqrt (g t)) 0 := hg.sqrt h0.ne'
  have e : (fun t => Real.sqrt (g t) * Real.sqrt (g t)) =ᶠ[𝓝 0] g :=
    (ev_pos hg.continuousAt h0).mono fun t ht => Real.mul_self_sqrt ht.le
  have := tc_mul_last hq hq hk
  rw [tc_congr e, Finset.sum_range_succ'] at this
  have hs : tc (fun t => Real.sqrt (g t)) 0 ≠ 0 := by
    rw [tc_zero]; exact (Real.sqrt_pos.2 h0).ne'
  rw [eq_div_iff (by positivity), this]
  simp only [Nat.sub_zero]
  have : ∀ i, tc (fun t => Real.sqrt (g t)) (k + 1 - (i + 1)) * tc (fun t => Real.sqrt (g t)) (i + 1)
      = tc (fun t => Real.sqrt (g t)) (i + 1) * tc (fun t => Real.sqrt (g t)) (k + 1 - (i + 1)) :=
    fun i => mul_comm _ _
  simp only [this]
  ring

/-- The coefficients of a product with a derivative. -/
theorem tc_mul_deriv (hg : ContDiffAt ℝ (k + 1 : ℕ) g 0) (hh : ContDiffAt ℝ (k + 1 : ℕ) h 0) :
    tc (fun t => h t * deriv g t) k =
      ∑ i ∈ Finset.range (k + 1), ((k + 1 - i : ℕ) : ℝ) * tc g (k + 1 - i) * tc h i := by
  rw [tc_mul (lift hh (Nat.le_succ k)) (contDiffAt_deriv hg) le_rfl]
  refine Finset.sum_congr rfl fun i hi => ?_
  have hi' : i ≤ k := by simpa [Nat.lt_succ_iff] using hi
  rw [tc_deriv, show k - i + 1 = k + 1 - i by omega]
  ring

/-- If `f' = h g'` near `0` then the coefficients of `f` are given by those of `g` and `h`. -/
theorem tc_chain {f : ℝ → ℝ} (hg : ContDiffAt ℝ (k + 1 : ℕ) g 0) (hh : ContDiffAt ℝ (k + 1 : ℕ) h 0)
    (hf : ∀ᶠ t in 𝓝 0, HasDerivAt f (h t * deriv g t) t) :
    tc f (k + 1) = (∑ i ∈ Finset.range (k + 1), ((k + 1 - i : ℕ) : ℝ) * tc g (k + 1 - i) * tc h i) /
      (k + 1 : ℕ) := by
  rw [tc_of_hasDerivAt hf, tc_mul_deriv hg hh]

theorem ev_hasDerivAt (hg : ContDiffAt ℝ (k + 1 : ℕ) g 0) : ∀ᶠ t in 𝓝 0, HasDerivAt g (deriv g t) t := by
  have h1 : ContDiffAt ℝ 1 g 0 := hg.of_le (by exact_mod_cast Nat.le_add_left 1 k)
  exact (h1.eventually (by simp)).mono fun t ht => (ht.differentiableAt (by simp)).hasDerivAt

theorem tc_exp (hg : ContDiffAt ℝ (k + 1 : ℕ) g 0) :
    tc (fun t => Real.exp (g t)) (k + 1) =
      (∑ i ∈ Finset.range (k + 1), ((k + 1 - i : ℕ) : ℝ) * tc g (k + 1 - i) *
        tc (fun t => Real.exp (g t)) i) / (k + 1 : ℕ) :=
  tc_chain hg hg.exp ((ev_hasDerivAt hg).mono fun _ ht => ht.exp)

theorem tc_sin (hg : ContDiffAt ℝ (k + 1 : ℕ) g 0) :
    tc (fun t => Real.sin (g t)) (k + 1) =
      (∑ i ∈ Finset.range (k + 1), ((k + 1 - i : ℕ) : ℝ) * tc g (k + 1 - i) *
        tc (fun t => Real.cos (g t)) i) / (k + 1 : ℕ) :=
  tc_chain hg hg.cos ((ev_hasDerivAt hg).mono fun _ ht => ht.sin)

theorem tc_cos (hg : ContDiffAt ℝ (k + 1 : ℕ) g 0) :
    tc (fun t => Real.cos (g t)) (k + 1) =
      (∑ i ∈ Finset.range (k + 1), ((k + 1 - i : ℕ) : ℝ) * tc g (k + 1 - i) *
        tc (fun t => Real.sin (g t)) i) / (-(k + 1 : ℕ)) := by
  have := tc_chain (f := fun t => Real.cos (g t)) (h := fun t => -Real.sin (g t)) hg hg.sin.neg
    ((ev_hasDerivAt hg).mono fun _ ht => ht.cos)
  rw [this, div_neg, ← neg_div, ← Finset.sum_neg_distrib]
  simp only [tc_neg, mul_neg]

theorem tc_log (hg : ContDiffAt ℝ (k + 1 : ℕ) g 0) (h0 : g 0 ≠ 0) :
    tc (fun t => Real.log (g t)) (k + 1) =
      ((k + 1 : ℕ) * tc g (k + 1) - ∑ i ∈ Finset.range k,
        tc g (k + 1 - (i + 1)) * tc (fun t => Real.log (g t)) (i + 1) * (i + 1 : ℕ)) /
        tc g 0 / (k + 1 : ℕ) := by
  have hl : ContDiffAt ℝ (k + 1 : ℕ) (fun t => Real.log (g t)) 0 := hg.log h0
  have e : (fun t => g t * deriv (fun t => Real.log (g t)) t) =ᶠ[𝓝 0] deriv g := by
    filter_upwards [ev_hasDerivAt hg, ev_ne hg.continuousAt h0] with t h1 h2
    rw [(h1.log h2).deriv]; field_simp
  have := tc_mul_deriv hl hg
  rw [tc_congr e, tc_deriv] at this
  rw [Finset.sum_range_succ'] at this
  simp only [Nat.sub_zero] at this
  have hk : ((k + 1 : ℕ) : ℝ) ≠ 0 := by positivity
  rw [tc_zero] at *
  rw [eq_div_iff hk, eq_div_iff h0, this]
  have hs : ∑ i ∈ Finset.range k,
        tc g (k + 1 - (i + 1)) * tc (fun t => Real.log (g t)) (i + 1) * ((i + 1 : ℕ) : ℝ) =
      ∑ i ∈ Finset.range k, ((k + 1 - (i + 1) : ℕ) : ℝ) * tc (fun t => Real.log (g t)) (k + 1 - (i + 1))
        * tc g (i + 1) := by
    rw [← Finset.sum_range_reflect]
    refine Finset.sum_congr rfl fun i hi => ?_
    have hi' : i < k := by simpa using hi
    rw [show k - 1 - i + 1 = k - i by omega, show k + 1 - (k - i) = i + 1 by omega,
      show k + 1 - (i + 1) = k - i by omega]
    ring
  rw [hs]
  ring

theorem contDiffAt_zpow (m : ℤ) (hg : ContDiffAt ℝ n g 0) (h0 : g 0 ≠ 0) :
    ContDiffAt ℝ n (fun t => g t ^ m) 0 := by
  cases m with
  | ofNat m => simpa using hg.pow m
  | negSucc m =>
    have := (hg.pow (m + 1)).inv (pow_ne_zero _ h0)
    simp only [zpow_negSucc]
    exact this

theorem tc_zpow (m : ℤ) (hg : ContDiffAt ℝ (k + 1 : ℕ) g 0) (h0 : g 0 ≠ 0) :
    tc (fun t => g t ^ m) (k + 1) =
      (∑ i ∈ Finset.range (k + 1), ((((k + 1 - i : ℕ) : ℤ) * m - i : ℤ) : ℝ) * tc g (k + 1 - i) *
        tc (fun t => g t ^ m) i) / (k + 1 : ℕ) / tc g 0 := by
  have hq := contDiffAt_zpow m hg h0
  have e : (fun t => g t * deriv (fun t => g t ^ m) t) =ᶠ[𝓝 0]
      fun t => (m : ℝ) * (g t ^ m * deriv g t) := by
    filter_upwards [ev_hasDerivAt hg, ev_ne hg.continuousAt h0] with t h1 h2
    have hd : HasDerivAt (fun t => g t ^ m) (m * g t ^ (m - 1) * deriv g t) t :=
      (hasDerivAt_zpow m (g t) (Or.inl h2)).comp t h1
    rw [hd.deriv]
    have : g t ^ m = g t * g t ^ (m - 1) := by
      rw [← zpow_one_add₀ h2]; congr 1; ring
    rw [this]; ring
  have h1 := tc_mul_deriv hq hg
  have hc : tc (fun t => (m : ℝ) * (g t ^ m * deriv g t)) k =
      (m : ℝ) * tc (fun t => g t ^ m * deriv g t) k := by
    rw [tc, tc, iteratedDeriv_const_mul_field]; ring
  rw [tc_congr e, hc, tc_mul_deriv hg hq] at h1
  have hk : ((k + 1 : ℕ) : ℝ) ≠ 0 := by positivity
  rw [tc_zero g] at *
  rw [eq_div_iff h0, eq_div_iff hk]
  have h2 := h1
  rw [Finset.sum_range_succ' (fun i => ((k + 1 - i : ℕ) : ℝ) * tc (fun t => g t ^ m) (k + 1 - i) * tc g i)]
    at h2
  simp only [Nat.sub_zero, tc_zero g] at h2
  have hs : ∑ i ∈ Finset.range k,
        ((k + 1 - (i + 1) : ℕ) : ℝ) * tc (fun t => g t ^ m) (k + 1 - (i + 1)) * tc g (i + 1) =
      ∑ i ∈ Finset.range (k + 1), (i : ℝ) * tc g (k + 1 - i) * tc (fun t => g t ^ m) i := by
    rw [Finset.sum_range_succ']
    simp only [Nat.cast_zero, zero_mul, add_zero]
    rw [← Finset.sum_range_reflect]
    refine Finset.sum_congr rfl fun i hi => ?_
    have hi' : i < k := by simpa using hi
    rw [show k - 1 - i + 1 = k - i by omega, show k + 1 - (k - i) = i + 1 by omega,
      show k + 1 - (i + 1) = k - i by omega]
    ring
  rw [hs, Finset.mul_sum] at h2
  have h3 : tc (fun t => g t ^ m) (k + 1) * g 0 * ((k + 1 : ℕ) : ℝ) =
      (∑ i ∈ Finset.range (k + 1),
        (m : ℝ) * (((k + 1 - i : ℕ) : ℝ) * tc g (k + 1 - i) * tc (fun t => g t ^ m) i)) -
      ∑ i ∈ Finset.range (k + 1), (i : ℝ) * tc g (k + 1 - i) * tc (fun t => g t ^ m) i := by
    rw [h2]; ring
  rw [h3, ← Finset.sum_sub_distrib]
  refine Finset.sum_congr rfl fun i _ => ?_
  push_cast
  ring

end Verif.Graded
