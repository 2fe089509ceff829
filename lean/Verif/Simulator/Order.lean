import Verif.Simulator.Model
import Mathlib.Analysis.Calculus.MeanValue
import Mathlib.Analysis.SpecialFunctions.Exp
import Mathlib.Analysis.Complex.Exponential
import Mathlib.Logic.Function.Iterate
import Mathlib.Tactic.Linarith
import Mathlib.Tactic.Ring
import Mathlib.Tactic.FieldSimp
import Mathlib.Tactic.Positivity
import Mathlib.Tactic.Module

/-!
# Accuracy of the Runge-Kutta integrator

The weights of `RungeKutta4Integrator::step` add up to one, so the method converges to the solution with
first order, but they belong to the wrong stages, so that even the second order is lost.
-/

namespace Verif.Simulator

/-- A step in a constant field is exact. -/
theorem C100_step_constant {K V : Type*} [Field K] [CharZero K] [AddCommGroup V] [Module K V] (c x : V) (h : K) :
    step (fun _ => c) h x = x + h • c := by
  simp only [step]
  module

variable {V : Type*} [NormedAddCommGroup V] [NormedSpace ℝ V]

theorem norm_step_sub {f : V → V} {L M : ℝ} (hL : ∀ x y, ‖f x - f y‖ ≤ L * ‖x - y‖) (hL0 : 0 ≤ L)
    {h : ℝ} (hh : 0 ≤ h) (hhL : h * L ≤ 1) (x : V) (hM : ‖f x‖ ≤ M) :
    ‖step f h x - (x + h • f x)‖ ≤ L * M * h ^ 2 := by
  have hM0 : 0 ≤ M := (norm_nonneg _).trans hM
  set k1 := f x with hk1
  set k2 := f (x + (h / 2) • k1) with hk2
  set k3 := f (x + (h / 2) • k2) with hk3
  set k4 := f (x + h • k3) with hk4
  have hs : step f h x = x + (h / 6) • (k1 + (2 : ℝ) • k3 + (2 : ℝ) • k4 + k2) := rfl
  have hb : ∀ (c b : ℝ) (k : V), 0 ≤ c → ‖k‖ ≤ b * M → ‖f (x + c • k) - k1‖ ≤ c * L * b * M := by
    intro c b k hc hk
    refine (hL _ _).trans ?_
    rw [add_sub_cancel_left, norm_smul, Real.norm_of_nonneg hc]
    have := mul_le_mul_of_nonneg_left hk (mul_nonneg hL0 hc)
    linarith
  have up : ∀ (b c : ℝ) (k : V), ‖k - k1‖ ≤ b * M → 1 + b ≤ c → ‖k‖ ≤ c * M := by
    intro b c k hk hc
    have h1 : ‖k‖ ≤ ‖k - k1‖ + ‖k1‖ := by simpa using norm_add_le (k - k1) k1
    have h2 := mul_le_mul_of_nonneg_right hc hM0
    linarith
  have h2 := hb (h / 2) 1 k1 (by linarith) (by simpa using hM)
  rw [← hk2] at h2
  have h3 := hb (h / 2) (3 / 2) k2 (by linarith) (up _ _ k2 h2 (by linarith))
  rw [← hk3] at h3
  have h4 := hb h (7 / 4) k3 hh (up _ _ k3 h3 (by linarith))
  rw [← hk4] at h4
  have he : step f h x - (x + h • k1) =
      (h / 6) • ((2 : ℝ) • (k3 - k1) + (2 : ℝ) • (k4 - k1) + (k2 - k1)) := by
    rw [hs]
    module
  rw [he, norm_smul, Real.norm_of_nonneg (by linarith : (0 : ℝ) ≤ h / 6)]
  have hsum : ‖(2 : ℝ) • (k3 - k1) + (2 : ℝ) • (k4 - k1) + (k2 - k1)‖ ≤ 6 * (h * L * M) := by
    refine (norm_add_le _ _).trans ?_
    refine (add_le_add_left (norm_add_le _ _) _).trans ?_
    rw [norm_smul, norm_smul, Real.norm_of_nonneg (by norm_num : (0 : ℝ) ≤ 2)]
    have h5 : 0 ≤ h * L * M := by positivity
    linarith
  have := mul_le_mul_of_nonneg_left hsum (by linarith : (0 : ℝ) ≤ h / 6)
  calc _ ≤ h / 6 * (6 * (h * L * M)) := this
    _ = L * M * h ^ 2 := by ring

theorem norm_step_step {f : V → V} {L : ℝ} (hL : ∀ x y, ‖f x - f y‖ ≤ L * ‖x - y‖) (hL0 : 0 ≤ L)
    {h : ℝ} (hh : 0 ≤ h) (hhL : h * L ≤ 1) (x y : V) :
    ‖step f h x - step f h y‖ ≤ (1 + 2 * h * L) * ‖x - y‖ := by
  set d := ‖x - y‖ with hd
  have hd0 : 0 ≤ d := norm_nonneg _
  have hb : ∀ (c a : ℝ) (k k' : V), 0 ≤ c → ‖k - k'‖ ≤ a * (L * d) →
      ‖f (x + c • k) - f (y + c • k')‖ ≤ (1 + c * L * a) * (L * d) := by
    intro c a k k' hc hk
    refine (hL _ _).trans ?_
    have : x + c • k - (y + c • k') = (x - y) + c • (k - k') := by module
    rw [this]
    have h1 : ‖(x - y) + c • (k - k')‖ ≤ d + c * (a * (L * d)) := by
      refine (norm_add_le _ _).trans ?_
      rw [norm_smul, Real.norm_of_nonneg hc]
      exact add_le_add_right (mul_le_mul_of_nonneg_left hk hc) _
    have := mul_le_mul_of_nonneg_left h1 hL0
    linarith
  have hLd : 0 ≤ L * d := by positivity
  have up : ∀ {a b : ℝ}, a ≤ b → a * (L * d) ≤ b * (L * d) := fun h => mul_le_mul_of_nonneg_right h hLd
  have h1 : ‖f x - f y‖ ≤ 1 * (L * d) := by simpa using hL x y
  have h2 := (hb (h / 2) 1 _ _ (by linarith) h1).trans (up (show _ ≤ (3 / 2 : ℝ) by linarith))
  have h3 := (hb (h / 2) (3 / 2) _ _ (by linarith) h2).trans (up (show _ ≤ (7 / 4 : ℝ) by linarith))
  have h4 := (hb h (7 / 4) _ _ hh h3).trans (up (show _ ≤ (11 / 4 : ℝ) by linarith))
  simp only [step]
  set k1 := f x
  set k2 := f (x + (h / 2) • k1)
  set k3 := f (x + (h / 2) • k2)
  set k4 := f (x + h • k3)
  set l1 := f y
  set l2 := f (y + (h / 2) • l1)
  set l3 := f (y + (h / 2) • l2)
  set l4 := f (y + h • l3)
  have he : x + (h / 6) • (k1 + (2 : ℝ) • k3 + (2 : ℝ) • k4 + k2) -
      (y + (h / 6) • (l1 + (2 : ℝ) • l3 + (2 : ℝ) • l4 + l2)) =
      (x - y) + (h / 6) • ((k1 - l1) + (2 : ℝ) • (k3 - l3) + (2 : ℝ) • (k4 - l4) + (k2 - l2)) := by module
  rw [he]
  have hsum : ‖(k1 - l1) + (2 : ℝ) • (k3 - l3) + (2 : ℝ) • (k4 - l4) + (k2 - l2)‖ ≤ 12 * (L * d) := by
    refine (norm_add_le _ _).trans ?_
    refine (add_le_add_left (norm_add_le _ _) _).trans ?_
    refine (add_le_add_left (add_le_add_left (norm_add_le _ _) _) _).trans ?_
    rw [norm_smul, norm_smul, Real.norm_of_nonneg (by norm_num : (0 : ℝ) ≤ 2)]
    linarith
  refine (norm_add_le _ _).trans ?_
  rw [norm_smul, Real.norm_of_nonneg (by linarith : (0 : ℝ) ≤ h / 6), ← hd]
  have := mul_le_mul_of_nonneg_left hsum (by linarith : (0 : ℝ) ≤ h / 6)
  linarith

/-- A solution stays close to the tangent. -/
theorem norm_solution_sub {f : V → V} {L M : ℝ} (hL : ∀ x y, ‖f x - f y‖ ≤ L * ‖x - y‖) (hL0 : 0 ≤ L)
    {φ : ℝ → V} {a h : ℝ} (hh : 0 ≤ h) (hM : ∀ s ∈ Set.Icc a (a + h), ‖f (φ s)‖ ≤ M)
    (hφ : ∀ s ∈ Set.Icc a (a + h), HasDerivWithinAt φ (f (φ s)) (Set.Icc a (a + h)) s) :
    ‖φ (a + h) - (φ a + h • f (φ a))‖ ≤ L * M * h ^ 2 := by
  have hM0 : 0 ≤ M := (norm_nonneg _).trans (hM a ⟨le_rfl, by linarith⟩)
  have hmem : a + h ∈ Set.Icc a (a + h) := ⟨by linarith, le_rfl⟩
  have hclose : ∀ s ∈ Set.Icc a (a + h), ‖φ s - φ a‖ ≤ M * (s - a) := fun s hs =>
    norm_image_sub_le_of_norm_deriv_le_segment' hφ (fun x hx => hM x ⟨hx.1, hx.2.le⟩) s hs
  let g : ℝ → V := fun s => φ s - (s - a) • f (φ a)
  have hg : ∀ s ∈ Set.Icc a (a + h), HasDerivWithinAt g (f (φ s) - f (φ a)) (Set.Icc a (a + h)) s := by
    intro s hs
    have := (hφ s hs).sub ((((hasDerivAt_id s).sub_const a).smul_const (f (φ a))).hasDerivWithinAt
      (s := Set.Icc a (a + h)))
    rw [one_smul] at this
    exact this
  have hb : ∀ s ∈ Set.Ico a (a + h), ‖f (φ s) - f (φ a)‖ ≤ L * (M * h) := by
    intro s hs
    refine (hL _ _).trans (mul_le_mul_of_nonneg_left ?_ hL0)
    refine (hclose s ⟨hs.1, hs.2.le⟩).trans (mul_le_mul_of_nonneg_left ?_ hM0)
    linarith [hs.2]
  have := norm_image_sub_le_of_norm_deriv_le_segment' hg hb (a + h) hmem
  have he : g (a + h) - g a = φ (a + h) - (φ a + h • f (φ a)) := by
    simp only [g]
    rw [add_sub_cancel_left, sub_self, zero_smul]
    abel
  rw [he] at this
  calc _ ≤ L * (M * h) * (a + h - a) := this
    _ = L * M * h ^ 2 := by ring

/-- The points computed with step size `h` converge to the solution: if the field has the
Lipschitz constant `L` and is bounded by `M` along the solution, the distance to the solution after `k` steps is at most
`M*h*((1+2*h*L)^k-1) ≤ M*h*(exp(2*L*k*h)-1)`, plus the accumulated rounding errors.  The documentation
promises the fourth order, which does not hold: see `C100_second_order_fails`. -/
theorem C100_convergence_partial {f : V → V} {L M : ℝ} (hL : ∀ x y, ‖f x - f y‖ ≤ L * ‖x - y‖) (hL0 : 0 ≤ L)
    {h ρ : ℝ} (hh : 0 ≤ h) (hhL : h * L ≤ 1) {φ : ℝ → V} {n : ℕ}
    (hM : ∀ s ∈ Set.Icc 0 ((n : ℝ) * h), ‖f (φ s)‖ ≤ M)
    (hφ : ∀ s ∈ Set.Icc 0 ((n : ℝ) * h), HasDerivWithinAt φ (f (φ s)) (Set.Icc 0 ((n : ℝ) * h)) s)
    {x : ℕ → V} (h0 : x 0 = φ 0) (hx : ∀ k < n, ‖x (k + 1) - step f h (x k)‖ ≤ ρ) :
    ∀ k ≤ n, ‖x k - φ (k * h)‖ ≤
      M * h * ((1 + 2 * h * L) ^ k - 1) + ρ * ∑ i ∈ Finset.range k, (1 + 2 * h * L) ^ i := by
  intro k
  induction k with
  | zero => intro _; simp [h0]
  | succ k ih =>
    intro hk
    have e := ih (by omega)
    have hsub : Set.Icc ((k : ℝ) * h) (k * h + h) ⊆ Set.Icc 0 ((n : ℝ) * h) := by
      intro s hs
      have h1 : (0 : ℝ) ≤ k * h := by positivity
      have h2 : ((k : ℝ) + 1) * h ≤ n * h := mul_le_mul_of_nonneg_right (by exact_mod_cast hk) hh
      exact ⟨h1.trans hs.1, by linarith [hs.2]⟩
    have hsol := norm_solution_sub hL hL0 (φ := φ) (a := k * h) hh (fun s hs => hM s (hsub hs))
      (fun s hs => (hφ s (hsub hs)).mono hsub)
    have hst := norm_step_sub hL hL0 hh hhL (φ (k * h)) (hM _ (hsub ⟨le_rfl, by linarith⟩))
    have hss := norm_step_step hL hL0 hh hhL (x k) (φ (k * h))
    have hr := hx k (by omega)
    have ht : ((k + 1 : ℕ) : ℝ) * h = k * h + h := by push_cast; ring
    rw [ht]
    have hd : x (k + 1) - φ (k * h + h) = (x (k + 1) - step f h (x k)) +
        (step f h (x k) - step f h (φ (k * h))) +
        (step f h (φ (k * h)) - (φ (k * h) + h • f (φ (k * h)))) -
        (φ (k * h + h) - (φ (k * h) + h • f (φ (k * h)))) := by abel
    have hn : ‖x (k + 1) - φ (k * h + h)‖ ≤
        ρ + (1 + 2 * h * L) * ‖x k - φ (k * h)‖ + L * M * h ^ 2 + L * M * h ^ 2 := by
      rw [hd]
      refine (norm_sub_le _ _).trans (add_le_add ?_ hsol)
      refine (norm_add_le _ _).trans (add_le_add ?_ hst)
      exact (norm_add_le _ _).trans (add_le_add hr hss)
    refine hn.trans ?_
    have hq : 0 ≤ 1 + 2 * h * L := by positivity
    have := mul_le_mul_of_nonneg_left e hq
    have hgeo : ∑ i ∈ Finset.range (k + 1), (1 + 2 * h * L) ^ i =
        (1 + 2 * h * L) * ∑ i ∈ Finset.range k, (1 + 2 * h * L) ^ i + 1 := by
      rw [Finset.sum_range_succ', Finset.mul_sum]
      simp [pow_succ']
    rw [hgeo]
    calc _ ≤ ρ + (1 + 2 * h * L) * (M * h * ((1 + 2 * h * L) ^ k - 1) +
          ρ * ∑ i ∈ Finset.range k, (1 + 2 * h * L) ^ i) + L * M * h ^ 2 + L * M * h ^ 2 := by linarith
      _ = _ := by ring

/-- In exact arithmetic the points returned by `evolve` at time `k*h` are within `M*h*(exp(2*L*k*h)-1)` of the
solution. -/
theorem C100_first_order {f : V → V} {L M : ℝ} (hL : ∀ x y, ‖f x - f y‖ ≤ L * ‖x - y‖) (hL0 : 0 ≤ L)
    {h : ℝ} (hh : 0 ≤ h) (hhL : h * L ≤ 1) {φ : ℝ → V} {n : ℕ}
    (hM : ∀ s ∈ Set.Icc 0 ((n : ℝ) * h), ‖f (φ s)‖ ≤ M)
    (hφ : ∀ s ∈ Set.Icc 0 ((n : ℝ) * h), HasDerivWithinAt φ (f (φ s)) (Set.Icc 0 ((n : ℝ) * h)) s) :
    ∀ k ≤ n, ‖(step f h)^[k] (φ 0) - φ (k * h)‖ ≤ M * h * (Real.exp (2 * L * (k * h)) - 1) := by
  intro k hk
  have := C100_convergence_partial hL hL0 (ρ := 0) hh hhL hM hφ (x := fun k => (step f h)^[k] (φ 0)) rfl
    (fun k _ => by simp [Function.iterate_succ_apply']) k hk
  refine this.trans ?_
  rw [zero_mul, add_zero]
  have hM0 : 0 ≤ M := (norm_nonneg _).trans (hM 0 ⟨le_rfl, by positivity⟩)
  refine mul_le_mul_of_nonneg_left (sub_le_sub_right ?_ 1) (by positivity)
  have h1 : 1 + 2 * h * L ≤ Real.exp (2 * h * L) := by linarith [Real.add_one_le_exp (2 * h * L)]
  calc (1 + 2 * h * L) ^ k ≤ Real.exp (2 * h * L) ^ k := pow_le_pow_left₀ (by positivity) h1 k
    _ = Real.exp (2 * L * (k * h)) := by rw [← Real.exp_nat_mul]; congr 1; ring

/-- The step for `x'=x`; the fourth order Taylor polynomial would be `1+h+h^2/2+h^3/6+h^4/24`. -/
theorem step_exp (h : ℝ) : step (fun x : ℝ => x) h 1 = 1 + h + 7 / 12 * h ^ 2 + h ^ 3 / 4 + h ^ 4 / 12 := by
  simp only [step, smul_eq_mul]
  ring

/-- For `x'=x` the error of a single step is at least `h^2/12`, so the method does not have the second, let
alone the fourth order. -/
theorem C100_second_order_fails (h : ℝ) (h0 : 0 ≤ h) (h1 : h ≤ 1) :
    h ^ 2 / 12 ≤ step (fun x : ℝ => x) h 1 - Real.exp h := by
  have := Real.exp_bound' h0 h1 (n := 3) (by norm_num)
  rw [step_exp]
  norm_num [Finset.sum_range_succ, Nat.factorial] at this
  have h3 : 0 ≤ h ^ 3 := by positivity
  have h4 : 0 ≤ h ^ 4 := by positivity
  nlinarith [this]

/-- No constant bounds the error of a step by `C*h^3` for small steps. -/
theorem C100_fourth_order_fails :
    ¬ ∃ C δ : ℝ, 0 < δ ∧ ∀ h, 0 ≤ h → h ≤ δ → |step (fun x : ℝ => x) h 1 - Real.exp h| ≤ C * h ^ 3 := by
  rintro ⟨C, δ, hδ, hC⟩
  obtain ⟨h, hp, hδ', h1, hc⟩ : ∃ h : ℝ, 0 < h ∧ h ≤ δ ∧ h ≤ 1 ∧ 12 * (|C| + 1) * h ≤ 1 := by
    have hpos : 0 < 12 * (|C| + 1) := by positivity
    refine ⟨min δ (min 1 (1 / (12 * (|C| + 1)))), by positivity, min_le_left _ _,
      (min_le_right _ _).trans (min_le_left _ _), ?_⟩
    have := (min_le_right δ _).trans (min_le_right 1 (1 / (12 * (|C| + 1))))
    calc _ ≤ 12 * (|C| + 1) * (1 / (12 * (|C| + 1))) := mul_le_mul_of_nonneg_left this hpos.le
      _ = 1 := by field_simp
  have hlow := (C100_second_order_fails h hp.le h1).trans ((le_abs_self _).trans (hC h hp.le hδ'))
  have hle : C ≤ |C| := le_abs_self C
  have h3 : 0 < h ^ 3 := by positivity
  have h2 : 0 < h ^ 2 := by positivity
  have : (12 * (|C| + 1) * h) * h ^ 2 ≤ 1 * h ^ 2 := mul_le_mul_of_nonneg_right hc h2.le
  have : C * h ^ 3 ≤ |C| * h ^ 3 := mul_le_mul_of_nonneg_right hle h3.le
  nlinarith

end Verif.Simulator
