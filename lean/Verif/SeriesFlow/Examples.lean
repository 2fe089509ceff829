import Verif.SeriesFlow.Props
import Mathlib.Analysis.SpecialFunctions.ExpDeriv

/-!
# C97: examples and counterexamples for the expansion of a flow in space and time
-/

namespace Verif.SeriesFlow

open Verif.Graded (tc tc_zero tc_congr)
open Verif.Expansion (Terms value monomial)
open Verif.TaylorModel Ariadne Set Filter Topology

/-! ## A linear equation in one variable -/

/-- The solutions of `x' = a x`. -/
noncomputable def expSol (a : ℝ) (p : (Fin 1 → ℝ) × ℝ) (τ : ℝ) : ℝ := p.1 0 * Real.exp (a * τ)

theorem expSol_smooth (a : ℝ) (p : (Fin 1 → ℝ) × ℝ) (n : ℕ) (τ : ℝ) : ContDiffAt ℝ n (expSol a p) τ := by
  unfold expSol; fun_prop

theorem tc_expSol (a : ℝ) (p : (Fin 1 → ℝ) × ℝ) (j : ℕ) :
    tc (expSol a p) j = a ^ j / (j.factorial : ℝ) * p.1 0 := by
  have h : iteratedDeriv j (fun τ => Real.exp (a * τ)) 0 = a ^ j := by
    rw [iteratedDeriv_exp_const_mul]; simp
  unfold tc expSol
  rw [iteratedDeriv_const_mul_field, h]
  ring

/-- A linear function is enclosed by its value and its slope. -/
theorem lin_expands {k : ℝ} {b : Num ℝ} {p : Fin 1 → ℝ} (hb : b.Has (k * p 0)) :
    Expands 1 [([0], b), ([1], ⟨k, k⟩)] (fun p => k * p 0) p := by
  refine ⟨by simp, [([0], k * p 0), ([1], k)], ?_, ?_⟩
  · exact List.Forall₂.cons ⟨rfl, hb⟩ (List.Forall₂.cons ⟨rfl, le_rfl, le_rfl⟩ List.Forall₂.nil)
  · intro i hi v
    have e : (fun r : ℝ => k * (p + r • v) 0) = fun r => k * p 0 + k * v 0 * r := by
      funext r; simp; ring
    rw [e]
    interval_cases i
    · rw [tc_zero]; simp [part, monomial]
    · have : tc (fun r : ℝ => k * p 0 + k * v 0 * r) 1 = k * v 0 := by
        simp [tc, iteratedDeriv_one, deriv_const_add, deriv_const_mul_field]
      rw [this]; simp [part, monomial]

theorem lin_smooth (a : ℝ) (j so : ℕ) (p : Fin 1 → ℝ) (s : ℝ) (v : Fin 1 → ℝ) :
    ContDiffAt ℝ so (fun r : ℝ => tc (expSol a (p + r • v, s)) j) 0 := by
  simp only [tc_expSol, Pi.add_apply, Pi.smul_apply, smul_eq_mul]
  fun_prop

/-- The series of `x' = a x`, with the constant terms in the bounds `b`. -/
noncomputable def series (a : ℝ) (b : ℕ → Num ℝ) (ord : ℕ) : List (Terms (List ℕ) (Num ℝ)) :=
  (List.range (ord + 1)).map fun j => [([0], b j), ([1], ⟨a ^ j / j.factorial, a ^ j / j.factorial⟩)]

theorem series_expands {a : ℝ} {b : ℕ → Num ℝ} {ord j : ℕ} {s : ℝ} {p : Fin 1 → ℝ}
    (hb : (b j).Has (a ^ j / j.factorial * p 0)) {e} (he : (series a b ord)[j]? = some e) :
    Expands 1 e (fun p => tc (expSol a (p, s)) j) p := by
  simp only [series, List.getElem?_map, Option.map_eq_some_iff] at he
  obtain ⟨i, hi, rfl⟩ := he
  obtain ⟨h1, h2⟩ := List.getElem?_eq_some_iff.1 hi
  rw [List.getElem_range] at h2
  subst h2
  simp only [tc_expSol]
  exact lin_expands hb

theorem series_length (a : ℝ) (b : ℕ → Num ℝ) (ord : ℕ) : (series a b ord).length = ord + 1 := by
  simp [series]

theorem expSol_shift (a : ℝ) (p : Fin 1 → ℝ) (s s' ξ : ℝ) :
    (fun τ => expSol a (p, s) (ξ + τ)) = expSol a (fun _ => expSol a (p, s) ξ, s') := by
  funext τ
  simp only [expSol]
  rw [mul_add, Real.exp_add]
  ring

theorem exp_small {ξ : ℝ} (h : ξ ≤ 1 / 4) : Real.exp ξ ≤ 2 := by
  have h1 := Real.add_one_le_exp (-ξ)
  have h2 := Real.exp_pos ξ
  have h3 : Real.exp ξ * Real.exp (-ξ) = 1 := by rw [← Real.exp_add]; simp
  nlinarith

/-- **C97** The hypotheses are met: for `x' = x`, `D = [0,1/4]`, bounds `[0,1]` and steps of `1/4`, the
differential is assembled at any order in time, and has `x exp(t)` among its values. -/
theorem C97_linear (ord : ℕ) {x t : ℝ} (hx : x ∈ Icc (0 : ℝ) (1 / 4)) (ht : t ∈ Icc (0 : ℝ) (1 / 4)) :
    ∃ dphi q, flowDifferential 1 1 ord
        (series 1 (fun j => ⟨1 / j.factorial * (1 / 8), 1 / j.factorial * (1 / 8)⟩) ord)
        (series 1 (fun j => ⟨0, 1 / j.factorial⟩) ord) = some dphi ∧ Choice dphi q ∧
      x * Real.exp t = value (monomial [x - 1 / 8, t]) q := by
  obtain ⟨dphi, hd⟩ := Option.isSome_iff_exists.1 (C97_assembles 1 1 ord
    (dphic := series 1 (fun j => ⟨1 / j.factorial * (1 / 8), 1 / j.factorial * (1 / 8)⟩) ord)
    (dphib := series 1 (fun j => ⟨0, 1 / j.factorial⟩) ord)
    (by rw [series_length]; omega) (by rw [series_length]; omega))
  have hb : ∀ ξ ∈ Icc 0 t, x * Real.exp ξ ∈ Icc (0 : ℝ) 1 := by
    intro ξ hξ
    have h1 := exp_small (hξ.2.trans ht.2)
    have h2 := Real.exp_pos ξ
    exact ⟨mul_nonneg hx.1 h2.le, by nlinarith [hx.1, hx.2]⟩
  obtain ⟨q, h1, h2⟩ := C97_flow (N := 1) (so := 1) (gind := 1) (ord := ord) (lo := fun _ => 0)
    (up := fun _ => 1) (D := Icc (fun _ => 0) fun _ => 1 / 4) (f := fun p _ => p) (t0 := 0) (h := 1 / 4)
    (t := t) ht
    (by
      intro c hc p hp s _ τ hτ
      constructor
      · intro i
        have h1 := hc.1 i
        have h2 := hp.1 i
        simp only [Pi.add_apply, Pi.smul_apply, smul_eq_mul] at *
        nlinarith [hτ.1]
      · intro i
        have h1 := hc.2 i
        have h2 := hp.2 i
        have h3 := hp.1 i
        simp only [Pi.add_apply, Pi.smul_apply, smul_eq_mul] at *
        nlinarith [hτ.1, hτ.2])
    (Icc_subset_Icc le_rfl fun _ => by norm_num) (i := 0) (y := expSol 1)
    (w := fun τ _ => x * Real.exp τ) (c := fun _ => 1 / 8)
    ⟨fun _ => by norm_num, fun _ => by norm_num⟩
    ⟨fun _ => by simpa using hx.1, fun _ => by simpa using hx.2⟩
    (fun ξ hξ => ⟨⟨fun _ => (hb ξ hξ).1, fun _ => (hb ξ hξ).2⟩,
      fun _ => (Real.hasDerivAt_exp ξ).const_mul x⟩)
    (fun ξ _ => by
      refine Eventually.of_forall fun τ => ?_
      simp only [expSol, one_mul, Real.exp_add]
      ring)
    (fun p _ ξ _ => expSol_smooth 1 _ ord 0) (fun j _ p _ ξ _ v => lin_smooth 1 j 1 p _ v)
    (fun j _ e he => series_expands (by simp [Num.Has]) he)
    (fun j _ e he p hp ξ _ => series_expands (by
      have h0 : (0 : ℝ) ≤ 1 / j.factorial := by positivity
      have h1 := hp.1 0
      have h2 := hp.2 0
      simp only [Num.Has, one_pow]
      exact ⟨mul_nonneg h0 h1, by nlinarith⟩) he) hd
  refine ⟨dphi, q, hd, h1, ?_⟩
  simpa [joinPoint, List.ofFn_succ] using h2

/-- **C97**, counterexample: bounds which contain every trajectory from the domain, and even are
invariant, are not enough.  For `x' = -x`, domain and bounds `[0,2]`, centre 1 and orders 1, all
hypotheses on the series hold, but the trajectory from 2 is, at time 2, not among the values of the
assembled differential. -/
theorem C97_invariant_bounds_wrong :
    let dphic := [[([0], (⟨1, 1⟩ : Num ℝ)), ([1], ⟨1, 1⟩)], [([0], ⟨-1, -1⟩), ([1], ⟨-1, -1⟩)]]
    let dphib := [[([0], (⟨0, 2⟩ : Num ℝ)), ([1], ⟨1, 1⟩)], [([0], ⟨-2, 0⟩), ([1], ⟨-1, -1⟩)]]
    (∀ x ∈ Icc (0 : ℝ) 2, ∀ ξ, 0 ≤ ξ → expSol (-1) (fun _ => x, 0) ξ ∈ Icc (0 : ℝ) 2) ∧
    (∀ j < 2, ∀ e, dphic[j]? = some e → Expands 1 e (fun p => tc (expSol (-1) (p, 0)) j) (fun _ : Fin 1 => 1)) ∧
    (∀ j < 2, ∀ e, dphib[j]? = some e → ∀ p : Fin 1 → ℝ, p 0 ∈ Icc (0 : ℝ) 2 →
      Expands 1 e (fun p => tc (expSol (-1) (p, 0)) j) p) ∧
    ∃ dphi, flowDifferential 1 1 1 dphic dphib = some dphi ∧
      ¬∃ q, Choice dphi q ∧ expSol (-1) (fun _ => 2, 0) 2 = value (monomial [2 - 1, 2]) q := by
  intro dphic dphib
  refine ⟨?_, ?_, ?_, _, rfl, ?_⟩
  · intro x hx ξ hξ
    have h1 := Real.exp_pos (-1 * ξ)
    have h2 : Real.exp (-1 * ξ) ≤ 1 := Real.exp_le_one_iff.2 (by linarith)
    simp only [expSol]
    exact ⟨mul_nonneg hx.1 h1.le, by nlinarith [hx.1, hx.2]⟩
  · intro j hj e he
    simp only [tc_expSol]
    interval_cases j
    · obtain rfl : _ = e := Option.some.inj he
      simpa using lin_expands (k := 1) (b := ⟨1, 1⟩) (p := fun _ => 1) (by simp [Num.Has])
    · obtain rfl : _ = e := Option.some.inj he
      simpa using lin_expands (k := -1) (b := ⟨-1, -1⟩) (p := fun _ => 1) (by simp [Num.Has])
  · intro j hj e he p hp
    simp only [tc_expSol]
    interval_cases j
    · obtain rfl : _ = e := Option.some.inj he
      simpa using lin_expands (k := 1) (b := ⟨0, 2⟩) (p := p) (by simpa [Num.Has] using hp)
    · obtain rfl : _ = e := Option.some.inj he
      simpa using lin_expands (k := -1) (b := ⟨-2, 0⟩) (p := p)
        (by constructor <;> simp <;> linarith [hp.1, hp.2])
  · rintro ⟨q, hq, h⟩
    have hq' : Choice [([0, 0], ⟨1, 1⟩), ([1, 0], ⟨1, 1⟩), ([0, 1], ⟨-2, 0⟩), ([1, 1], ⟨-1, -1⟩)] q := hq
    rcases hq' with _ | ⟨⟨e1, a1⟩, _ | ⟨⟨e2, a2⟩, _ | ⟨⟨e3, a3⟩, _ | ⟨⟨e4, a4⟩, _ | _⟩⟩⟩⟩
    simp only [value_cons, value_nil, ← e1, ← e2, ← e3, ← e4, monomial] at h
    have h0 := Real.exp_pos (-2)
    simp only [expSol] at h
    norm_num [Num.Has] at a1 a2 a3 a4 h
    nlinarith [a1.1, a1.2, a2.1, a2.2, a3.1, a3.2, a4.1, a4.2]

/-- Non-vacuity of the Taylor model: scaling exact coefficients by exact powers of the radii. -/
example (R : Rounding ℝ) {s : List ℝ} (hs : ∀ y ∈ s, |y| ≤ 1) (h2 : s.length = 2) :
    |value (monomial (List.zipWith (· * ·) [1 / 4, 1 / 2] s)) [([1, 1], 3), ([0, 2], (1 : ℝ))] -
        value (monomial s) (toModel R (rescale (fun a b => ⟨b.l * monomial [1 / 4, 1 / 2] a,
          b.u * monomial [1 / 4, 1 / 2] a⟩) [([1, 1], ⟨2, 4⟩), ([0, 2], ⟨1, 1⟩)])).terms| ≤
      (toModel R (rescale (fun a b => ⟨b.l * monomial [1 / 4, 1 / 2] a,
          b.u * monomial [1 / 4, 1 / 2] a⟩) [([1, 1], ⟨2, 4⟩), ([0, 2], ⟨1, 1⟩)])).err := by
  refine C97_model R (by simp [h2]) hs (fun a b z hz => ?_) ?_
  · have h0 : 0 ≤ monomial [(1 : ℝ) / 4, 1 / 2] a := by
      rcases a with _ | ⟨i, _ | ⟨j, a⟩⟩ <;> simp [monomial]
    exact ⟨mul_le_mul_of_nonneg_right hz.1 h0, mul_le_mul_of_nonneg_right hz.2 h0⟩
  · exact List.Forall₂.cons ⟨rfl, by norm_num [Num.Has]⟩ (List.Forall₂.cons ⟨rfl, le_rfl, le_rfl⟩ List.Forall₂.nil)

/-- Non-vacuity of the adaptation: errors halved by each order, from orders 1 and 1 to at most 3 and 4. -/
example (R : Rounding ℚ) : ∃ s, adapt R ⟨1 / 100, 1, 1, 3, 4⟩ (fun a b => some (1 / 2 ^ (a + b))) 5 (1, 1) = (s, true) ∧
    s.1 ≤ 3 ∧ s.2 ≤ 4 := by
  obtain ⟨s, h1, -, h2, -, h3, -⟩ := C97_adapts R (o := ⟨1 / 100, 1, 1, 3, 4⟩)
    (err := fun a b => some (1 / 2 ^ (a + b))) (by norm_num) (fun _ _ => rfl) (by norm_num)
  exact ⟨s, h1, h2, h3⟩

end Verif.SeriesFlow
