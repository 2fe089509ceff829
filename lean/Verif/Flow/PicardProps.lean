import Verif.Flow.Picard

/-!
# The Picard integrators enclose the flow
-/

namespace Verif.Flow

open Set Verif.TaylorModel Ariadne Verif.ConstraintSolver
open Verif.Expansion (Terms value monomial)

variable {n m : ℕ} {α : Type*} (R : Rounding ℝ) (sw : Sweeper ℝ)

/-- A value enclosed at one point belongs to an enclosed function. -/
theorem encloses_point {t : TM ℝ} {z : List ℝ} {y : ℝ}
    (hy : |y - value (monomial z) t.terms| ≤ t.err) :
    Encloses m t (fun w => if w = z then y else value (monomial w) t.terms) := by
  intro w _
  by_cases h : w = z
  · simpa [h] using hy
  · simpa [h] using (abs_nonneg _).trans hy

/-- Antiderivatives of curves enclosed for nonnegative scaled times. -/
theorem anti_half (k : ℕ) (hk : k < m) (t : TM ℝ) (ht : WF m t)
    (hexp : ∀ u ∈ t.terms, u.1.getD k 0 < 65535) {z : List ℝ} (hz : InBox m z) {g F : ℝ → ℝ}
    (hg : ∀ y ∈ Icc (0 : ℝ) 1, |g y - value (monomial (z.set k y)) t.terms| ≤ t.err) (hF0 : F 0 = 0)
    (hF : ∀ y ∈ Icc (0 : ℝ) 1, HasDerivWithinAt F (g y) (Icc 0 1) y) {y : ℝ} (hy : y ∈ Icc (0 : ℝ) 1) :
    |F y - value (monomial (z.set k y)) (antidifferentiate R k t).terms| ≤ (antidifferentiate R k t).err := by
  have hlen : ∀ u ∈ t.terms, k < u.1.length := fun u hu => by rw [ht u hu]; exact hk
  have hzy : InBox m (z.set k y) := inBox_set hz k (abs_le.2 ⟨by linarith [hy.1], hy.2⟩)
  have h1 := antiLoop_ok R k (monomial (z.set k y)) (abs_monomial_le _ hzy.2) t.terms
    (fun u hu => ⟨hlen u hu, hexp u hu⟩) 0
  have hanti : ∀ u ∈ exactAnti k t.terms, u.1.length = m := by
    intro u hu
    obtain ⟨v, hv, rfl⟩ := List.mem_map.1 hu
    simpa using ht v hv
  have hderiv : ∀ y ∈ Icc (0 : ℝ) 1, HasDerivWithinAt
      (fun y => F y - value (monomial (z.set k y)) (exactAnti k t.terms))
      (g y - value (monomial (z.set k y)) t.terms) (Icc 0 1) y := by
    intro y hy
    have h2 := hasDerivAt_value m k hk (exactAnti k t.terms) hanti z hz.1 y
    rw [exactDeriv_exactAnti k t.terms hlen] at h2
    exact (hF y hy).sub h2.hasDerivWithinAt
  have h3 := Convex.norm_image_sub_le_of_norm_hasDerivWithin_le (x := (0 : ℝ)) (y := y)
    hderiv (fun y hy => by rw [Real.norm_eq_abs]; exact hg y hy) (convex_Icc _ _)
    (by constructor <;> norm_num) hy
  rw [Real.norm_eq_abs, Real.norm_eq_abs, sub_zero, hF0] at h3
  have h4 : value (monomial (z.set k 0)) (exactAnti k t.terms) = 0 := by
    have : value (monomial (z.set k 0)) (exactAnti k t.terms) =
        value (fun _ => 0) (exactAnti k t.terms) := by
      apply value_congr
      intro u hu
      obtain ⟨v, hv, rfl⟩ := List.mem_map.1 hu
      have hl := ht v hv
      simp only
      rw [monomial_set_set z v.1 k (by rw [hz.1]; exact hk) (by omega), zero_pow (by omega), mul_zero]
    rw [this]
    simp [value]
  rw [h4, sub_self, sub_zero] at h3
  have he : 0 ≤ t.err := (abs_nonneg _).trans (hg 0 ⟨le_rfl, zero_le_one⟩)
  have h5 : t.err * |y| ≤ t.err := mul_le_of_le_one_right he (by rw [abs_of_nonneg hy.1]; exact hy.2)
  have h6 := R.le_up (t.err + (antidifferentiate.loop R k t.terms 0).2)
  have h7 := h3.trans h5
  unfold antidifferentiate
  simp only
  rw [abs_le] at h1 h7 ⊢
  constructor <;> linarith [h1.1, h1.2, h7.1, h7.2]

theorem wf_antidifferentiate {k : ℕ} {t : TM ℝ} (ht : WF m t) : WF m (antidifferentiate R k t) := by
  have key : ∀ (p : Terms (List ℕ) ℝ) (e : ℝ), (∀ u ∈ p, u.1.length = m) →
      ∀ u ∈ (antidifferentiate.loop R k p e).1, u.1.length = m := by
    intro p
    induction p with
    | nil => intro e _ u hu; simp [antidifferentiate.loop] at hu
    | cons v p ih =>
      intro e hp u hu
      rw [antidifferentiate.loop, List.mem_cons] at hu
      rcases hu with rfl | hu
      · simpa using hp v (by simp)
      · exact ih _ (fun w hw => hp w (by simp [hw])) u hu
  exact fun u hu => key t.terms 0 ht u hu

theorem wf_scal {t : TM ℝ} (ht : WF m t) (c : Num ℝ) : WF m (scal R t c) := by
  intro u hu
  obtain ⟨v, hv, e⟩ := mem_apply1 hu
  rw [← e]
  exact ht v hv

variable {k : ℕ} {h : ℝ} {φ₀ : Patch n}

theorem wf_integrate (hφ : ∀ i, WF m (φ₀ i)) {ψ : Patch n} (hψ : ∀ i, WF m (ψ i)) :
    ∀ i, WF m (integrate R sw k h φ₀ ψ i) := fun i =>
  C24_wf R m sw _ _ _ (wf_scal R (wf_antidifferentiate R (hψ i)) _) (hφ i)

/-- Integration of a curve enclosed for nonnegative scaled times. -/
theorem integrate_in (hk : k < m) (hh : R.Rep h) (hφ : ∀ i, WF m (φ₀ i)) {ψ : Patch n}
    (hψ : ∀ i, WF m (ψ i) ∧ ∀ u ∈ (ψ i).terms, u.1.getD k 0 < 65535) {z : List ℝ} (hz : InBox m z)
    {x₀ : Fin n → ℝ} (h₀ : ∀ y ∈ Icc (0 : ℝ) 1, In φ₀ (z.set k y) x₀) {g F : ℝ → Fin n → ℝ}
    (hg : ∀ y ∈ Icc (0 : ℝ) 1, In ψ (z.set k y) (g y)) (hF0 : F 0 = x₀)
    (hF : ∀ y ∈ Icc (0 : ℝ) 1, HasDerivWithinAt F (h • g y) (Icc 0 1) y) (h0 : h ≠ 0)
    {y : ℝ} (hy : y ∈ Icc (0 : ℝ) 1) : In (integrate R sw k h φ₀ ψ) (z.set k y) (F y) := by
  intro i
  have hzy : InBox m (z.set k y) := inBox_set hz k (abs_le.2 ⟨by linarith [hy.1], hy.2⟩)
  have h1 := anti_half R k hk (ψ i) (hψ i).1 (hψ i).2 hz (g := fun y => g y i)
    (F := fun y => h⁻¹ * (F y i - x₀ i)) (fun y hy => hg y hy i) (by simp [hF0])
    (fun y hy => by
      have h2 := (hasDerivWithinAt_pi.1 (hF y hy) i).sub_const (x₀ i)
      have h3 := h2.const_mul h⁻¹
      refine h3.congr_deriv ?_
      simp only [Pi.smul_apply, smul_eq_mul]
      field_simp) hy
  have h2 := C24_scal_exact R m _ _ (encloses_point (m := m) h1) h hh
  have h3 := C24_add R m sw _ _ (wf_scal R (wf_antidifferentiate R (hψ i).1) _) (hφ i) _ _ h2
    (encloses_point (m := m) (h₀ y hy i)) (z.set k y) hzy
  simp only [if_true] at h3
  rw [show h * (h⁻¹ * (F y i - x₀ i)) + x₀ i = F y i by field_simp; ring] at h3
  exact h3

/-- Between curves in scaled time and in time. -/
theorem scaled_deriv {f : ℝ → (Fin n → ℝ) → Fin n → ℝ} {t : ℝ} (hh : 0 < h) {x c : ℝ → Fin n → ℝ}
    (hx : ∀ s ∈ Icc t (t + h), HasDerivWithinAt x (f s (c s)) (Icc t (t + h)) s) {y : ℝ}
    (hy : y ∈ Icc (0 : ℝ) 1) :
    HasDerivWithinAt (fun y => x (t + h * y)) (h • f (t + h * y) (c (t + h * y))) (Icc 0 1) y := by
  have hm : MapsTo (fun y : ℝ => t + h * y) (Icc 0 1) (Icc t (t + h)) := fun y hy =>
    ⟨by nlinarith [hy.1], by nlinarith [hy.2]⟩
  have h1 : HasDerivWithinAt (fun y : ℝ => t + h * y) h (Icc 0 1) y := by
    have := ((hasDerivAt_id y).const_mul h).const_add t
    simpa using this.hasDerivWithinAt
  exact (hx _ (hm hy)).scomp y h1 hm

namespace Problem

variable (P : Problem n m α) {φ φ' φB : Patch n}

/-- The scaled time, as a time. -/
def time (y : ℝ) : ℝ := P.t + P.h * y

theorem picard_wf (hφ : ∀ i, WF m (φ i)) (e : picard R sw P.k P.h P.comp P.φ₀ φ = some φ') :
    ∀ i, WF m (φ' i) := by
  obtain ⟨ψ, hψ, rfl⟩ := Option.map_eq_some_iff.1 e
  exact wf_integrate R sw P.φ₀_wf fun i => (P.comp_wf φ ψ hφ hψ i).1

/-- A Picard step maps a curve in the patch to a curve in the new patch: if `x' = f(s,c(s))` for a curve
`c` in `φ`, then `x` is in the new patch. -/
theorem picard_curve (hh : R.Rep P.h) (hφ : ∀ i, WF m (φ i))
    (e : picard R sw P.k P.h P.comp P.φ₀ φ = some φ') {z : List ℝ} (hz : InBox m z)
    {x c : ℝ → Fin n → ℝ} (hx0 : x P.t = P.state z)
    (hx : ∀ s ∈ Icc P.t (P.t + P.h),
      HasDerivWithinAt x (P.f (P.param z) s (c s)) (Icc P.t (P.t + P.h)) s)
    (hc : ∀ y ∈ Icc (0 : ℝ) 1, In φ (z.set P.k y) (c (P.time y))) {y : ℝ} (hy : y ∈ Icc (0 : ℝ) 1) :
    In φ' (z.set P.k y) (x (P.time y)) := by
  obtain ⟨ψ, hψ, rfl⟩ := Option.map_eq_some_iff.1 e
  have hbox : ∀ y ∈ Icc (0 : ℝ) 1, InBox m (z.set P.k y) := fun y hy =>
    inBox_set hz P.k (abs_le.2 ⟨by linarith [hy.1], hy.2⟩)
  have hget : ∀ y, (z.set P.k y).getD P.k 0 = y := fun y => by
    rw [List.getD_eq_getElem?_getD, List.getElem?_set_self (by rw [hz.1]; exact P.k_lt)]
    rfl
  refine integrate_in R sw P.k_lt hh P.φ₀_wf (P.comp_wf φ ψ hφ hψ) hz
    (x₀ := P.state z) (fun y hy => ?_) (g := fun y => P.f (P.param z) (P.time y) (c (P.time y)))
    (F := fun y => x (P.time y)) (fun y hy => ?_) ?_ (fun y hy => scaled_deriv P.h_pos hx hy) P.h_pos.ne' hy
  · have := P.φ₀_in _ (hbox y hy)
    rwa [P.state_time] at this
  · have := P.comp_in φ ψ hφ hψ _ (hbox y hy) _ (hc y hy)
    rwa [P.param_time, hget] at this
  · simp only [time, mul_zero, add_zero]
    exact hx0

/-- The patch encloses the solutions for nonnegative scaled times: through the initial state of each
scaled point, there is a solution for the whole step, and it is the only one. -/
def Sound (φ : Patch n) : Prop :=
  ∀ z, InBox m z → 0 ≤ z.getD P.k 0 →
    (∃ x, x P.t = P.state z ∧ IsSolution (P.f (P.param z)) P.t (P.t + P.h) x) ∧
    ∀ x, x P.t = P.state z → IsSolution (P.f (P.param z)) P.t (P.t + P.h) x →
      In φ z (x (P.time (z.getD P.k 0)))

/-- The same, with all times at once. -/
theorem sound_iff : P.Sound φ ↔ ∀ z, InBox m z →
    (∃ x, x P.t = P.state z ∧ IsSolution (P.f (P.param z)) P.t (P.t + P.h) x) ∧
    ∀ x, x P.t = P.state z → IsSolution (P.f (P.param z)) P.t (P.t + P.h) x →
      ∀ y ∈ Icc (0 : ℝ) 1, In φ (z.set P.k y) (x (P.time y)) := by
  have hget : ∀ z, InBox m z → ∀ y : ℝ, (z.set P.k y).getD P.k 0 = y := fun z hz y => by
    rw [List.getD_eq_getElem?_getD, List.getElem?_set_self (by rw [hz.1]; exact P.k_lt)]
    rfl
  constructor
  · intro H z hz
    have key : ∀ y ∈ Icc (0 : ℝ) 1, _ := fun y hy => H (z.set P.k y)
      (inBox_set hz P.k (abs_le.2 ⟨by linarith [hy.1], hy.2⟩)) (by rw [hget z hz]; exact hy.1)
    simp only [hget z hz, P.state_time, P.param_time] at key
    exact ⟨(key 0 ⟨le_rfl, zero_le_one⟩).1, fun x hx0 hx y hy => (key y hy).2 x hx0 hx⟩
  · intro H z hz h0
    refine ⟨(H z hz).1, fun x hx0 hx => ?_⟩
    have := (H z hz).2 x hx0 hx (z.getD P.k 0) ⟨h0, (abs_le.1 (inBox_getD hz P.k)).2⟩
    rwa [set_getD_self] at this

/-- A Picard step preserves soundness. -/
theorem Sound.picard (hh : R.Rep P.h) (hφ : ∀ i, WF m (φ i)) (hs : P.Sound φ)
    (e : picard R sw P.k P.h P.comp P.φ₀ φ = some φ') : P.Sound φ' := by
  rw [sound_iff] at hs ⊢
  intro z hz
  refine ⟨(hs z hz).1, fun x hx0 hx y hy => ?_⟩
  exact P.picard_curve R sw hh hφ e hz hx0 hx ((hs z hz).2 x hx0 hx) hy

/-- A constant patch enclosing a flow bound is sound. -/
theorem sound_of_bound {D B : Box n ℝ} (hD : ∀ z, InBox m z → Mem D (P.state z))
    (hb : ∀ z, InBox m z → BoundsFlow (P.f (P.param z)) D P.t (P.t + P.h) B)
    (hφ : ∀ z, InBox m z → ∀ y, Mem B y → In φB z y) : P.Sound φB := by
  intro z hz h0
  obtain ⟨⟨x, hx0, hx, -⟩, h2⟩ := hb z hz _ (hD z hz)
  refine ⟨⟨x, hx0, hx⟩, fun y hy0 hy => hφ z hz _ (h2 _ le_rfl y hy0 hy _ ⟨?_, ?_⟩)⟩
  · have := mul_nonneg P.h_pos.le h0
    simp only [time]
    linarith
  · have := mul_le_of_le_one_right P.h_pos.le (abs_le.1 (inBox_getD hz P.k)).2
    simp only [time]
    linarith

/-- Whatever patch it starts from: if a Picard step maps the patch into itself, then it is sound. -/
theorem sound_of_inside (hh : R.Rep P.h) (hφ : ∀ i, WF m (φ i)) (hnn : ∀ i, 0 ≤ (φ i).err)
    (e : Flow.picard R sw P.k P.h P.comp P.φ₀ φ = some φ')
    (hin : ∀ z, InBox m z → ∀ y, In φ' z y → In φ z y) : P.Sound φ' := by
  have hsound : P.Sound φ := by
    rw [sound_iff]
    intro z hz
    have hbox : ∀ y ∈ Icc (0 : ℝ) 1, InBox m (z.set P.k y) := fun y hy =>
      inBox_set hz P.k (abs_le.2 ⟨by linarith [hy.1], hy.2⟩)
    have hcont : ∀ i, Continuous (fun s => value (monomial (z.set P.k ((s - P.t) / P.h))) (φ i).terms) := by
      intro i
      have h1 : Continuous (fun y => value (monomial (z.set P.k y)) (φ i).terms) :=
        continuous_iff_continuousAt.2 fun y =>
          (hasDerivAt_value m P.k P.k_lt (φ i).terms (hφ i) z hz.1 y).continuousAt
      exact h1.comp ((continuous_id.sub continuous_const).div_const _)
    have hu : ∀ y, (P.time y - P.t) / P.h = y := fun y => by
      simp only [time]
      have := P.h_pos.ne'
      field_simp
      ring
    have ht : ∀ s ∈ Icc P.t (P.t + P.h), (s - P.t) / P.h ∈ Icc (0 : ℝ) 1 ∧ P.time ((s - P.t) / P.h) = s := by
      intro s hs
      refine ⟨⟨div_nonneg (sub_nonneg.2 hs.1) P.h_pos.le, (div_le_one P.h_pos).2 (by linarith [hs.2])⟩, ?_⟩
      simp only [time]
      have := P.h_pos.ne'
      field_simp
      ring
    have htm : ∀ y ∈ Icc (0 : ℝ) 1, P.time y ∈ Icc P.t (P.t + P.h) := fun y hy =>
      ⟨by simp only [time]; nlinarith [hy.1, P.h_pos], by simp only [time]; nlinarith [hy.2, P.h_pos]⟩
    have hIn : ∀ y x, In φ (z.set P.k y) x ↔ x ∈ Icc
        (fun i => value (monomial (z.set P.k y)) (φ i).terms - (φ i).err)
        (fun i => value (monomial (z.set P.k y)) (φ i).terms + (φ i).err) := by
      intro y x
      constructor
      · intro H
        exact ⟨fun i => by have := abs_le.1 (H i); simp only; linarith [this.1],
          fun i => by have := abs_le.1 (H i); simp only; linarith [this.2]⟩
      · intro H i
        have h1 := H.1 i
        have h2 := H.2 i
        simp only at h1 h2
        exact abs_le.2 ⟨by linarith, by linarith⟩
    obtain ⟨x, hx0, hx, hmem⟩ := exists_tube_solution (P.reg (P.param z)) (a := P.t) (b := P.t + P.h)
      (by linarith [P.h_pos])
      (l := fun s i => value (monomial (z.set P.k ((s - P.t) / P.h))) (φ i).terms - (φ i).err)
      (u := fun s i => value (monomial (z.set P.k ((s - P.t) / P.h))) (φ i).terms + (φ i).err)
      (continuous_pi fun i => (hcont i).sub continuous_const)
      (continuous_pi fun i => (hcont i).add continuous_const)
      (fun s i => by simp only; linarith [hnn i]) (x₀ := P.state z) (fun x c hx0 hc hx s hs => by
        obtain ⟨h1, h2⟩ := ht s hs
        have h3 := P.picard_curve R sw hh hφ e hz hx0 hx (c := c) (fun y hy => by
          rw [hIn]
          have := hc (P.time y) (htm y hy)
          simpa only [hu] using this) h1
        rw [h2] at h3
        exact (hIn _ _).1 (hin _ (hbox _ h1) _ h3))
    refine ⟨⟨x, hx0, hx⟩, fun x' hx0' hx' y hy => ?_⟩
    rw [← hx.unique (P.reg (P.param z)) hx' (hx0.trans hx0'.symm) (htm y hy), hIn]
    have := hmem _ (htm y hy)
    simpa only [hu] using this
  exact Sound.picard R sw P hh hφ hsound e

end Problem

end Verif.Flow

namespace Verif.Flow

open Set Verif.TaylorModel Ariadne Verif.ConstraintSolver
open Verif.Expansion (Terms value monomial)

variable {n m : ℕ} {α : Type*} (R : Rounding ℝ) (sw : Sweeper ℝ) (P : Problem n m α) {φ φ' φB : Patch n}

/-! ## The two integrators -/

theorem picardLoop_sound (hh : R.Rep P.h) {maxErr : ℝ} {minOrder : ℕ} : ∀ {r j : ℕ} {φ φ' : Patch n},
    (∀ i, WF m (φ i)) → P.Sound φ →
    picardLoop R sw P.k P.h P.comp P.φ₀ maxErr minOrder r j φ = some φ' → P.Sound φ'
  | 0, _, φ, φ', _, hs, e => by
    rw [picardLoop, Option.some.injEq] at e
    exact e ▸ hs
  | r + 1, j, φ, φ', hw, hs, e => by
    rw [picardLoop] at e
    split at e
    · exact absurd e (by simp)
    · rename_i φ₁ h1
      have hs1 := Problem.Sound.picard R sw P hh hw hs h1
      split_ifs at e
      · rw [Option.some.injEq] at e
        exact e ▸ hs1
      · exact picardLoop_sound hh (P.picard_wf R sw hw h1) hs1 e

/-- **C60**: a step of the Picard integrator from a bound for the flow encloses the flow, and its errors
are at most the step maximum error. -/
theorem C60_taylor_picard (hh : R.Rep P.h) {D B : Box n ℝ} (hD : ∀ z, InBox m z → Mem D (P.state z))
    (hb : ∀ z, InBox m z → BoundsFlow (P.f (P.param z)) D P.t (P.t + P.h) B)
    (hwB : ∀ i, WF m (φB i)) (hφ : ∀ z, InBox m z → ∀ y, Mem B y → In φB z y)
    {maxErr : ℝ} {minOrder maxOrder : ℕ}
    (e : taylorPicard R sw P.k P.h P.comp P.φ₀ maxErr minOrder maxOrder φB = .ok φ) :
    P.Sound φ ∧ ∀ i, (φ i).err ≤ maxErr := by
  rw [taylorPicard] at e
  split at e
  · cases e
  split at e
  · cases e
  rename_i φ₁ h1
  split_ifs at e with h2
  cases e
  refine ⟨picardLoop_sound R sw P hh hwB (P.sound_of_bound hD hb hφ) h1, fun i => ?_⟩
  simp only [errorAbove, List.any_eq_true, List.mem_finRange, true_and, decide_eq_true_eq, not_exists, not_lt] at h2
  exact h2 i

theorem gradedLoop_inv : ∀ {r : ℕ} {φ φ' : Patch n}, (∀ i, WF m (φ i)) →
    gradedLoop R sw P.k P.h P.comp P.φ₀ r φ = some φ' →
    (∀ i, WF m (φ' i)) ∧ (R.Rep P.h → P.Sound φ → P.Sound φ')
  | 0, φ, φ', hw, e => by
    rw [gradedLoop, Option.some.injEq] at e
    exact e ▸ ⟨hw, fun _ hs => hs⟩
  | r + 1, φ, φ', hw, e => by
    rw [gradedLoop] at e
    split at e
    · exact absurd e (by simp)
    · rename_i φ₁ h1
      obtain ⟨h2, h3⟩ := gradedLoop_inv (P.picard_wf R sw hw h1) e
      exact ⟨h2, fun hh hs => h3 hh (Problem.Sound.picard R sw P hh hw hs h1)⟩

theorem improveLoop_sound (hh : R.Rep P.h) {ratio : ℝ} : ∀ {fuel : ℕ} {φ φ' : Patch n},
    (∀ i, WF m (φ i)) → P.Sound φ →
    improveLoop R sw P.k P.h P.comp P.φ₀ ratio fuel φ = .ok φ' → P.Sound φ'
  | 0, _, _, _, _, e => by simp [improveLoop] at e
  | fuel + 1, φ, φ', hw, hs, e => by
    rw [improveLoop] at e
    split at e
    · cases e
    · rename_i φ₁ h1
      have hs1 := Problem.Sound.picard R sw P hh hw hs h1
      split_ifs at e
      · exact improveLoop_sound hh (P.picard_wf R sw hw h1) hs1 e
      · cases e
        exact hs1

/-- What a result of the graded integrator went through. -/
theorem graded_trace {maxErr ratio : ℝ} {order fuel : ℕ}
    (e : gradedTaylorPicard R sw P.k P.h P.comp P.φ₀ maxErr ratio order fuel φB = .ok φ) :
    ∃ φ₁ φ₂, gradedLoop R sw P.k P.h P.comp P.φ₀ order φB = some φ₁ ∧
      picard R sw P.k P.h P.comp P.φ₀ φ₁ = some φ₂ ∧ (∀ i, (φ₂ i).err ≤ (φ₁ i).err) ∧
      improveLoop R sw P.k P.h P.comp P.φ₀ ratio fuel φ₂ = .ok φ ∧ ∀ i, (φ i).err ≤ maxErr := by
  rw [gradedTaylorPicard] at e
  split at e
  · cases e
  split at e
  · cases e
  rename_i φ₁ h1
  split at e
  · cases e
  rename_i φ₂ h2
  split_ifs at e with h3
  split at e
  · rename_i φ₃ h4
    split_ifs at e with h5
    cases e
    refine ⟨φ₁, φ₂, h1, h2, fun i => ?_, h4, fun i => ?_⟩
    · simp only [errorsRefine, List.all_eq_true, List.mem_finRange, forall_true_left, decide_eq_true_eq] at h3
      exact h3 i
    · simp only [errorAbove, List.any_eq_true, List.mem_finRange, true_and, decide_eq_true_eq, not_exists,
        not_lt] at h5
      exact h5 i
  · rename_i h4
    exact absurd e (h4 φ)

/-- **C60**: a step of the graded integrator from a bound for the flow encloses the flow, and its errors
are at most the step maximum error. -/
theorem C60_graded (hh : R.Rep P.h) {D B : Box n ℝ} (hD : ∀ z, InBox m z → Mem D (P.state z))
    (hb : ∀ z, InBox m z → BoundsFlow (P.f (P.param z)) D P.t (P.t + P.h) B)
    (hwB : ∀ i, WF m (φB i)) (hφ : ∀ z, InBox m z → ∀ y, Mem B y → In φB z y)
    {maxErr ratio : ℝ} {order fuel : ℕ}
    (e : gradedTaylorPicard R sw P.k P.h P.comp P.φ₀ maxErr ratio order fuel φB = .ok φ) :
    P.Sound φ ∧ ∀ i, (φ i).err ≤ maxErr := by
  obtain ⟨φ₁, φ₂, h1, h2, -, h4, h5⟩ := graded_trace R sw P e
  obtain ⟨hw1, hs1⟩ := gradedLoop_inv R sw P hwB h1
  have hs2 := Problem.Sound.picard R sw P hh hw1 (hs1 hh (P.sound_of_bound hD hb hφ)) h2
  exact ⟨improveLoop_sound R sw P hh (P.picard_wf R sw hw1 h2) hs2 h4, h5⟩

/-- **C60**, for the graded integrator from any box.  The integrator is used with boxes that need not
bound the flow (`IntegratorBase::flow_step`, integrator.cpp lines 161 and 176), and validates by comparing
the errors of two successive iterates.  This is enough if the two have the same polynomials.  Missing: the
code does not compare the polynomials, and the claim is false without; see `C60_graded_unvalidated`. -/
theorem C60_graded_validated_partial (hh : R.Rep P.h) (hwB : ∀ i, WF m (φB i))
    {maxErr ratio : ℝ} {order fuel : ℕ}
    (e : gradedTaylorPicard R sw P.k P.h P.comp P.φ₀ maxErr ratio order fuel φB = .ok φ)
    (hcentre : ∀ φ₁ φ₂, gradedLoop R sw P.k P.h P.comp P.φ₀ order φB = some φ₁ →
      picard R sw P.k P.h P.comp P.φ₀ φ₁ = some φ₂ →
      ∀ i, (φ₂ i).terms = (φ₁ i).terms ∧ 0 ≤ (φ₁ i).err) :
    P.Sound φ ∧ ∀ i, (φ i).err ≤ maxErr := by
  obtain ⟨φ₁, φ₂, h1, h2, h3, h4, h5⟩ := graded_trace R sw P e
  obtain ⟨hw1, -⟩ := gradedLoop_inv R sw P hwB h1
  have hc := hcentre φ₁ φ₂ h1 h2
  have hs2 := P.sound_of_inside R sw hh hw1 (fun i => (hc i).2) h2 fun z _ y hy i => by
    have := hy i
    rw [(hc i).1] at this
    exact this.trans (h3 i)
  exact ⟨improveLoop_sound R sw P hh (P.picard_wf R sw hw1 h2) hs2 h4, h5⟩

/-! ## Reduction of the step -/

/-- `BoundedIntegratorBase::flow_step(vf,dx,hsug)` after the bounds are found, integrator.cpp lines
197-207: on a `FlowTimeStepException` the step is reduced, alternately by factors of 3/4 and 2/3.  `step h`
is a step of length `h`; `getd` is the conversion of a dyadic number to double precision and back. -/
noncomputable def reduceLoop (step : ℝ → Step n) (getd : ℝ → ℝ) : ℕ → ℝ → ℝ → Step n × ℝ
  | 0, h, _ => (.running, h)
  | fuel + 1, h, hprev =>
    match step h with
    | .stepError => reduceLoop step getd fuel (getd (hprev / 2)) h
    | r => (r, h)

/-- `BoundedIntegratorBase::flow_step(vf,dx,hsug)`, integrator.cpp lines 191-208, with the step found by the
bounder. -/
noncomputable def flowStepSuggested (step : ℝ → Step n) (getd : ℝ → ℝ) (fuel : ℕ) (h : ℝ) : Step n × ℝ :=
  reduceLoop step getd fuel h (h * (3 / 2))

/-- The loop of `IntegratorBase::flow_step(vf,dx,h)`, integrator.cpp lines 176-180.  `inside φ` is the test
that the range of the flow is in the box. -/
noncomputable def halvingLoop (step : ℝ → Step n) (inside : Patch n → Bool) (h : ℝ) : ℕ → ℝ → Step n × ℝ
  | 0, hred => (.running, hred)
  | fuel + 1, hred =>
    match step hred with
    | .ok φ => if inside φ then (.ok φ, hred) else halvingLoop step inside h fuel (h / 2)
    | r => (r, hred)

omit R sw P in
theorem BoundsFlow.mono {f : ℝ → (Fin n → ℝ) → Fin n → ℝ} {D B : Box n ℝ} {t b c : ℝ}
    (h : BoundsFlow f D t b B) (hc : c ≤ b) (htc : t ≤ c) : BoundsFlow f D t c B := by
  intro x₀ hx₀
  obtain ⟨⟨x, h0, hx, hB⟩, h2⟩ := h x₀ hx₀
  exact ⟨⟨x, h0, hx.mono hc, fun s hs => hB s ⟨hs.1, hs.2.trans hc⟩⟩,
    fun t₂ ht₂ y hy0 hy s hs => h2 t₂ (ht₂.trans hc) y hy0 hy s hs⟩

omit R sw P in
theorem reduceLoop_step {step : ℝ → Step n} {getd : ℝ → ℝ} (hg : ∀ x, 0 < x → 0 < getd x ∧ getd x ≤ x) :
    ∀ {fuel : ℕ} {h hprev hmax : ℝ} {r : Step n} {h' : ℝ}, 0 < h → h ≤ hmax → 0 < hprev → hprev ≤ 2 * hmax →
      hprev / 2 ≤ hmax →
      reduceLoop step getd fuel h hprev = (r, h') → 0 < h' ∧ h' ≤ hmax ∧ ∀ φ, r = .ok φ → step h' = .ok φ
  | 0, h, hprev, hmax, r, h', h0, h1, h2, h3, h4, e => by
    rw [reduceLoop, Prod.mk.injEq] at e
    obtain ⟨rfl, rfl⟩ := e
    exact ⟨h0, h1, fun φ e => by cases e⟩
  | fuel + 1, h, hprev, hmax, r, h', h0, h1, h2, h3, h4, e => by
    rw [reduceLoop] at e
    split at e
    · obtain ⟨g0, g1⟩ := hg (hprev / 2) (by linarith)
      exact reduceLoop_step hg g0 (g1.trans h4) h0 (by linarith) (by linarith) e
    · rw [Prod.mk.injEq] at e
      obtain ⟨rfl, rfl⟩ := e
      exact ⟨h0, h1, fun φ e => e⟩

omit R sw P in
/-- **C60**: a flow step with a suggested step returns the result of a step that is positive and no longer
than the one for which the flow is bounded, so that the same bound applies. -/
theorem C60_reduced_step {step : ℝ → Step n} {getd : ℝ → ℝ} (hg : ∀ x, 0 < x → 0 < getd x ∧ getd x ≤ x)
    {fuel : ℕ} {h h' : ℝ} (h0 : 0 < h) (e : flowStepSuggested step getd fuel h = (.ok φ, h'))
    {f : ℝ → (Fin n → ℝ) → Fin n → ℝ} {D B : Box n ℝ} {t : ℝ} (hb : BoundsFlow f D t (t + h) B) :
    step h' = .ok φ ∧ 0 < h' ∧ h' ≤ h ∧ BoundsFlow f D t (t + h') B := by
  obtain ⟨h1, h2, h3⟩ := reduceLoop_step hg (hmax := h) h0 le_rfl (by linarith) (by linarith) (by linarith) e
  exact ⟨h3 φ rfl, h1, h2, hb.mono (by linarith) (by linarith)⟩

omit R sw P in
/-- `IntegratorBase::flow_step(vf,dx,h)` does not go on halving the step: if the flow for half the step is
not inside the box, the loop never ends. -/
theorem C60_halving_diverges {step : ℝ → Step n} {inside : Patch n → Bool} {h : ℝ} {φ φ' : Patch n}
    (h1 : step h = .ok φ) (h2 : inside φ = false) (h3 : step (h / 2) = .ok φ') (h4 : inside φ' = false)
    (fuel : ℕ) : (halvingLoop step inside h fuel h).1 = .running := by
  have key : ∀ fuel, (halvingLoop step inside h fuel (h / 2)).1 = .running := by
    intro fuel
    induction fuel with
    | zero => rfl
    | succ fuel ih =>
      rw [halvingLoop, h3]
      simpa [h4] using ih
  cases fuel with
  | zero => rfl
  | succ fuel =>
    rw [halvingLoop, h1]
    simpa [h2] using key fuel

end Verif.Flow
