import Verif.Inclusion.Props
import Mathlib.Analysis.SpecialFunctions.ExpDeriv

/-!
# The error of the approximation by constant inputs

For additive inputs and a positive logarithmic norm, the error of `ConstantApproximation` is an upper bound
for the distance of a solution from the solution for the averages of the inputs, at every time of the step.
-/

namespace Verif.Inclusion

open Ariadne Set

variable {n m : ℕ} {R : Rounding ℝ} {S : System n m ℝ} {B : Set (Fin n → ℝ)}
  {f : (Fin n → ℝ) → Fin n → ℝ} {g : Fin m → (Fin n → ℝ) → Fin n → ℝ} {h : ℝ} {v : ℝ → Fin m → ℝ}
  {x y : ℝ → Fin n → ℝ}

/-- The growth of the distance of the solutions for two inputs. -/
theorem distance_le_growth₂ {w : Fin m → ℝ} {G : Fin m → Fin n → ℝ} (hS : Models S B f g)
    (hB : Convex ℝ B) (hx : Curve (withInputs f (fun i _ => G i) v) B h x)
    (hy : Curve (withInputs f (fun i _ => G i) (fun _ => w)) B h y) (h0 : x 0 = y 0)
    {ε lam : ℝ} (hε0 : 0 ≤ ε) (hε : ∀ t ∈ Icc 0 h, ∀ j, |∑ i, G i j * (v t i - w i)| ≤ ε)
    (hlam : ∀ j, ∀ q : Fin n → ℝ, (∀ k, Gives (S.f j) (Pi.single k 1) (q k)) →
      q j + ∑ k ∈ Finset.univ.erase j, |q k| ≤ lam) {t : ℝ} (ht : t ∈ Icc 0 h) :
    ‖x t - y t‖ ≤ gronwallBound 0 lam ε t := by
  choose φ' hφ using hS.f
  have hz : ∀ s ∈ Ico 0 h, ∀ j, ∃ z ∈ B, f (x s) j - f (y s) j = ∑ k, φ' j z k * (x s k - y s k) := by
    intro s hs j
    exact exists_partial hB (hφ j).deriv (hx.mem s (Ico_subset_Icc_self hs))
      (hy.mem s (Ico_subset_Icc_self hs))
  let A : ℝ → Fin n → Fin n → ℝ := fun s j k =>
    if hs : s ∈ Ico 0 h then φ' j (Classical.choose (hz s hs j)) k else 0
  refine norm_le_growth (d := fun t => x t - y t) (A := A)
    (r := fun t j => ∑ i, G i j * (v t i - w i))
    (hx.cont.sub hy.cont) (by simp [h0]) (fun s hs => ?_) (fun s hs j => ?_)
    (fun s hs j => hε s (Ico_subset_Icc_self hs) j) hε0 t ht
  · refine ((hx.deriv s hs).sub (hy.deriv s hs)).congr_deriv ?_
    funext j
    have e : ∑ k, A s j k * (x s k - y s k) = f (x s) j - f (y s) j := by
      simp only [A, dif_pos hs]
      exact (Classical.choose_spec (hz s hs j)).2.symm
    show _ - _ = ∑ k, A s j k * (x s k - y s k) + _
    rw [e]
    simp only [withInputs, mul_sub, Finset.sum_sub_distrib]
    ring
  · simp only [A, dif_pos hs]
    exact hlam j _ ((hφ j).partials _ (Classical.choose_spec (hz s hs j)).1)

/-- `W` is a primitive of the input `v`. -/
structure Primitive (v : ℝ → Fin m → ℝ) (h : ℝ) (W : ℝ → Fin m → ℝ) : Prop where
  cont : ContinuousOn W (Icc 0 h)
  deriv : ∀ t ∈ Ico 0 h, HasDerivWithinAt W (v t) (Ici t) t

theorem Primitive.restrict {W : ℝ → Fin m → ℝ} {t : ℝ} (hW : Primitive v h W) (ht : t ≤ h) :
    Primitive v t W where
  cont := hW.cont.mono (Icc_subset_Icc_right ht)
  deriv s hs := hW.deriv s ⟨hs.1, hs.2.trans_le ht⟩

/-- The averages of the inputs are inputs. -/
theorem Primitive.average {V : Fin m → ℝ} {W : ℝ → Fin m → ℝ} (hW : Primitive v h W) (hh : 0 < h)
    (hv : Input V h v) (i : Fin m) : |(W h i - W 0 i) / h| ≤ V i := by
  have := norm_image_sub_le_of_norm_deriv_right_le_segment (f := fun t => W t i) (f' := fun t => v t i)
    (a := 0) (b := h) (C := V i) (continuousOn_pi.1 hW.cont i)
    (fun t ht => hasDerivWithinAt_pi.1 (hW.deriv t ht) i)
    (fun t ht => by simpa using hv t (Ico_subset_Icc_self ht) i) h ⟨hh.le, le_rfl⟩
  rw [abs_div, abs_of_pos hh, div_le_iff₀ hh]
  simpa using this

/-- The right-hand side changes by at most `L_j` times the distance. -/
theorem abs_f_sub_le (hS : Models S B f g) (hB : Convex ℝ B) {p q : Fin n → ℝ} (hp : p ∈ B) (hq : q ∈ B)
    (j : Fin n) : |f p j - f q j| ≤ (row R j (S.f j)).l * ‖p - q‖ := by
  obtain ⟨φ', hφ⟩ := hS.f j
  obtain ⟨z, hz, he⟩ := exists_partial hB hφ.deriv hp hq
  rw [he]
  refine (Finset.abs_sum_le_sum_abs _ _).trans ?_
  refine le_trans (Finset.sum_le_sum (g := fun k => |φ' z k| * ‖p - q‖) fun k _ => ?_) ?_
  · rw [abs_mul]
    refine mul_le_mul_of_nonneg_left ?_ (abs_nonneg _)
    have := norm_le_pi_norm (p - q) k
    rwa [Real.norm_eq_abs] at this
  · rw [← Finset.sum_mul]
    exact mul_le_mul_of_nonneg_right (sum_le_row_l R j hφ.nodup (hφ.partials z hz)) (norm_nonneg _)

/-- The exact bound: twice the integral of the growth. -/
theorem distance_average {G : Fin m → Fin n → ℝ} (hS : Models S B f (fun i _ => G i))
    (hB : Convex ℝ B) (hh : 0 < h) {W : ℝ → Fin m → ℝ} (hW : Primitive v h W)
    (hx : Curve (withInputs f (fun i _ => G i) v) B h x)
    (hy : Curve (withInputs f (fun i _ => G i) (fun _ i => (W h i - W 0 i) / h)) B h y)
    (h0 : x 0 = y 0) {ε lam : ℝ} (hε0 : 0 ≤ ε)
    (hε : ∀ t ∈ Icc 0 h, ∀ j, |∑ i, G i j * (v t i - (W h i - W 0 i) / h)| ≤ ε) (hl : 0 < lam)
    (hlam : ∀ j, ∀ q : Fin n → ℝ, (∀ k, Gives (S.f j) (Pi.single k 1) (q k)) →
      q j + ∑ k ∈ Finset.univ.erase j, |q k| ≤ lam) (j : Fin n) :
    |x h j - y h j| ≤ (row R j (S.f j)).l * ε *
      (h ^ 2 * (((Real.exp (lam * h) - 1) / (lam * h) - 1) / (lam * h))) := by
  set w : Fin m → ℝ := fun i => (W h i - W 0 i) / h with hw
  set l := (row R j (S.f j)).l with hl'
  have hd := fun t ht => distance_le_growth₂ (t := t) hS hB hx hy h0 hε0 hε hlam ht
  let D : ℝ → ℝ := fun t => x t j - y t j - ∑ i, G i j * (W t i - W 0 i - w i * t)
  have hDc : ContinuousOn D (Icc 0 h) := by
    refine ((continuousOn_pi.1 hx.cont j).sub (continuousOn_pi.1 hy.cont j)).sub
      (continuousOn_finset_sum _ fun i _ => continuousOn_const.mul ?_)
    exact ((continuousOn_pi.1 hW.cont i).sub continuousOn_const).sub
      (continuousOn_const.mul continuousOn_id)
  have hDd : ∀ t ∈ Ico 0 h, HasDerivWithinAt D (f (x t) j - f (y t) j) (Ici t) t := by
    intro t ht
    have d1 := hasDerivWithinAt_pi.1 (hx.deriv t ht) j
    have d2 := hasDerivWithinAt_pi.1 (hy.deriv t ht) j
    have d3 : ∀ i ∈ Finset.univ, HasDerivWithinAt (fun t => G i j * (W t i - W 0 i - w i * t))
        (G i j * (v t i - w i)) (Ici t) t := by
      intro i _
      have a1 := (hasDerivWithinAt_pi.1 (hW.deriv t ht) i).sub_const (W 0 i)
      have a2 := ((hasDerivAt_id t).const_mul (w i)).hasDerivWithinAt (s := Ici t)
      rw [mul_one] at a2
      exact (a1.sub a2).const_mul _
    have d4 := HasDerivWithinAt.fun_sum d3
    refine ((d1.sub d2).sub d4).congr_deriv ?_
    simp only [withInputs, mul_sub, Finset.sum_sub_distrib]
    ring
  have hbound : ∀ t ∈ Ico 0 h, ‖f (x t) j - f (y t) j‖ ≤ l * (ε / lam * (Real.exp (lam * t) - 1)) := by
    intro t ht
    have ht' := Ico_subset_Icc_self ht
    have h1 := abs_f_sub_le (R := R) hS hB (hx.mem t ht') (hy.mem t ht') j
    have h2 := hd t ht'
    rw [gronwallBound_of_K_ne_0 hl.ne'] at h2
    beta_reduce at h2
    rw [zero_mul, zero_add] at h2
    have h3 : 0 ≤ l := by
      obtain ⟨φ', hφ⟩ := hS.f j
      exact (Finset.sum_nonneg fun _ _ => abs_nonneg _).trans
        (sum_le_row_l R j hφ.nodup (hφ.partials _ (hx.mem t ht')))
    rw [Real.norm_eq_abs]
    exact h1.trans (mul_le_mul_of_nonneg_left h2 h3)
  have hBd : ∀ t, HasDerivAt (fun t => l * (ε / lam * ((Real.exp (lam * t) - 1) / lam - t)))
      (l * (ε / lam * (Real.exp (lam * t) - 1))) t := by
    intro t
    have de : HasDerivAt (fun t : ℝ => Real.exp (lam * t)) (Real.exp (lam * t) * lam) t := by
      simpa using ((hasDerivAt_id t).const_mul lam).exp
    have := ((((de.sub_const 1).div_const lam).sub (hasDerivAt_id t)).const_mul (ε / lam)).const_mul l
    refine this.congr_deriv ?_
    field_simp
  have key := image_norm_le_of_norm_deriv_right_le_deriv_boundary hDc hDd
    (by simp [D, h0]) hBd hbound (x := h) ⟨hh.le, le_rfl⟩
  have hDh : D h = x h j - y h j := by
    have : ∀ i, G i j * (W h i - W 0 i - w i * h) = 0 := by
      intro i
      simp only [hw]
      field_simp
      ring
    simp [D, this]
  rw [hDh, Real.norm_eq_abs] at key
  refine key.trans (le_of_eq ?_)
  field_simp

/-- `(e^z - 1)/z` is increasing. -/
theorem expm1_div_mono {a b : ℝ} (ha : 0 < a) (hab : a ≤ b) :
    (Real.exp a - 1) / a ≤ (Real.exp b - 1) / b := by
  have hb := ha.trans_le hab
  rw [div_le_div_iff₀ ha hb]
  have hc := convexOn_exp.2 (mem_univ (0 : ℝ)) (mem_univ b)
    (show 0 ≤ 1 - a / b by rw [sub_nonneg, div_le_one hb]; exact hab)
    (show 0 ≤ a / b by positivity) (by ring)
  simp only [smul_eq_mul, mul_zero, zero_add, Real.exp_zero, mul_one] at hc
  have e1 : a / b * b = a := by field_simp
  rw [e1] at hc
  have e2 := mul_le_mul_of_nonneg_left hc hb.le
  have e3 : b * (1 - a / b + a / b * Real.exp b) = b - a + a * Real.exp b := by field_simp
  nlinarith

theorem le_dexp {exp : ℝ → ℝ} (hexp : ExpUpper exp) {a b : ℝ} (ha : 0 < a) (hab : a ≤ b) :
    (Real.exp a - 1) / a ≤ dexp R exp b := by
  refine (expm1_div_mono ha hab).trans (le_trans ?_ (R.le_up _))
  have hb := ha.trans_le hab
  have := (sub_le_sub_right (hexp b) 1).trans (R.le_up _)
  gcongr

theorem entry_l_nonneg (ts : Terms n ℝ) (e : Entry ℝ) (he : 0 ≤ e.l) :
    0 ≤ (ts.foldl entryStep e).l := by
  induction ts generalizing e with
  | nil => exact he
  | cons t ts ih =>
    refine ih _ ?_
    unfold entryStep
    split_ifs
    · exact he
    · exact he.trans (le_max_left _ _)
    · exact he

theorem Curve.restrict {F : ℝ → (Fin n → ℝ) → Fin n → ℝ} {t : ℝ} (hx : Curve F B h x) (ht : t ≤ h) :
    Curve F B t x where
  cont := hx.cont.mono (Icc_subset_Icc_right ht)
  deriv s hs := hx.deriv s ⟨hs.1, hs.2.trans_le ht⟩
  mem s hs := hx.mem s ⟨hs.1, hs.2.trans ht⟩

/-- The bound is increasing in time. -/
theorem bound_mono {lam t : ℝ} (hl : 0 < lam) (ht : 0 < t) (hth : t ≤ h) :
    t ^ 2 * (((Real.exp (lam * t) - 1) / (lam * t) - 1) / (lam * t)) ≤
      h ^ 2 * (((Real.exp (lam * h) - 1) / (lam * h) - 1) / (lam * h)) := by
  have hh := ht.trans_le hth
  have e : ∀ s : ℝ, 0 < s → s ^ 2 * (((Real.exp (lam * s) - 1) / (lam * s) - 1) / (lam * s)) =
      (Real.exp (lam * s) - 1 - lam * s) / lam ^ 2 := by
    intro s hs
    field_simp
  rw [e t ht, e h hh]
  have h1 : Real.exp (lam * h) = Real.exp (lam * t) * Real.exp (lam * (h - t)) := by
    rw [← Real.exp_add]
    congr 1
    ring
  have h2 := Real.add_one_le_exp (lam * (h - t))
  have h3 : 1 ≤ Real.exp (lam * t) := Real.one_le_exp (by positivity)
  have h4 : 0 ≤ lam * (h - t) := mul_nonneg hl.le (by linarith)
  have h5 : Real.exp (lam * t) - lam * t ≤ Real.exp (lam * h) - lam * h := by
    rw [h1]
    nlinarith
  exact div_le_div_of_nonneg_right (by linarith) (by positivity)

/-- **C81** (constant inputs; partial: only for inputs that occur with constant coefficients and a positive
logarithmic norm, and given the solution for the constant inputs; `C81_constant_contracting` shows that it
is wrong for a negative logarithmic norm).  The error of the approximation by constant inputs is, at every
time of the step, an upper bound for the distance of every solution of the inclusion from a solution for
constant inputs, namely the averages of the inputs up to that time. -/
theorem C81_constant_partial {exp : ℝ → ℝ} (hexp : ExpUpper exp) {G : Fin m → Fin n → ℝ}
    (hS : Models S B f (fun i _ => G i)) (hB : Convex ℝ B) (hv : Input S.V h v)
    {W : ℝ → Fin m → ℝ} (hW : Primitive v h W) (hx : Curve (withInputs f (fun i _ => G i) v) B h x)
    {t : ℝ} (ht0 : 0 < t) (hth : t ≤ h)
    (hy : Curve (withInputs f (fun i _ => G i) (fun _ i => (W t i - W 0 i) / t)) B t y)
    (h0 : x 0 = y 0) {lam : ℝ} (hL : (constants R exp 1 S h).Lam = some lam) (hl : 0 < lam) (j : Fin n)
    {e : ℝ} (he : constantError R exp S h j = some e) :
    Input S.V t (fun _ i => (W t i - W 0 i) / t) ∧ |x t j - y t j| ≤ e := by
  have hh : 0 < h := ht0.trans_le hth
  replace hW := hW.restrict hth
  have hvt : Input S.V t v := fun s hs => hv s ⟨hs.1, hs.2.trans hth⟩
  have hav := fun i => hW.average ht0 hvt i
  refine ⟨fun _ _ i => hav i, ?_⟩
  set c := constants R exp 1 S h with hc
  have hmem : ∀ t ∈ Icc 0 h, x t ∈ B := hx.mem
  have hV0 : ∀ i, 0 ≤ S.V i := fun i => (abs_nonneg _).trans (hav i)
  have hlam : ∀ j, ∀ q : Fin n → ℝ, (∀ k, Gives (S.f j) (Pi.single k 1) (q k)) →
      q j + ∑ k ∈ Finset.univ.erase j, |q k| ≤ lam := by
    intro k q hq
    obtain ⟨b, hb1, hb2⟩ := le_maxOf? (fun j => (row R j (S.f j)).lam) j
    have : b = lam := Option.some.inj (hb1.symm.trans hL)
    obtain ⟨φ', hφ⟩ := hS.f k
    rw [← this]
    exact (log_norm_le_row_lam R k hφ.nodup hq).trans (hb2 k)
  -- the inputs
  have hin : ∀ q : Fin m → ℝ, (∀ i, |q i| ≤ S.V i) → ∀ k, |∑ i, G i k * q i| ≤ c.pKv := by
    intro q hq k
    exact (abs_inputs_le hS exp 1 (hmem 0 ⟨le_rfl, hh.le⟩) hq k).trans
      (le_maxOf (fun j => c.pKjv j) k)
  have hinw : ∀ q : Fin m → ℝ, (∀ i, |q i| ≤ S.V i) → ∀ k, |∑ i, G i k * q i| ≤ c.pKw := by
    intro q hq k
    refine le_trans ?_ (le_maxOf (fun j => sumUp R fun i => R.up (R.up (S.V i * 1) *
      (entry (S.g i j)).g)) k)
    refine (Finset.abs_sum_le_sum_abs _ _).trans (le_trans (Finset.sum_le_sum fun i _ => ?_)
      (sum_le_sumUp R _))
    refine le_trans ?_ (R.le_up _)
    rw [abs_mul, mul_comm]
    refine mul_le_mul ((hq i).trans ?_) (abs_g_le hS (hmem 0 ⟨le_rfl, hh.le⟩) i k) (abs_nonneg _) ?_
    · have := R.le_up (S.V i * 1)
      rwa [mul_one] at this ⊢
    · have := R.le_up (S.V i * 1)
      rw [mul_one] at this ⊢
      exact (hV0 i).trans this
  have hsplit : ∀ s, ∀ k, ∑ i, G i k * (v s i - (W t i - W 0 i) / t) =
      ∑ i, G i k * v s i - ∑ i, G i k * ((W t i - W 0 i) / t) := by
    intro s k
    rw [← Finset.sum_sub_distrib]
    exact Finset.sum_congr rfl fun i _ => by ring
  have hp : 0 ≤ c.pKv := maxOf_nonneg _
  have hpw : 0 ≤ c.pKw := maxOf_nonneg _
  have b1 := distance_average (R := R) (ε := c.pKv + c.pKw) (lam := lam) hS hB ht0 hW (hx.restrict hth) hy h0
    (by linarith) (fun s hs k => by
      rw [hsplit]
      have a1 := hin _ (hvt s hs) k
      have a2 := hinw _ hav k
      have a3 := abs_sub (∑ i, G i k * v s i) (∑ i, G i k * ((W t i - W 0 i) / t))
      linarith) hl hlam j
  have b2 := distance_average (R := R) (ε := 2 * c.pKv) (lam := lam) hS hB ht0 hW (hx.restrict hth) hy h0
    (by linarith) (fun s hs k => by
      rw [hsplit]
      have a1 := hin _ (hvt s hs) k
      have a2 := hin _ hav k
      have a3 := abs_sub (∑ i, G i k * v s i) (∑ i, G i k * ((W t i - W 0 i) / t))
      linarith) hl hlam j
  have hlj : 0 ≤ c.Lj j := by
    obtain ⟨φ', hφ⟩ := hS.f j
    exact (Finset.sum_nonneg fun _ _ => abs_nonneg _).trans
      (sum_le_row_l R j hφ.nodup (hφ.partials _ (hmem 0 ⟨le_rfl, hh.le⟩)))
  have hm := bound_mono hl ht0 hth
  replace b1 := b1.trans (mul_le_mul_of_nonneg_left hm (mul_nonneg hlj (by linarith)))
  replace b2 := b2.trans (mul_le_mul_of_nonneg_left hm (mul_nonneg hlj (by linarith)))
  have hz : 0 < lam * h := by positivity
  have hE : (Real.exp (lam * h) - 1) / (lam * h) ≤ c.expLam := by
    have : c.expLam = expLamOf R exp h c.Lam := rfl
    rw [this, hL, expLamOf, if_pos hl]
    exact le_dexp hexp hz (R.le_up _)
  set E := (Real.exp (lam * h) - 1) / (lam * h) with hEdef
  have hE1 : 1 ≤ E := by
    rw [hEdef, le_div_iff₀ hz]
    have := Real.add_one_le_exp (lam * h)
    linarith
  have hljL : c.Lj j ≤ c.L := le_maxOf (fun j => c.Lj j) j
  have hpos : ∀ (a : ℝ), 0 ≤ a → 0 ≤ R.up a := fun a ha => ha.trans (R.le_up a)
  have hpl : 0 ≤ c.pLjv j := by
    refine (Finset.sum_nonneg fun i _ => ?_).trans (sum_le_sumUp R _)
    exact hpos _ (mul_nonneg (hV0 i) (entry_l_nonneg _ _ le_rfl))
  have hplw : 0 ≤ c.pLjw j := by
    refine (Finset.sum_nonneg fun i _ => ?_).trans (sum_le_sumUp R _)
    exact hpos _ (mul_nonneg (hpos _ (by rw [mul_one]; exact hV0 i)) (entry_l_nonneg _ _ le_rfl))
  have hK : 0 ≤ c.Km := maxOf_nonneg _
  have hpLv : 0 ≤ c.pLv := maxOf_nonneg _
  have hpLw : 0 ≤ c.pLw := maxOf_nonneg _
  -- the error
  obtain ⟨q, hq, rfl⟩ := Option.map_eq_some_iff.1 he
  refine le_min ?_ ?_
  · refine b2.trans ?_
    unfold constantWorst
    have h1 : (E - 1) / (lam * h) ≤ E := by
      rw [div_le_iff₀ hz]
      have h2 := Real.add_one_le_exp (-(lam * h))
      have h3 : Real.exp (-(lam * h)) * Real.exp (lam * h) = 1 := by rw [← Real.exp_add]; simp
      have h4 := Real.exp_pos (lam * h)
      have h5 : E * (lam * h) = Real.exp (lam * h) - 1 := by
        rw [hEdef]
        field_simp
      have h6 : E ≤ Real.exp (lam * h) := by
        rw [hEdef, div_le_iff₀ hz]
        nlinarith
      linarith
    refine le_trans ?_ (R.le_up _)
    have g1 : c.pKv * c.L * E ≤ R.up (R.up (c.pKv * R.up (c.L + c.pLw)) * c.expLam) := by
      refine le_trans ?_ (R.le_up _)
      refine mul_le_mul (le_trans ?_ (R.le_up _)) hE (by linarith) (hpos _ (mul_nonneg hp (hpos _
        (by linarith))))
      refine mul_le_mul_of_nonneg_left (le_trans ?_ (R.le_up _)) hp
      linarith
    have g2 : 0 ≤ R.up (R.up (c.Km + c.pKv) * c.pLv) :=
      hpos _ (mul_nonneg (hpos _ (by linarith)) hpLv)
    have g3 : c.pKv * c.L * E ≤ R.up (R.up (R.up (c.Km + c.pKv) * c.pLv) +
        R.up (R.up (c.pKv * R.up (c.L + c.pLw)) * c.expLam)) := by
      refine le_trans ?_ (R.le_up _)
      linarith
    have g4 : h * h * (c.pKv * c.L * E) ≤ R.up (R.up (h * h) * R.up (R.up (R.up (c.Km + c.pKv) * c.pLv) +
        R.up (R.up (c.pKv * R.up (c.L + c.pLw)) * c.expLam))) := by
      refine le_trans ?_ (R.le_up _)
      refine mul_le_mul (R.le_up _) g3 ?_ (hpos _ (by positivity))
      exact mul_nonneg (mul_nonneg hp (hlj.trans hljL)) (by linarith)
    have g5 : c.Lj j * (2 * c.pKv) * (h ^ 2 * ((E - 1) / (lam * h))) ≤
        h * h * (c.pKv * c.L * E) * 2 := by
      have : c.Lj j * ((E - 1) / (lam * h)) ≤ c.L * E :=
        mul_le_mul hljL h1 (div_nonneg (by linarith) hz.le) (hlj.trans hljL)
      have := mul_le_mul_of_nonneg_left this (show 0 ≤ h * h * c.pKv * 2 by positivity)
      calc _ = h * h * c.pKv * 2 * (c.Lj j * ((E - 1) / (lam * h))) := by ring
        _ ≤ _ := this
        _ = _ := by ring
    exact g5.trans (mul_le_mul_of_nonneg_right g4 (by norm_num))
  · refine b1.trans ?_
    unfold constantComponent at hq
    rw [hL] at hq
    simp only at hq
    by_cases hd : R.down (lam * h) = 0
    · rw [if_pos hd] at hq
      exact absurd hq (by simp)
    rw [if_neg hd] at hq
    rw [← Option.some.inj hq]
    have hd0 : 0 < R.down (lam * h) :=
      lt_of_le_of_ne (R.down_max _ _ R.rep_zero hz.le) (Ne.symm hd)
    have hd1 := R.down_le (lam * h)
    have g1 : c.Lj j * (c.pKv + c.pKw) * (E - 1) ≤
        R.up (R.up (R.up (c.Lj j + c.pLjw j) * R.up (c.pKv + c.pKw)) * R.up (c.expLam - 1)) := by
      refine le_trans ?_ (R.le_up _)
      refine mul_le_mul (le_trans ?_ (R.le_up _)) ((sub_le_sub_right hE 1).trans (R.le_up _))
        (by linarith) (hpos _ (mul_nonneg (hpos _ (by linarith)) (hpos _ (by linarith))))
      refine mul_le_mul (le_trans (by linarith) (R.le_up _)) (R.le_up _) (by linarith)
        (hpos _ (by linarith))
    have g0 : 0 ≤ c.Lj j * (c.pKv + c.pKw) * (E - 1) :=
      mul_nonneg (mul_nonneg hlj (by linarith)) (by linarith)
    have g2 : c.Lj j * (c.pKv + c.pKw) * (E - 1) / (lam * h) ≤
        R.up (R.up (R.up (R.up (c.Lj j + c.pLjw j) * R.up (c.pKv + c.pKw)) * R.up (c.expLam - 1)) /
          R.down (lam * h)) := by
      refine le_trans ?_ (R.le_up _)
      exact div_le_div₀ (g0.trans g1) g1 hd0 hd1
    have g3 : 0 ≤ R.up (R.up (c.pLjv j * R.up (c.Km + c.pKv)) / 2) :=
      hpos _ (div_nonneg (hpos _ (mul_nonneg hpl (hpos _ (by linarith)))) (by norm_num))
    have g4 : c.Lj j * (c.pKv + c.pKw) * (E - 1) / (lam * h) ≤
        R.up (R.up (R.up (c.pLjv j * R.up (c.Km + c.pKv)) / 2) +
        R.up (R.up (R.up (R.up (c.Lj j + c.pLjw j) * R.up (c.pKv + c.pKw)) * R.up (c.expLam - 1)) /
          R.down (lam * h))) := by
      refine le_trans ?_ (R.le_up _)
      linarith
    refine le_trans ?_ (R.le_up _)
    refine le_trans (le_of_eq ?_) (mul_le_mul (R.le_up _) g4 (div_nonneg g0 hz.le)
      (hpos _ (by positivity)))
    show c.Lj j * (c.pKv + c.pKw) * (h ^ 2 * ((E - 1) / (lam * h))) = _
    ring

end Verif.Inclusion
