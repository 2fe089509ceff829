import Mathlib.Analysis.Calculus.Deriv.MeanValue
import Mathlib.Analysis.Calculus.Deriv.Prod
import Mathlib.Analysis.Calculus.InverseFunctionTheorem.FDeriv
import Mathlib.Analysis.Calculus.FDeriv.Pi
import Mathlib.Analysis.SpecialFunctions.Sqrt
import Mathlib.Topology.Instances.Matrix
import Mathlib.Topology.Order.IntermediateValue
import Mathlib.Topology.Algebra.Module.FiniteDimension
import Mathlib.LinearAlgebra.Matrix.NonsingularInverse
import Mathlib.Analysis.Normed.Module.FiniteDimension

/-!
# Existence of zeros

The facts of analysis behind the interval Newton and Krawczyk tests, independent of the model: if the
Newton set `m - A⁻¹ f(m)`, for all matrices `A` in an interval matrix enclosing the derivative on a box,
is inside the box, there is a zero in the box; likewise for the Krawczyk set.  Neither uses Brouwer's
theorem.
-/

namespace Verif.Solver

open Set Filter Topology

variable {n : ℕ}

instance : FirstCountableTopology (Matrix (Fin n) (Fin n) ℝ) :=
  inferInstanceAs (FirstCountableTopology (Fin n → Fin n → ℝ))

/-- The linear map of a matrix. -/
noncomputable def lin (A : Matrix (Fin n) (Fin n) ℝ) : (Fin n → ℝ) →L[ℝ] (Fin n → ℝ) :=
  LinearMap.toContinuousLinearMap (Matrix.mulVecLin A)

@[simp] theorem lin_apply (A : Matrix (Fin n) (Fin n) ℝ) (v : Fin n → ℝ) : lin A v = A.mulVec v := rfl

/-- The matrices between `lo` and `hi`. -/
def IMat (lo hi : Matrix (Fin n) (Fin n) ℝ) : Set (Matrix (Fin n) (Fin n) ℝ) :=
  {A | ∀ i j, lo i j ≤ A i j ∧ A i j ≤ hi i j}

theorem isCompact_iMat (lo hi : Matrix (Fin n) (Fin n) ℝ) : IsCompact (IMat lo hi) := by
  have h : IsCompact (Set.univ.pi fun i => Set.univ.pi fun j => Icc (lo i j) (hi i j)) :=
    isCompact_univ_pi fun i => isCompact_univ_pi fun j => isCompact_Icc
  have e : IMat lo hi = (Set.univ.pi fun i => Set.univ.pi fun j => Icc (lo i j) (hi i j)) := by
    ext A; exact ⟨fun h i _ j _ => h i j, fun h i j => h i (mem_univ i) j (mem_univ j)⟩
  rw [e]; exact h

/-! ## Slopes -/

/-- The mean value theorem on an interval, for points in either order. -/
theorem mvt {g g' : ℝ → ℝ} (hg : ∀ t, 0 ≤ t → t ≤ 1 → HasDerivAt g (g' t) t) :
    ∃ t, (0 ≤ t ∧ t ≤ 1) ∧ g 1 - g 0 = g' t := by
  obtain ⟨t, ht, e⟩ := exists_hasDerivAt_eq_slope g g' (zero_lt_one' ℝ)
    (fun t ht => (hg t ht.1 ht.2).continuousAt.continuousWithinAt)
    (fun t ht => hg t ht.1.le ht.2.le)
  exact ⟨t, ⟨ht.1.le, ht.2.le⟩, by simpa using e.symm⟩

/-- Difference quotients are given by matrices in the enclosure of the derivative. -/
theorem slopes {s : Set (Fin n → ℝ)} (hs : Convex ℝ s) {f : (Fin n → ℝ) → Fin n → ℝ}
    {f' : (Fin n → ℝ) → Matrix (Fin n) (Fin n) ℝ} {lo hi : Matrix (Fin n) (Fin n) ℝ}
    (hd : ∀ x ∈ s, HasFDerivAt f (lin (f' x)) x) (hJ : ∀ x ∈ s, f' x ∈ IMat lo hi)
    {x y : Fin n → ℝ} (hx : x ∈ s) (hy : y ∈ s) :
    ∃ A ∈ IMat lo hi, f y - f x = A.mulVec (y - x) := by
  let γ : ℝ → Fin n → ℝ := fun t => x + t • (y - x)
  have hγ : ∀ t, 0 ≤ t → t ≤ 1 → γ t ∈ s := by
    intro t h0 h1
    have := hs hx hy (sub_nonneg.2 h1) h0 (by ring)
    convert this using 1
    simp only [γ]; module
  have hγ' : ∀ t, HasDerivAt γ (y - x) t := by
    intro t
    have := ((hasDerivAt_id t).smul_const (y - x)).const_add x
    rw [one_smul] at this
    exact this
  have key : ∀ i, ∃ t, (0 ≤ t ∧ t ≤ 1) ∧ f y i - f x i = (f' (γ t)).mulVec (y - x) i := by
    intro i
    have := mvt (g := fun t => f (γ t) i) (g' := fun t => (f' (γ t)).mulVec (y - x) i) ?_
    · simpa [γ] using this
    · intro t h0 h1
      have h2 := (hd (γ t) (hγ t h0 h1)).comp_hasDerivAt t (hγ' t)
      exact hasDerivAt_pi.1 h2 i
  choose t ht e using key
  refine ⟨Matrix.of fun i j => f' (γ (t i)) i j, fun i j => hJ _ (hγ _ (ht i).1 (ht i).2) i j, ?_⟩
  funext i
  exact e i

/-! ## Maps of the whole space -/

theorem continuousOn_inv_mulVec {J : Set (Matrix (Fin n) (Fin n) ℝ)} (hJ : ∀ A ∈ J, A.det ≠ 0)
    (v : Fin n → ℝ) : ContinuousOn (fun A : Matrix (Fin n) (Fin n) ℝ => A⁻¹.mulVec v) J := by
  have h : ContinuousOn (fun A : Matrix (Fin n) (Fin n) ℝ => (A.det)⁻¹ • A.adjugate.mulVec v) J := by
    refine ContinuousOn.smul (ContinuousOn.inv₀ ?_ hJ) ?_
    · exact (continuous_id.matrix_det).continuousOn
    · exact ((continuous_id.matrix_adjugate).matrix_mulVec continuous_const).continuousOn
  refine h.congr fun A hA => ?_
  rw [Matrix.inv_def, Ring.inverse_eq_inv', Matrix.smul_mulVec]

theorem tendsto_inv_mulVec {A : ℕ → Matrix (Fin n) (Fin n) ℝ} {B : Matrix (Fin n) (Fin n) ℝ}
    {v : ℕ → Fin n → ℝ} {w : Fin n → ℝ} (hB : B.det ≠ 0) (hA : Tendsto A atTop (𝓝 B))
    (hv : Tendsto v atTop (𝓝 w)) : Tendsto (fun k => (A k)⁻¹.mulVec (v k)) atTop (𝓝 (B⁻¹.mulVec w)) := by
  have h1 : Tendsto (fun k => (A k, v k)) atTop (𝓝 (B, w)) := hA.prodMk_nhds hv
  have hc : Continuous fun p : Matrix (Fin n) (Fin n) ℝ × (Fin n → ℝ) => p.1.adjugate.mulVec p.2 :=
    (continuous_fst.matrix_adjugate).matrix_mulVec continuous_snd
  have hd : Continuous fun p : Matrix (Fin n) (Fin n) ℝ × (Fin n → ℝ) => p.1.det :=
    continuous_fst.matrix_det
  have h2 : ContinuousAt (fun p : Matrix (Fin n) (Fin n) ℝ × (Fin n → ℝ) =>
      (p.1.det)⁻¹ • p.1.adjugate.mulVec p.2) (B, w) :=
    ContinuousAt.smul (hd.continuousAt.inv₀ hB) hc.continuousAt
  have h3 := h2.tendsto.comp h1
  have h4 : ∀ (C : Matrix (Fin n) (Fin n) ℝ) (u : Fin n → ℝ),
      C⁻¹.mulVec u = (C.det)⁻¹ • C.adjugate.mulVec u := fun C u => by
    rw [Matrix.inv_def, Ring.inverse_eq_inv', Matrix.smul_mulVec]
  have h5 : (fun k => (A k)⁻¹.mulVec (v k)) = fun k => ((A k).det)⁻¹ • (A k).adjugate.mulVec (v k) :=
    funext fun k => h4 _ _
  rw [h5, h4]
  exact h3

/-- A map of the whole space whose derivative is in a regular interval matrix has a zero. -/
theorem global_zero {g : (Fin n → ℝ) → Fin n → ℝ} {g' : (Fin n → ℝ) → Matrix (Fin n) (Fin n) ℝ}
    {lo hi : Matrix (Fin n) (Fin n) ℝ} (hd : ∀ x, HasStrictFDerivAt g (lin (g' x)) x)
    (hJ : ∀ x, g' x ∈ IMat lo hi) (hreg : ∀ A ∈ IMat lo hi, A.det ≠ 0) : ∃ z, g z = 0 := by
  have hcont : Continuous g := continuous_iff_continuousAt.2 fun x => (hd x).hasFDerivAt.continuousAt
  let T : Set ℝ := {t | ∃ x, g x = (1 - t) • g 0}
  let S : Set (Fin n → ℝ) := (fun p : ℝ × Matrix (Fin n) (Fin n) ℝ => (-p.1) • p.2⁻¹.mulVec (g 0)) ''
    (Icc 0 1 ×ˢ IMat lo hi)
  have hS : IsCompact S := by
    refine (isCompact_Icc.prod (isCompact_iMat lo hi)).image_of_continuousOn ?_
    refine ContinuousOn.smul (continuous_fst.neg).continuousOn ?_
    exact (continuousOn_inv_mulVec hreg (g 0)).comp continuous_snd.continuousOn fun p hp => hp.2
  have hxS : ∀ t ∈ Icc (0 : ℝ) 1, ∀ x, g x = (1 - t) • g 0 → x ∈ S := by
    intro t ht x hx
    obtain ⟨A, hA, e⟩ := slopes (s := Set.univ) convex_univ (fun x _ => (hd x).hasFDerivAt)
      (fun x _ => hJ x) (mem_univ 0) (mem_univ x)
    refine ⟨(t, A), ⟨ht, hA⟩, ?_⟩
    have hu : IsUnit A.det := isUnit_iff_ne_zero.2 (hreg A hA)
    have e2 : A⁻¹.mulVec (g x - g 0) = x := by
      rw [e, sub_zero, Matrix.mulVec_mulVec, Matrix.nonsing_inv_mul _ hu, Matrix.one_mulVec]
    show (-t) • A⁻¹.mulVec (g 0) = x
    rw [← e2, hx]
    rw [← Matrix.mulVec_smul]
    congr 1
    module
  have hclosed : IsClosed (T ∩ Icc 0 1) := by
    have hK : IsCompact {p : ℝ × (Fin n → ℝ) | p ∈ Icc (0 : ℝ) 1 ×ˢ S ∧ g p.2 = (1 - p.1) • g 0} := by
      refine IsCompact.inter_right (s := Icc (0 : ℝ) 1 ×ˢ S) (t := {p | g p.2 = (1 - p.1) • g 0})
        (isCompact_Icc.prod hS) ?_
      exact isClosed_eq (hcont.comp continuous_snd)
        ((continuous_const.sub continuous_fst).smul continuous_const)
    have e : T ∩ Icc 0 1 =
        Prod.fst '' {p : ℝ × (Fin n → ℝ) | p ∈ Icc (0 : ℝ) 1 ×ˢ S ∧ g p.2 = (1 - p.1) • g 0} := by
      ext t
      constructor
      · rintro ⟨⟨x, hx⟩, ht⟩
        exact ⟨(t, x), ⟨⟨ht, hxS t ht x hx⟩, hx⟩, rfl⟩
      · rintro ⟨⟨t', x⟩, ⟨⟨ht, -⟩, hx⟩, rfl⟩
        exact ⟨⟨x, hx⟩, ht⟩
    rw [e]
    exact (hK.image continuous_fst).isClosed
  have hopen : ∀ t ∈ T ∩ Ico 0 1, T ∈ 𝓝[>] t := by
    rintro t ⟨⟨x, hx⟩, -⟩
    have hsurj : (lin (g' x)).range = ⊤ := by
      rw [LinearMap.range_eq_top]
      intro v
      refine ⟨(g' x)⁻¹.mulVec v, ?_⟩
      show (g' x).mulVec ((g' x)⁻¹.mulVec v) = v
      rw [Matrix.mulVec_mulVec, Matrix.mul_nonsing_inv _ (isUnit_iff_ne_zero.2 (hreg _ (hJ x))),
        Matrix.one_mulVec]
    have h1 := (hd x).map_nhds_eq_of_surj hsurj
    have h2 : range g ∈ 𝓝 (g x) := by
      rw [← h1, mem_map]
      exact Filter.mem_of_superset Filter.univ_mem fun y _ => ⟨y, rfl⟩
    rw [hx] at h2
    have h3 : Continuous fun s : ℝ => (1 - s) • g 0 := (continuous_const.sub continuous_id).smul continuous_const
    refine nhdsWithin_le_nhds ?_
    filter_upwards [h3.continuousAt.preimage_mem_nhds h2] with s hs
    obtain ⟨y, hy⟩ := hs
    exact ⟨y, hy⟩
  have h01 := hclosed.Icc_subset_of_forall_mem_nhdsWithin ⟨0, by simp⟩ hopen
  obtain ⟨z, hz⟩ := h01 (right_mem_Icc.2 zero_le_one)
  exact ⟨z, by simpa using hz⟩

/-! ## A smooth map onto an interval -/

/-- The nearest point of `[a,b]`. -/
noncomputable def cl (a b x : ℝ) : ℝ := (|x - a| - |x - b| + (a + b)) / 2

/-- A smooth approximation of `cl`. -/
noncomputable def sm (e a b x : ℝ) : ℝ :=
  (√((x - a) ^ 2 + e ^ 2) - √((x - b) ^ 2 + e ^ 2) + (a + b)) / 2

/-- The derivative of `sm`. -/
noncomputable def smd (e a b x : ℝ) : ℝ :=
  ((x - a) / √((x - a) ^ 2 + e ^ 2) - (x - b) / √((x - b) ^ 2 + e ^ 2)) / 2

theorem cl_mem {a b x : ℝ} (h1 : a ≤ x) (h2 : x ≤ b) : cl a b x = x := by
  rw [cl, abs_of_nonneg (by linarith), abs_of_nonpos (by linarith)]; ring

theorem sqrt_bounds {e : ℝ} (he : 0 < e) (u : ℝ) : |u| ≤ √(u ^ 2 + e ^ 2) ∧ √(u ^ 2 + e ^ 2) ≤ |u| + e := by
  constructor
  · exact Real.abs_le_sqrt (by nlinarith)
  · rw [Real.sqrt_le_left (by positivity)]
    nlinarith [sq_abs u, abs_nonneg u]

theorem sm_close {e : ℝ} (he : 0 < e) (a b x : ℝ) : |sm e a b x - cl a b x| ≤ e := by
  obtain ⟨h1, h2⟩ := sqrt_bounds he (x - a)
  obtain ⟨h3, h4⟩ := sqrt_bounds he (x - b)
  rw [sm, cl, abs_le]
  constructor <;> linarith

theorem sqrt_lip {e : ℝ} (he : 0 < e) {u v : ℝ} (h : v ≤ u) :
    |√(u ^ 2 + e ^ 2) - √(v ^ 2 + e ^ 2)| ≤ u - v := by
  have hu : 0 < √(u ^ 2 + e ^ 2) := Real.sqrt_pos.2 (by positivity)
  have hv : 0 < √(v ^ 2 + e ^ 2) := Real.sqrt_pos.2 (by positivity)
  have su := Real.sq_sqrt (show 0 ≤ u ^ 2 + e ^ 2 by positivity)
  have sv := Real.sq_sqrt (show 0 ≤ v ^ 2 + e ^ 2 by positivity)
  have h1 := (sqrt_bounds he u).1
  have h2 := (sqrt_bounds he v).1
  have hab : |u + v| ≤ √(u ^ 2 + e ^ 2) + √(v ^ 2 + e ^ 2) := (abs_add_le u v).trans (add_le_add h1 h2)
  have e1 : (√(u ^ 2 + e ^ 2) - √(v ^ 2 + e ^ 2)) * (√(u ^ 2 + e ^ 2) + √(v ^ 2 + e ^ 2)) =
      (u - v) * (u + v) := by nlinarith
  have e2 : |√(u ^ 2 + e ^ 2) - √(v ^ 2 + e ^ 2)| * (√(u ^ 2 + e ^ 2) + √(v ^ 2 + e ^ 2)) =
      (u - v) * |u + v| := by
    have := congrArg abs e1
    rwa [abs_mul, abs_mul, abs_of_nonneg (sub_nonneg.2 h), abs_of_pos (add_pos hu hv)] at this
  refine le_of_mul_le_mul_right ?_ (add_pos hu hv)
  rw [e2]
  exact mul_le_mul_of_nonneg_left hab (sub_nonneg.2 h)

theorem sm_mem {e a b : ℝ} (he : 0 < e) (h : a ≤ b) (x : ℝ) : a ≤ sm e a b x ∧ sm e a b x ≤ b := by
  have := abs_le.1 (sqrt_lip he (show x - b ≤ x - a by linarith))
  rw [sm]
  constructor <;> linarith [this.1, this.2]

theorem ratio_mono {e : ℝ} (he : 0 < e) {u v : ℝ} (h : v ≤ u) :
    v / √(v ^ 2 + e ^ 2) ≤ u / √(u ^ 2 + e ^ 2) := by
  have hu : 0 < √(u ^ 2 + e ^ 2) := Real.sqrt_pos.2 (by positivity)
  have hv : 0 < √(v ^ 2 + e ^ 2) := Real.sqrt_pos.2 (by positivity)
  have su := Real.sq_sqrt (show 0 ≤ u ^ 2 + e ^ 2 by positivity)
  have sv := Real.sq_sqrt (show 0 ≤ v ^ 2 + e ^ 2 by positivity)
  rw [div_le_div_iff₀ hv hu]
  rcases le_or_gt 0 v with h0 | h0
  · refine (pow_le_pow_iff_left₀ (mul_nonneg h0 hu.le) (mul_nonneg (h0.trans h) hv.le) two_ne_zero).1 ?_
    rw [mul_pow, mul_pow, su, sv]
    nlinarith [mul_le_mul h h h0 (h0.trans h)]
  · rcases le_or_gt 0 u with h1 | h1
    · exact (mul_nonpos_of_nonpos_of_nonneg h0.le hu.le).trans (mul_nonneg h1 hv.le)
    · have : (-u) * √(v ^ 2 + e ^ 2) ≤ (-v) * √(u ^ 2 + e ^ 2) := by
        refine (pow_le_pow_iff_left₀ (mul_nonneg (by linarith) hv.le) (mul_nonneg (by linarith) hu.le) two_ne_zero).1 ?_
        rw [mul_pow, mul_pow, su, sv]
        nlinarith [mul_le_mul (neg_le_neg h) (neg_le_neg h) (by linarith) (by linarith)]
      linarith

theorem ratio_le {e : ℝ} (he : 0 < e) (u : ℝ) : |u / √(u ^ 2 + e ^ 2)| ≤ 1 := by
  have hu : 0 < √(u ^ 2 + e ^ 2) := Real.sqrt_pos.2 (by positivity)
  rw [abs_div, abs_of_pos hu, div_le_one hu]
  exact (sqrt_bounds he u).1

theorem smd_mem {e a b : ℝ} (he : 0 < e) (h : a ≤ b) (x : ℝ) : 0 ≤ smd e a b x ∧ smd e a b x ≤ 1 := by
  have h1 := ratio_mono he (show x - b ≤ x - a by linarith)
  have h2 := abs_le.1 (ratio_le he (x - a))
  have h3 := abs_le.1 (ratio_le he (x - b))
  rw [smd]
  constructor <;> linarith [h2.2, h3.1]

theorem sm_deriv {e : ℝ} (he : 0 < e) (a b x : ℝ) : HasStrictDerivAt (sm e a b) (smd e a b x) x := by
  have h : ∀ c, HasStrictDerivAt (fun x => √((x - c) ^ 2 + e ^ 2)) ((x - c) / √((x - c) ^ 2 + e ^ 2)) x := by
    intro c
    have h1 : HasStrictDerivAt (fun x => (x - c) ^ 2 + e ^ 2) (2 * (x - c)) x := by
      have h0 : HasStrictDerivAt (fun x => x - c) 1 x := (hasStrictDerivAt_id x).sub_const c
      have := (h0.mul h0).add_const (e ^ 2)
      refine (this.congr_deriv (by ring)).congr_of_eventuallyEq ?_
      exact Eventually.of_forall fun y => by simp [sq]
    have h2 := h1.sqrt (by positivity)
    refine h2.congr_deriv ?_
    rw [mul_div_mul_left _ _ two_ne_zero]
  exact (((h a).sub (h b)).add_const (a + b)).div_const 2

/-! ## The Newton test -/

/-- If `m - A⁻¹ f(m)` is in the box `[a,b]` for every matrix `A` of a regular interval matrix enclosing
the derivative of `f` on the box, then `f` has a zero in the box, and it is one of these points. -/
theorem newton_exists {f : (Fin n → ℝ) → Fin n → ℝ} {f' : (Fin n → ℝ) → Matrix (Fin n) (Fin n) ℝ}
    {lo hi : Matrix (Fin n) (Fin n) ℝ} {a b m : Fin n → ℝ}
    (hd : ∀ x ∈ Icc a b, HasStrictFDerivAt f (lin (f' x)) x) (hJ : ∀ x ∈ Icc a b, f' x ∈ IMat lo hi)
    (hreg : ∀ A ∈ IMat lo hi, A.det ≠ 0) (hm : m ∈ Icc a b)
    (hN : ∀ A ∈ IMat lo hi, m - A⁻¹.mulVec (f m) ∈ Icc a b) :
    ∃ z ∈ Icc a b, f z = 0 ∧ ∃ A ∈ IMat lo hi, z = m - A⁻¹.mulVec (f m) := by
  have hab : ∀ i, a i ≤ b i := fun i => (hm.1 i).trans (hm.2 i)
  have hA0 := hJ m hm
  set A0 := f' m with hA0def
  let S : ℝ → (Fin n → ℝ) → Fin n → ℝ := fun e x i => sm e (a i) (b i) (x i)
  let g : ℝ → (Fin n → ℝ) → Fin n → ℝ := fun e x => f (S e x) + A0.mulVec (x - S e x)
  let g' : ℝ → (Fin n → ℝ) → Matrix (Fin n) (Fin n) ℝ := fun e x => Matrix.of fun i j =>
    f' (S e x) i j * smd e (a j) (b j) (x j) + A0 i j * (1 - smd e (a j) (b j) (x j))
  have hSmem : ∀ e, 0 < e → ∀ x, S e x ∈ Icc a b := fun e he x =>
    ⟨fun i => (sm_mem he (hab i) (x i)).1, fun i => (sm_mem he (hab i) (x i)).2⟩
  have hSd : ∀ e, 0 < e → ∀ x, HasStrictFDerivAt (S e)
      (lin (Matrix.diagonal fun j => smd e (a j) (b j) (x j))) x := by
    intro e he x
    rw [hasStrictFDerivAt_pi']
    intro i
    have h1 := (sm_deriv he (a i) (b i) (x i)).hasStrictFDerivAt
    have h2 : HasStrictFDerivAt (fun x : Fin n → ℝ => x i) (ContinuousLinearMap.proj (R := ℝ) i) x :=
      (ContinuousLinearMap.proj (R := ℝ) (φ := fun _ : Fin n => ℝ) i).hasStrictFDerivAt
    refine (h1.comp x h2).congr_fderiv ?_
    ext v
    simp [Matrix.mulVec_diagonal, mul_comm]
  have hgd : ∀ e, 0 < e → ∀ x, HasStrictFDerivAt (g e) (lin (g' e x)) x := by
    intro e he x
    have h1 := (hd (S e x) (hSmem e he x)).comp x (hSd e he x)
    have h2 : HasStrictFDerivAt (fun x => A0.mulVec (x - S e x)) _ x :=
      (lin A0).hasStrictFDerivAt.comp x ((hasStrictFDerivAt_id x).sub (hSd e he x))
    refine (h1.add h2).congr_fderiv ?_
    refine ContinuousLinearMap.ext fun v => ?_
    funext i
    simp only [ContinuousLinearMap.add_apply, ContinuousLinearMap.comp_apply, lin_apply,
      ContinuousLinearMap.sub_apply, ContinuousLinearMap.id_apply, Pi.add_apply, g']
    simp only [Matrix.mulVec, dotProduct, Matrix.of_apply, Pi.sub_apply, ← Finset.sum_add_distrib]
    refine Finset.sum_congr rfl fun j _ => ?_
    have hdj : ∑ k, Matrix.diagonal (fun j => smd e (a j) (b j) (x j)) j k * v k =
        smd e (a j) (b j) (x j) * v j := by
      have := Matrix.mulVec_diagonal (fun j => smd e (a j) (b j) (x j)) v j
      exact this
    rw [hdj]
    ring
  have hgJ : ∀ e, 0 < e → ∀ x, g' e x ∈ IMat lo hi := by
    intro e he x i j
    obtain ⟨h0, h1⟩ := smd_mem he (hab j) (x j)
    have h2 := hJ _ (hSmem e he x) i j
    have h3 := hA0 i j
    simp only [g', Matrix.of_apply]
    constructor <;> nlinarith
  -- zeros of the approximations
  have hex : ∀ k : ℕ, ∃ (z : Fin n → ℝ) (A : Matrix (Fin n) (Fin n) ℝ), g (1 / (k + 1 : ℝ)) z = 0 ∧
      A ∈ IMat lo hi ∧ z = m - A⁻¹.mulVec (g (1 / (k + 1 : ℝ)) m) := by
    intro k
    have he : (0 : ℝ) < 1 / (k + 1 : ℝ) := by positivity
    obtain ⟨z, hz⟩ := global_zero (hgd _ he) (hgJ _ he) hreg
    obtain ⟨A, hA, e⟩ := slopes (s := Set.univ) convex_univ (fun x _ => (hgd _ he x).hasFDerivAt)
      (fun x _ => hgJ _ he x) (mem_univ z) (mem_univ m)
    refine ⟨z, A, hz, hA, ?_⟩
    rw [hz, sub_zero] at e
    rw [e, Matrix.mulVec_mulVec, Matrix.nonsing_inv_mul _ (isUnit_iff_ne_zero.2 (hreg A hA)),
      Matrix.one_mulVec, sub_sub_cancel]
  choose z A hz hA hzA using hex
  obtain ⟨B, hB, φ, hφ, hlim⟩ := (isCompact_iMat lo hi).tendsto_subseq hA
  -- the approximations converge
  have hek : Tendsto (fun k : ℕ => 1 / ((k : ℝ) + 1)) atTop (𝓝 0) := tendsto_one_div_add_atTop_nhds_zero_nat
  have hekφ := hek.comp hφ.tendsto_atTop
  have hcl : Continuous fun x : Fin n → ℝ => fun i => cl (a i) (b i) (x i) := by
    refine continuous_pi fun i => ?_
    simp only [cl]
    fun_prop
  have hSlim : ∀ (y : ℕ → Fin n → ℝ) (p : Fin n → ℝ), p ∈ Icc a b → Tendsto y atTop (𝓝 p) →
      Tendsto (fun k => S (1 / ((φ k : ℕ) + 1 : ℝ)) (y k)) atTop (𝓝 p) := by
    intro y p hp hy
    have h1 : Tendsto (fun k i => cl (a i) (b i) (y k i)) atTop (𝓝 p) := by
      have := (hcl.tendsto p).comp hy
      have e : (fun i => cl (a i) (b i) (p i)) = p := funext fun i => cl_mem (hp.1 i) (hp.2 i)
      rw [e] at this
      exact this
    rw [tendsto_pi_nhds] at h1 ⊢
    intro i
    have h2 : Tendsto (fun k => S (1 / ((φ k : ℕ) + 1 : ℝ)) (y k) i - cl (a i) (b i) (y k i)) atTop (𝓝 0) := by
      refine squeeze_zero_norm (fun k => ?_) hekφ
      exact sm_close (by positivity) _ _ _
    have := h2.add (h1 i)
    simpa using this
  have hfc : ∀ x ∈ Icc a b, ContinuousAt f x := fun x hx => (hd x hx).hasFDerivAt.continuousAt
  have hgm : Tendsto (fun k => g (1 / ((φ k : ℕ) + 1 : ℝ)) m) atTop (𝓝 (f m)) := by
    have h1 := hSlim (fun _ => m) m hm tendsto_const_nhds
    have h2 := ((hfc m hm).tendsto.comp h1)
    have h3 : Tendsto (fun k => A0.mulVec (m - S (1 / ((φ k : ℕ) + 1 : ℝ)) m)) atTop (𝓝 (A0.mulVec (m - m))) :=
      ((lin A0).continuous.tendsto _).comp (tendsto_const_nhds.sub h1)
    have := h2.add h3
    simpa using this
  have hzlim : Tendsto (fun k => z (φ k)) atTop (𝓝 (m - B⁻¹.mulVec (f m))) := by
    have h1 : ∀ k, z (φ k) = m - (A (φ k))⁻¹.mulVec (g (1 / ((φ k : ℕ) + 1 : ℝ)) m) := fun k => hzA (φ k)
    simp only [h1]
    refine tendsto_const_nhds.sub ?_
    exact tendsto_inv_mulVec (hreg B hB) hlim hgm
  have hmem := hN B hB
  refine ⟨_, hmem, ?_, B, hB, rfl⟩
  have h1 := hSlim _ _ hmem hzlim
  have h2 := (hfc _ hmem).tendsto.comp h1
  have h3 : Tendsto (fun k => A0.mulVec (z (φ k) - S (1 / ((φ k : ℕ) + 1 : ℝ)) (z (φ k)))) atTop
      (𝓝 (A0.mulVec ((m - B⁻¹.mulVec (f m)) - (m - B⁻¹.mulVec (f m))))) :=
    ((lin A0).continuous.tendsto _).comp (hzlim.sub h1)
  have h4 := h2.add h3
  have h5 : Tendsto (fun k => g (1 / ((φ k : ℕ) + 1 : ℝ)) (z (φ k))) atTop (𝓝 (f (m - B⁻¹.mulVec (f m)))) := by
    simpa using h4
  simp only [hz] at h5
  exact (tendsto_nhds_unique tendsto_const_nhds h5).symm

/-! ## The Krawczyk test -/

/-- A map of a box into itself that does not expand distances, measured in each coordinate relative to
the width of the box, has a fixed point. -/
theorem fixed_point {k : (Fin n → ℝ) → Fin n → ℝ} {a b m : Fin n → ℝ} (hm : m ∈ Icc a b)
    (hc : ContinuousOn k (Icc a b)) (hk : ∀ x ∈ Icc a b, k x ∈ Icc a b)
    (hl : ∀ x ∈ Icc a b, ∀ y ∈ Icc a b, ∀ c, 0 ≤ c → (∀ i, |x i - y i| ≤ c * (b i - a i)) →
      ∀ i, |k x i - k y i| ≤ c * (b i - a i)) : ∃ z ∈ Icc a b, k z = z := by
  have hw : ∀ i, 0 ≤ b i - a i := fun i => sub_nonneg.2 ((hm.1 i).trans (hm.2 i))
  have hdiff : ∀ x ∈ Icc a b, ∀ y ∈ Icc a b, ∀ i, |x i - y i| ≤ b i - a i := by
    intro x hx y hy i
    rw [abs_le]
    constructor <;> linarith [hx.1 i, hx.2 i, hy.1 i, hy.2 i]
  -- the displacement relative to the widths
  let φ : ℝ → (Fin n → ℝ) → Fin n → ℝ := fun t x i => ((1 - t) * m i + t * k x i - x i) / (b i - a i)
  have hkt : ∀ t, 0 ≤ t → t ≤ 1 → ∀ x ∈ Icc a b, (fun i => (1 - t) * m i + t * k x i) ∈ Icc a b := by
    intro t h0 h1 x hx
    have := hk x hx
    constructor <;> intro i
    · show a i ≤ (1 - t) * m i + t * k x i
      nlinarith [hm.1 i, this.1 i]
    · show (1 - t) * m i + t * k x i ≤ b i
      nlinarith [hm.2 i, this.2 i]
  have hφc : ∀ t, ContinuousOn (fun x => ‖φ t x‖) (Icc a b) := by
    intro t
    refine ContinuousOn.norm ?_
    rw [continuousOn_pi] at hc ⊢
    intro i
    exact ContinuousOn.div_const (((hc i).const_smul t).const_add ((1 - t) * m i) |>.sub
      (continuous_apply i).continuousOn) _
  have hle : ∀ t, 0 ≤ t → t ≤ 1 → ∀ x ∈ Icc a b, ∀ i,
      |(1 - t) * m i + t * k x i - x i| ≤ ‖φ t x‖ * (b i - a i) := by
    intro t h0 h1 x hx i
    have h2 := norm_le_pi_norm (φ t x) i
    rcases (hw i).eq_or_lt with h | h
    · have := hdiff _ (hkt t h0 h1 x hx) x hx i
      rw [← h] at this ⊢
      simpa using this
    · rw [Real.norm_eq_abs, abs_div, abs_of_pos h, div_le_iff₀ h] at h2
      exact h2
  have hge : ∀ t c, 0 ≤ c → ∀ x, (∀ i, |(1 - t) * m i + t * k x i - x i| ≤ c * (b i - a i)) →
      ‖φ t x‖ ≤ c := by
    intro t c hc x h
    rw [pi_norm_le_iff_of_nonneg hc]
    intro i
    rw [Real.norm_eq_abs, abs_div, abs_of_nonneg (hw i)]
    rcases (hw i).eq_or_lt with h2 | h2
    · rw [← h2]; simpa using hc
    · rw [div_le_iff₀ h2]; exact h i
  -- fixed points of the contractions towards m
  have hfix : ∀ t, 0 ≤ t → t < 1 → ∃ x ∈ Icc a b, ∀ i, (1 - t) * m i + t * k x i = x i := by
    intro t h0 h1
    obtain ⟨x, hx, hmin⟩ := isCompact_Icc.exists_isMinOn ⟨m, hm⟩ (hφc t)
    have h2 := hle t h0 h1.le x hx
    set c := ‖φ t x‖
    have hc0 : 0 ≤ c := norm_nonneg _
    set y : Fin n → ℝ := fun i => (1 - t) * m i + t * k x i
    have hy : y ∈ Icc a b := hkt t h0 h1.le x hx
    have h3 := hl y hy x hx c hc0 h2
    have h4 : ‖φ t y‖ ≤ t * c := by
      refine hge t _ (mul_nonneg h0 hc0) y fun i => ?_
      have e : (1 - t) * m i + t * k y i - y i = t * (k y i - k x i) := by simp only [y]; ring
      rw [e, abs_mul, abs_of_nonneg h0, mul_assoc]
      exact mul_le_mul_of_nonneg_left (h3 i) h0
    have h5 : c ≤ ‖φ t y‖ := hmin hy
    have h6 : c = 0 := by nlinarith
    refine ⟨x, hx, fun i => ?_⟩
    have := h2 i
    rw [h6, zero_mul] at this
    linarith [abs_nonpos_iff.1 this]
  obtain ⟨z, hz, hmin⟩ := isCompact_Icc.exists_isMinOn ⟨m, hm⟩ (hφc 1)
  have hsmall : ∀ t, 0 ≤ t → t < 1 → ‖φ 1 z‖ ≤ 1 - t := by
    intro t h0 h1
    obtain ⟨x, hx, e⟩ := hfix t h0 h1
    refine (hmin hx).trans (hge 1 _ (by linarith) x fun i => ?_)
    have e2 : (1 - 1) * m i + 1 * k x i - x i = (1 - t) * (k x i - m i) := by
      rw [← e i]; ring
    rw [e2, abs_mul, abs_of_pos (sub_pos.2 h1)]
    exact mul_le_mul_of_nonneg_left (hdiff _ (hk x hx) _ hm i) (by linarith)
  have h0 : ‖φ 1 z‖ = 0 := by
    refine le_antisymm (le_of_forall_pos_lt_add fun e he => ?_) (norm_nonneg _)
    rcases le_or_gt 1 e with h | h
    · have := hsmall (1 / 2) (by norm_num) (by norm_num)
      linarith
    · have := hsmall (1 - e / 2) (by linarith) (by linarith)
      linarith
  refine ⟨z, hz, funext fun i => ?_⟩
  have := hle 1 zero_le_one le_rfl z hz i
  rw [h0, zero_mul] at this
  linarith [abs_nonpos_iff.1 this]

/-- If `m - M f(m) + (I - M A)(y - m)` is in the box `[a,b]` for every matrix `A` of an interval matrix
enclosing the slopes of `f` and every `y` in the box, for an invertible matrix `M`, then `f` has a zero
in the box. -/
theorem krawczyk_exists {f : (Fin n → ℝ) → Fin n → ℝ} {lo hi M : Matrix (Fin n) (Fin n) ℝ}
    {a b m : Fin n → ℝ} (hc : ContinuousOn f (Icc a b))
    (hs : ∀ x ∈ Icc a b, ∀ y ∈ Icc a b, ∃ A ∈ IMat lo hi, f y - f x = A.mulVec (y - x))
    (hM : M.det ≠ 0) (hm : m ∈ Icc a b)
    (hK : ∀ A ∈ IMat lo hi, ∀ y ∈ Icc a b,
      m - M.mulVec (f m) + (1 - M * A).mulVec (y - m) ∈ Icc a b) :
    ∃ z ∈ Icc a b, f z = 0 := by
  let k : (Fin n → ℝ) → Fin n → ℝ := fun x => x - M.mulVec (f x)
  have hkd : ∀ x ∈ Icc a b, ∀ y ∈ Icc a b, ∃ A ∈ IMat lo hi, k y - k x = (1 - M * A).mulVec (y - x) := by
    intro x hx y hy
    obtain ⟨A, hA, e⟩ := hs x hx y hy
    refine ⟨A, hA, ?_⟩
    rw [Matrix.sub_mulVec, Matrix.one_mulVec, ← Matrix.mulVec_mulVec, ← e, Matrix.mulVec_sub]
    simp only [k]; abel
  have hk : ∀ x ∈ Icc a b, k x ∈ Icc a b := by
    intro x hx
    obtain ⟨A, hA, e⟩ := hkd m hm x hx
    have := hK A hA x hx
    rw [← e] at this
    simpa [k] using this
  have hrow : ∀ A ∈ IMat lo hi, ∀ i, ∑ j, |(1 - M * A) i j| * (b j - a j) ≤ b i - a i := by
    intro A hA i
    set B := 1 - M * A
    have hab : ∀ j, a j ≤ b j := fun j => (hm.1 j).trans (hm.2 j)
    have h1 := hK A hA (fun j => if 0 ≤ B i j then b j else a j)
      ⟨fun j => by dsimp only; split_ifs <;> simp [hab j], fun j => by dsimp only; split_ifs <;> simp [hab j]⟩
    have h2 := hK A hA (fun j => if 0 ≤ B i j then a j else b j)
      ⟨fun j => by dsimp only; split_ifs <;> simp [hab j], fun j => by dsimp only; split_ifs <;> simp [hab j]⟩
    have h3 := h1.2 i
    have h4 := h2.1 i
    simp only [Pi.add_apply, Matrix.mulVec, dotProduct, Pi.sub_apply] at h3 h4
    have e : ∑ j, |B i j| * (b j - a j) =
        ∑ j, B i j * ((if 0 ≤ B i j then b j else a j) - m j) -
          ∑ j, B i j * ((if 0 ≤ B i j then a j else b j) - m j) := by
      rw [← Finset.sum_sub_distrib]
      refine Finset.sum_congr rfl fun j _ => ?_
      split_ifs with h
      · rw [abs_of_nonneg h]; ring
      · rw [abs_of_neg (not_le.1 h)]; ring
    rw [e]
    linarith
  have hkc : ContinuousOn k (Icc a b) := continuousOn_id.sub ((lin M).continuous.comp_continuousOn hc)
  have hkl : ∀ x ∈ Icc a b, ∀ y ∈ Icc a b, ∀ c, 0 ≤ c → (∀ i, |x i - y i| ≤ c * (b i - a i)) →
      ∀ i, |k x i - k y i| ≤ c * (b i - a i) := by
    intro x hx y hy c h0 hxy i
    obtain ⟨A, hA, e⟩ := hkd y hy x hx
    have e1 : k x i - k y i = ∑ j, (1 - M * A) i j * (x j - y j) := congrFun e i
    rw [e1]
    refine (Finset.abs_sum_le_sum_abs _ _).trans ?_
    refine le_trans ?_ (mul_le_mul_of_nonneg_left (hrow A hA i) h0)
    rw [Finset.mul_sum]
    refine Finset.sum_le_sum fun j _ => ?_
    rw [abs_mul]
    have := mul_le_mul_of_nonneg_left (hxy j) (abs_nonneg ((1 - M * A) i j))
    linarith
  obtain ⟨z, hz, e⟩ := fixed_point hm hkc hk hkl
  refine ⟨z, hz, ?_⟩
  have h0 : M.mulVec (f z) = 0 := by simpa [k] using e
  have := congrArg (fun v => M⁻¹.mulVec v) h0
  simpa [Matrix.mulVec_mulVec, Matrix.nonsing_inv_mul _ (isUnit_iff_ne_zero.2 hM)] using this

end Verif.Solver
