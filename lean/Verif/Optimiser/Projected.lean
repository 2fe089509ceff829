import Verif.Solver.Existence

/-!
# The projected Newton test

For an equation with fewer components than variables, the Newton step is made in the range of a matrix
`L`.  If it ends in the box whatever the matrix of slopes is, there is a solution in the box.
-/

namespace Verif.Optimiser

open Filter Topology Set Verif.Solver

variable {n k : ℕ}

/-- The linear map of a matrix which need not be square. -/
noncomputable def linR (A : Matrix (Fin k) (Fin n) ℝ) : (Fin n → ℝ) →L[ℝ] (Fin k → ℝ) :=
  LinearMap.toContinuousLinearMap (Matrix.mulVecLin A)

@[simp] theorem linR_apply (A : Matrix (Fin k) (Fin n) ℝ) (v : Fin n → ℝ) : linR A v = A.mulVec v := rfl

/-- If `m - L S⁻¹ f(m)` is in the box `[a,b]` for every matrix `S` of a regular interval matrix which
encloses the derivative of `f` on the box times `L`, then `f` has a zero in the box. -/
theorem projected_newton {f : (Fin n → ℝ) → Fin k → ℝ} {f' : (Fin n → ℝ) → Matrix (Fin k) (Fin n) ℝ}
    {lo hi : Matrix (Fin k) (Fin n) ℝ} {slo shi : Matrix (Fin k) (Fin k) ℝ} {L : Matrix (Fin n) (Fin k) ℝ}
    {a b m : Fin n → ℝ}
    (hd : ∀ x ∈ Icc a b, HasStrictFDerivAt f (linR (f' x)) x)
    (hJ : ∀ x ∈ Icc a b, ∀ i j, lo i j ≤ f' x i j ∧ f' x i j ≤ hi i j)
    (hS : ∀ A : Matrix (Fin k) (Fin n) ℝ, (∀ i j, lo i j ≤ A i j ∧ A i j ≤ hi i j) → A * L ∈ IMat slo shi)
    (hreg : ∀ A ∈ IMat slo shi, A.det ≠ 0) (hm : m ∈ Icc a b)
    (hN : ∀ A ∈ IMat slo shi, m - L.mulVec (A⁻¹.mulVec (f m)) ∈ Icc a b) :
    ∃ z ∈ Icc a b, f z = 0 := by
  have hab : ∀ i, a i ≤ b i := fun i => (hm.1 i).trans (hm.2 i)
  have hA0 := hJ m hm
  set A0 := f' m with hA0def
  let S : ℝ → (Fin n → ℝ) → Fin n → ℝ := fun e x i => sm e (a i) (b i) (x i)
  let h : ℝ → (Fin n → ℝ) → Fin k → ℝ := fun e x => f (S e x) + A0.mulVec (x - S e x)
  let h' : ℝ → (Fin n → ℝ) → Matrix (Fin k) (Fin n) ℝ := fun e x => Matrix.of fun i j =>
    f' (S e x) i j * smd e (a j) (b j) (x j) + A0 i j * (1 - smd e (a j) (b j) (x j))
  let P : (Fin k → ℝ) → Fin n → ℝ := fun w => m + L.mulVec w
  have hSmem : ∀ e, 0 < e → ∀ x, S e x ∈ Icc a b := fun e he x =>
    ⟨fun i => (sm_mem he (hab i) (x i)).1, fun i => (sm_mem he (hab i) (x i)).2⟩
  have hSd : ∀ e, 0 < e → ∀ x, HasStrictFDerivAt (S e)
      (lin (Matrix.diagonal fun j => smd e (a j) (b j) (x j))) x := by
    intro e he x
    rw [hasStrictFDerivAt_pi']
    intro i
    have h1 := (sm_deriv he (a i) (b i) (x i)).hasStrictFDerivAt
    have h2 : HasStrictFDerivAt (fun x : Fin n → ℝ => x i) (ContinuousLinearMap.proj (R := ℝ) i) x :=
      (ContinuousLinearMap.proj (R := ℝ) (φ := fun _ : Fin n => ℝ) i).hasStrictFDerivAt
    refine (h1.comp x h2).congr_fderiv ?_
    ext v
    simp [Matrix.mulVec_diagonal, mul_comm]
  have hhd : ∀ e, 0 < e → ∀ x, HasStrictFDerivAt (h e) (linR (h' e x)) x := by
    intro e he x
    have h1 := (hd (S e x) (hSmem e he x)).comp x (hSd e he x)
    have h2 : HasStrictFDerivAt (fun x => A0.mulVec (x - S e x)) _ x :=
      (linR A0).hasStrictFDerivAt.comp x ((hasStrictFDerivAt_id x).sub (hSd e he x))
    refine (h1.add h2).congr_fderiv ?_
    refine ContinuousLinearMap.ext fun v => ?_
    funext i
    simp only [ContinuousLinearMap.add_apply, ContinuousLinearMap.comp_apply, lin_apply, linR_apply,
      ContinuousLinearMap.sub_apply, ContinuousLinearMap.id_apply, Pi.add_apply, h']
    simp only [Matrix.mulVec, dotProduct, Matrix.of_apply, Pi.sub_apply, ← Finset.sum_add_distrib]
    refine Finset.sum_congr rfl fun j _ => ?_
    have hdj : ∑ k, Matrix.diagonal (fun j => smd e (a j) (b j) (x j)) j k * v k =
        smd e (a j) (b j) (x j) * v j := by
      have := Matrix.mulVec_diagonal (fun j => smd e (a j) (b j) (x j)) v j
      exact this
    rw [hdj]
    ring
  have hhJ : ∀ e, 0 < e → ∀ x i j, lo i j ≤ h' e x i j ∧ h' e x i j ≤ hi i j := by
    intro e he x i j
    obtain ⟨h0, h1⟩ := smd_mem he (hab j) (x j)
    have h2 := hJ _ (hSmem e he x) i j
    have h3 := hA0 i j
    simp only [h', Matrix.of_apply]
    constructor <;> nlinarith
  have hP : ∀ w, HasStrictFDerivAt P (linR L) w := fun w => ((linR L).hasStrictFDerivAt).const_add m
  have hgd : ∀ e, 0 < e → ∀ w, HasStrictFDerivAt (fun w => h e (P w)) (lin (h' e (P w) * L)) w := by
    intro e he w
    refine ((hhd e he (P w)).comp w (hP w)).congr_fderiv ?_
    refine ContinuousLinearMap.ext fun v => ?_
    simp [Matrix.mulVec_mulVec]
  have hgJ : ∀ e, 0 < e → ∀ w, h' e (P w) * L ∈ IMat slo shi := fun e he w => hS _ (hhJ e he (P w))
  have hP0 : P 0 = m := by simp [P]
  -- zeros of the approximations
  have hex : ∀ q : ℕ, ∃ (w : Fin k → ℝ) (A : Matrix (Fin k) (Fin k) ℝ), h (1 / (q + 1 : ℝ)) (P w) = 0 ∧
      A ∈ IMat slo shi ∧ w = -A⁻¹.mulVec (h (1 / (q + 1 : ℝ)) m) := by
    intro q
    have he : (0 : ℝ) < 1 / (q + 1 : ℝ) := by positivity
    obtain ⟨w, hw⟩ := global_zero (hgd _ he) (hgJ _ he) hreg
    obtain ⟨A, hA, e⟩ := slopes (s := Set.univ) convex_univ (fun x _ => (hgd _ he x).hasFDerivAt)
      (fun x _ => hgJ _ he x) (mem_univ w) (mem_univ 0)
    refine ⟨w, A, hw, hA, ?_⟩
    rw [hw, sub_zero, hP0] at e
    rw [e, Matrix.mulVec_mulVec, Matrix.nonsing_inv_mul _ (isUnit_iff_ne_zero.2 (hreg A hA)),
      Matrix.one_mulVec]
    simp
  choose w A hw hA hwA using hex
  obtain ⟨B, hB, φ, hφ, hlim⟩ := (isCompact_iMat slo shi).tendsto_subseq hA
  have hek : Tendsto (fun q : ℕ => 1 / ((q : ℝ) + 1)) atTop (𝓝 0) := tendsto_one_div_add_atTop_nhds_zero_nat
  have hekφ := hek.comp hφ.tendsto_atTop
  have hcl : Continuous fun x : Fin n → ℝ => fun i => cl (a i) (b i) (x i) := by
    refine continuous_pi fun i => ?_
    simp only [cl]
    fun_prop
  have hSlim : ∀ (y : ℕ → Fin n → ℝ) (p : Fin n → ℝ), p ∈ Icc a b → Tendsto y atTop (𝓝 p) →
      Tendsto (fun q => S (1 / ((φ q : ℕ) + 1 : ℝ)) (y q)) atTop (𝓝 p) := by
    intro y p hp hy
    have h1 : Tendsto (fun q i => cl (a i) (b i) (y q i)) atTop (𝓝 p) := by
      have := (hcl.tendsto p).comp hy
      have e : (fun i => cl (a i) (b i) (p i)) = p := funext fun i => cl_mem (hp.1 i) (hp.2 i)
      rw [e] at this
      exact this
    rw [tendsto_pi_nhds] at h1 ⊢
    intro i
    have h2 : Tendsto (fun q => S (1 / ((φ q : ℕ) + 1 : ℝ)) (y q) i - cl (a i) (b i) (y q i)) atTop (𝓝 0) := by
      refine squeeze_zero_norm (fun q => ?_) hekφ
      exact sm_close (by positivity) _ _ _
    have := h2.add (h1 i)
    simpa using this
  have hfc : ∀ x ∈ Icc a b, ContinuousAt f x := fun x hx => (hd x hx).hasFDerivAt.continuousAt
  have hgm : Tendsto (fun q => h (1 / ((φ q : ℕ) + 1 : ℝ)) m) atTop (𝓝 (f m)) := by
    have h1 := hSlim (fun _ => m) m hm tendsto_const_nhds
    have h2 := ((hfc m hm).tendsto.comp h1)
    have h3 : Tendsto (fun q => A0.mulVec (m - S (1 / ((φ q : ℕ) + 1 : ℝ)) m)) atTop (𝓝 (A0.mulVec (m - m))) :=
      ((linR A0).continuous.tendsto _).comp (tendsto_const_nhds.sub h1)
    have := h2.add h3
    simpa using this
  have hwlim : Tendsto (fun q => w (φ q)) atTop (𝓝 (-B⁻¹.mulVec (f m))) := by
    have h1 : ∀ q, w (φ q) = -(A (φ q))⁻¹.mulVec (h (1 / ((φ q : ℕ) + 1 : ℝ)) m) := fun q => hwA (φ q)
    simp only [h1]
    exact (tendsto_inv_mulVec (hreg B hB) hlim hgm).neg
  have hzlim : Tendsto (fun q => P (w (φ q))) atTop (𝓝 (m - L.mulVec (B⁻¹.mulVec (f m)))) := by
    have h1 := ((linR L).continuous.tendsto _).comp hwlim
    have h2 : Tendsto (fun q => m + linR L (w (φ q))) atTop (𝓝 (m + linR L (-B⁻¹.mulVec (f m)))) :=
      tendsto_const_nhds.add h1
    rw [linR_apply, Matrix.mulVec_neg, ← sub_eq_add_neg] at h2
    exact h2
  have hmem := hN B hB
  refine ⟨_, hmem, ?_⟩
  have h1 := hSlim _ _ hmem hzlim
  have h2 := (hfc _ hmem).tendsto.comp h1
  have h3 : Tendsto (fun q => A0.mulVec (P (w (φ q)) - S (1 / ((φ q : ℕ) + 1 : ℝ)) (P (w (φ q))))) atTop
      (𝓝 (A0.mulVec ((m - L.mulVec (B⁻¹.mulVec (f m))) - (m - L.mulVec (B⁻¹.mulVec (f m)))))) :=
    ((linR A0).continuous.tendsto _).comp (hzlim.sub h1)
  have h4 := h2.add h3
  have h5 : Tendsto (fun q => h (1 / ((φ q : ℕ) + 1 : ℝ)) (P (w (φ q)))) atTop
      (𝓝 (f (m - L.mulVec (B⁻¹.mulVec (f m))))) := by
    simpa using h4
  simp only [hw] at h5
  exact (tendsto_nhds_unique tendsto_const_nhds h5).symm

end Verif.Optimiser
