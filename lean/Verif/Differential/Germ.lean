import Verif.Differential.Series
import Mathlib.Analysis.Asymptotics.Lemmas
import Mathlib.Analysis.Calculus.FDeriv.Basic
import Mathlib.Topology.Algebra.MvPolynomial
import Mathlib.RingTheory.MvPolynomial.Homogeneous
import Mathlib.Algebra.MvPolynomial.Funext
import Mathlib.Analysis.Normed.Module.FiniteDimension
import Mathlib.LinearAlgebra.Matrix.ToLin
/-!
# C44: differentials are Taylor polynomials of real functions
-/
namespace Verif.Differential
open Verif.Expansion MvPolynomial Filter Topology Asymptotics

variable {n m : Nat}

/-- The polynomial agrees with the function of the displacement `h` up to `O(‖h‖^(d+1))`. -/
def Germ (d : Nat) (F : (Fin n → ℝ) → ℝ) (p : MvPolynomial (Fin n) ℝ) : Prop :=
  (fun h => F h - eval h p) =O[𝓝 0] fun h => ‖h‖ ^ (d + 1)

/-! ### Polynomials near zero -/

theorem eval_isBigO {k : Nat} {p : MvPolynomial (Fin n) ℝ} (hp : Ord k p) :
    (fun h => eval h p) =O[𝓝 0] fun h : Fin n → ℝ => ‖h‖ ^ k := by
  have hmon : ∀ f ∈ p.support, (fun h : Fin n → ℝ => p.coeff f * ∏ i, h i ^ f i) =O[𝓝 0]
      fun h => ‖h‖ ^ k := by
    intro f hf
    have hk : k ≤ f.degree := by
      by_contra hc
      exact mem_support_iff.1 hf (hp f (by omega))
    refine IsBigO.of_bound |p.coeff f| ?_
    filter_upwards [Metric.ball_mem_nhds (0 : Fin n → ℝ) one_pos] with h hh
    have h1 : ‖h‖ ≤ 1 := by
      have := mem_ball_zero_iff.1 hh
      exact this.le
    rw [norm_mul, Real.norm_eq_abs]
    refine mul_le_mul_of_nonneg_left ?_ (abs_nonneg _)
    rw [norm_prod, norm_pow, norm_norm]
    calc ∏ i, ‖h i ^ f i‖ ≤ ∏ i, ‖h‖ ^ f i := by
          refine Finset.prod_le_prod (fun i _ => norm_nonneg _) (fun i _ => ?_)
          rw [norm_pow]
          exact pow_le_pow_left₀ (norm_nonneg _) (norm_le_pi_norm h i) _
      _ = ‖h‖ ^ f.degree := by rw [Finset.prod_pow_eq_pow_sum, Finsupp.degree_eq_sum]
      _ ≤ ‖h‖ ^ k := pow_le_pow_of_le_one (norm_nonneg _) h1 hk
  have := IsBigO.sum (s := p.support) hmon
  refine this.congr_left (fun h => ?_)
  rw [eval_eq', Finset.sum_apply]

theorem eval_continuous (p : MvPolynomial (Fin n) ℝ) :
    Continuous (fun h : Fin n → ℝ => eval h p) := MvPolynomial.continuous_eval p

/-- Powers of the norm, near zero. -/
theorem norm_pow_isBigO {j k : Nat} (h : j ≤ k) :
    (fun h : Fin n → ℝ => ‖h‖ ^ k) =O[𝓝 0] fun h => ‖h‖ ^ j := by
  refine IsBigO.of_bound 1 ?_
  filter_upwards [Metric.ball_mem_nhds (0 : Fin n → ℝ) one_pos] with x hx
  rw [norm_pow, norm_pow, norm_norm, one_mul]
  exact pow_le_pow_of_le_one (norm_nonneg _) (mem_ball_zero_iff.1 hx).le h

/-! ### Operations on germs -/

namespace Germ
variable {d e : Nat} {F G : (Fin n → ℝ) → ℝ} {p q : MvPolynomial (Fin n) ℝ}

theorem self (d : Nat) (p : MvPolynomial (Fin n) ℝ) : Germ d (fun h => eval h p) p := by
  unfold Germ
  simp only [sub_self]
  exact isBigO_zero _ _

theorem mono (h : Germ d F p) (he : e ≤ d) : Germ e F p :=
  IsBigO.trans h (norm_pow_isBigO (by omega))

theorem congr (h : Germ d F p) (hc : Cong d p q) : Germ d F q := by
  have h1 := eval_isBigO (cong_iff_ord.1 hc)
  refine (IsBigO.add h h1).congr_left (fun x => ?_)
  rw [map_sub]; ring

theorem congr_fun (h : Germ d F p) (hc : F =ᶠ[𝓝 0] G) : Germ d G p := by
  refine IsBigO.congr' h ?_ EventuallyEq.rfl
  filter_upwards [hc] with x hx
  rw [hx]

theorem at_zero (h : Germ d F p) : F 0 = p.coeff 0 := by
  obtain ⟨c, hc⟩ := IsBigO.bound h
  have := hc.self_of_nhds
  rw [norm_zero, zero_pow (by omega), norm_zero, mul_zero] at this
  have h2 := norm_le_zero_iff.1 this
  have h3 : eval (0 : Fin n → ℝ) p = p.coeff 0 := by
    rw [← constantCoeff_eq, eval_zero]
  rw [h3] at h2
  exact sub_eq_zero.1 h2

theorem tendsto (h : Germ d F p) : Tendsto F (𝓝 0) (𝓝 (p.coeff 0)) := by
  have h1 : Tendsto (fun h : Fin n → ℝ => ‖h‖ ^ (d + 1)) (𝓝 0) (𝓝 0) := by
    have : Continuous (fun h : Fin n → ℝ => ‖h‖ ^ (d + 1)) := by fun_prop
    have h2 := this.tendsto 0
    rwa [norm_zero, zero_pow (by omega)] at h2
  have h2 := IsBigO.trans_tendsto h h1
  have h3 := (eval_continuous p).tendsto 0
  have h4 := h2.add h3
  simp only [sub_add_cancel, zero_add] at h4
  rwa [show eval (0 : Fin n → ℝ) p = p.coeff 0 by rw [← constantCoeff_eq, eval_zero]] at h4

theorem bounded (h : Germ d F p) : F =O[𝓝 0] fun _ => (1 : ℝ) := h.tendsto.isBigO_one ℝ

theorem add (hF : Germ d F p) (hG : Germ d G q) : Germ d (fun h => F h + G h) (p + q) := by
  refine (IsBigO.add hF hG).congr_left (fun x => ?_)
  rw [map_add]; ring

theorem sub (hF : Germ d F p) (hG : Germ d G q) : Germ d (fun h => F h - G h) (p - q) := by
  refine (IsBigO.sub hF hG).congr_left (fun x => ?_)
  rw [map_sub]; ring

theorem mul (hF : Germ d F p) (hG : Germ d G q) : Germ d (fun h => F h * G h) (p * q) := by
  have h1 := IsBigO.mul hF hG.bounded
  have hp : (fun h => eval h p) =O[𝓝 0] fun _ => (1 : ℝ) := (Germ.self d p).bounded
  have h2 := IsBigO.mul hp hG
  simp only [mul_one, one_mul] at h1 h2
  refine (IsBigO.add h1 h2).congr_left (fun x => ?_)
  rw [map_mul]; ring

theorem const (d : Nat) (c : ℝ) : Germ (n := n) d (fun _ => c) (C c) :=
  (Germ.self d (C c)).congr_fun (Eventually.of_forall fun h => by simp)

theorem pow (hF : Germ d F p) (k : Nat) : Germ d (fun h => F h ^ k) (p ^ k) := by
  induction k with
  | zero => simpa using Germ.const d 1
  | succ k ih => simp only [pow_succ]; exact ih.mul hF

theorem sum {ι : Type*} (s : Finset ι) (A : ι → (Fin n → ℝ) → ℝ) (P : ι → MvPolynomial (Fin n) ℝ)
    (h : ∀ i ∈ s, Germ d (A i) (P i)) : Germ d (fun h => ∑ i ∈ s, A i h) (∑ i ∈ s, P i) := by
  classical
  induction s using Finset.induction_on with
  | empty => simpa using Germ.const d 0
  | insert a s ha ih =>
    simp only [Finset.sum_insert ha]
    exact (h a (by simp)).add (ih (fun i hi => h i (by simp [hi])))

/-- Displacements are of first order. -/
theorem isBigO_sub (h : Germ d F p) : (fun x => F x - p.coeff 0) =O[𝓝 0] fun x => ‖x‖ := by
  have h1 := IsBigO.trans h (norm_pow_isBigO (n := n) (j := 1) (k := d + 1) (by omega))
  have h2 := eval_isBigO (ord_center p)
  have h3 := IsBigO.add h1 h2
  simp only [pow_one] at h3
  refine h3.congr_left (fun x => ?_)
  rw [center, map_sub, eval_C]; ring

/-- Composition with an analytic function of one variable. -/
theorem comp (h : Germ d F p) {f : ℝ → ℝ} (hf : AnalyticAt ℝ f (p.coeff 0)) :
    Germ d (fun x => f (F x)) (∑ i ∈ Finset.range (d + 1),
      C (tay f (p.coeff 0) i) * (p - C (p.coeff 0)) ^ i) := by
  have h1 := hf.hasFPowerSeriesAt.isBigO_sub_partialSum_pow (d + 1)
  have hs : Tendsto (fun x => F x - p.coeff 0) (𝓝 0) (𝓝 0) := by
    have := h.tendsto.sub_const (p.coeff 0)
    rwa [sub_self] at this
  have h2 := (h1.comp_tendsto hs).trans (((h.isBigO_sub).norm_left).pow (d + 1))
  have h3 : Germ d (fun x => ∑ i ∈ Finset.range (d + 1),
      tay f (p.coeff 0) i * (F x - p.coeff 0) ^ i) (∑ i ∈ Finset.range (d + 1),
      C (tay f (p.coeff 0) i) * (p - C (p.coeff 0)) ^ i) :=
    Germ.sum _ _ _ (fun i _ => (Germ.const d _).mul ((h.sub (Germ.const d _)).pow i))
  refine (IsBigO.add h2 h3).congr_left (fun x => ?_)
  simp only [Function.comp_apply, FormalMultilinearSeries.partialSum,
    FormalMultilinearSeries.ofScalars_apply_eq, smul_eq_mul]
  have e : p.coeff 0 + (F x - p.coeff 0) = F x := by ring
  rw [e]
  simp only [tay]
  ring

end Germ

/-! ### Uniqueness -/

theorem hom_eval_smul {k : Nat} (r : MvPolynomial (Fin n) ℝ) (t : ℝ) (v : Fin n → ℝ) :
    eval (t • v) (homogeneousComponent k r) = t ^ k * eval v (homogeneousComponent k r) := by
  rw [eval_eq', eval_eq', Finset.mul_sum]
  apply Finset.sum_congr rfl
  intro f hf
  have hd : f.degree = k := by
    by_contra hc
    apply mem_support_iff.1 hf
    rw [coeff_homogeneousComponent, if_neg hc]
  have : ∏ i, (t • v) i ^ f i = t ^ k * ∏ i, v i ^ f i := by
    simp only [Pi.smul_apply, smul_eq_mul, mul_pow]
    rw [Finset.prod_mul_distrib, Finset.prod_pow_eq_pow_sum, ← Finsupp.degree_eq_sum, hd]
  rw [this]; ring

/-- A polynomial which is small near zero has no terms of low degree. -/
theorem ord_of_isBigO {d : Nat} {r : MvPolynomial (Fin n) ℝ}
    (h : (fun x => eval x r) =O[𝓝 0] fun x : Fin n → ℝ => ‖x‖ ^ d) : Ord d r := by
  have key : ∀ k, k ≤ d → Ord k r := by
    intro k
    induction k with
    | zero => intro _; exact Ord.zero _
    | succ k ih =>
      intro hk
      have hord := ih (by omega)
      set H := homogeneousComponent k r with hH
      have h1 : Ord (k + 1) (r - H) := by
        intro f hf
        rw [coeff_sub, hH, coeff_homogeneousComponent]
        by_cases hfk : f.degree = k
        · rw [if_pos hfk, sub_self]
        · rw [if_neg hfk, sub_zero, hord f (by omega)]
      have h2 : (fun x => eval x H) =O[𝓝 0] fun x : Fin n → ℝ => ‖x‖ ^ (k + 1) := by
        have h3 := (IsBigO.trans h (norm_pow_isBigO hk)).sub (eval_isBigO h1)
        refine h3.congr_left (fun x => ?_)
        rw [map_sub]; ring
      have hz : H = 0 := by
        apply MvPolynomial.funext
        intro v
        rw [map_zero]
        have ht : Tendsto (fun t : ℝ => t • v) (𝓝[≠] 0) (𝓝 0) := by
          have hc : Continuous (fun t : ℝ => t • v) := by fun_prop
          have := hc.tendsto 0
          rw [zero_smul] at this
          exact this.mono_left nhdsWithin_le_nhds
        have h3 := h2.comp_tendsto ht
        have h4 : (fun _ : ℝ => eval v H) =O[𝓝[≠] (0 : ℝ)] fun t => ‖t‖ * ‖v‖ ^ (k + 1) := by
          have hb := (isBigO_refl (fun t : ℝ => (t ^ k)⁻¹) (𝓝[≠] 0)).mul h3
          have hb2 : (fun _ : ℝ => eval v H) =O[𝓝[≠] (0 : ℝ)]
              fun t => ‖t‖ * ‖v‖ ^ (k + 1) * (‖t‖ ^ k * (t ^ k)⁻¹) := by
            refine hb.congr' ?_ ?_
            · filter_upwards [self_mem_nhdsWithin] with t ht
              have ht : t ≠ 0 := ht
              simp only [Function.comp_apply]
              rw [hH, hom_eval_smul, ← mul_assoc, inv_mul_cancel₀ (pow_ne_zero _ ht), one_mul]
            · refine Eventually.of_forall (fun t => ?_)
              simp only [Function.comp_apply]
              rw [norm_smul, mul_pow, pow_succ ‖t‖]; ring
          refine hb2.norm_right.congr' EventuallyEq.rfl ?_
          filter_upwards [self_mem_nhdsWithin] with t ht
          have ht : t ≠ 0 := ht
          have hn : ‖t‖ ≠ 0 := norm_ne_zero_iff.2 ht
          rw [norm_mul, norm_mul, norm_mul, norm_inv, norm_pow, norm_pow, norm_pow, norm_norm, norm_norm,
            mul_inv_cancel₀ (pow_ne_zero _ hn), mul_one]
        have h5 : Tendsto (fun t : ℝ => ‖t‖ * ‖v‖ ^ (k + 1)) (𝓝[≠] 0) (𝓝 0) := by
          have hc : Continuous (fun t : ℝ => ‖t‖ * ‖v‖ ^ (k + 1)) := by fun_prop
          have := hc.tendsto 0
          rw [norm_zero, zero_mul] at this
          exact this.mono_left nhdsWithin_le_nhds
        exact tendsto_nhds_unique tendsto_const_nhds (h4.trans_tendsto h5)
      intro f hf
      by_cases hfk : f.degree < k
      · exact hord f hfk
      · have := congrArg (coeff f) hz
        rw [hH, coeff_homogeneousComponent, if_pos (by omega), coeff_zero] at this
        exact this
  exact key d (le_refl _)

/-- The Taylor polynomial is unique. -/
theorem germ_unique {d : Nat} {F : (Fin n → ℝ) → ℝ} {p q : MvPolynomial (Fin n) ℝ} (hp : Germ d F p)
    (hq : Germ d F q) : Cong d p q := by
  rw [cong_iff_ord]
  apply ord_of_isBigO
  refine (IsBigO.sub hq hp).congr_left (fun x => ?_)
  rw [map_sub]; ring

/-! ### Differentials -/

/-- The differential is the Taylor polynomial, to its degree, of the function of the displacement. -/
def Taylor (x : Diff n ℝ) (F : (Fin n → ℝ) → ℝ) : Prop := WF x ∧ Germ x.deg F (poly x)

theorem Taylor.of_rep {x : Diff n ℝ} {F : (Fin n → ℝ) → ℝ} {p : MvPolynomial (Fin n) ℝ} (hx : Rep x p)
    (h : Germ x.deg F p) : Taylor x F := ⟨hx.1, h.congr hx.2.symm⟩

theorem Taylor.value_eq {x : Diff n ℝ} {F : (Fin n → ℝ) → ℝ} (h : Taylor x F) : value x = F 0 := by
  rw [Differential.value_eq h.1, h.2.at_zero]

/-- **C44** (Taylor polynomials: constants and variables) -/
theorem C44_taylor_init (d : Nat) (hd : d ≤ 65535) (c : ℝ) :
    Taylor (const d c : Diff n ℝ) (fun _ => c) ∧
    (1 ≤ d → ∀ j : Fin n, Taylor (var d c j) (fun h => c + h j)) := by
  refine ⟨Taylor.of_rep (rep_const hd c) (Germ.const _ c), fun h1 j => ?_⟩
  refine Taylor.of_rep (rep_var h1 hd c j) ?_
  refine (Germ.self _ (C c + X j)).congr_fun (Eventually.of_forall fun h => ?_)
  simp

/-- **C44** (Taylor polynomials: arithmetic): if two differentials are the Taylor polynomials of `F`
and `G`, their sum, difference, product, negation, sum and product with a number, and natural powers
are those of the functions `F+G`, `F-G`, … -/
theorem C44_taylor_arithmetic (x y : Diff n ℝ) (F G : (Fin n → ℝ) → ℝ) (hx : Taylor x F)
    (hy : Taylor y G) (c : ℝ) (k : Nat) :
    Taylor (add x y) (fun h => F h + G h) ∧ Taylor (sub x y) (fun h => F h - G h) ∧
    Taylor (mul x y) (fun h => F h * G h) ∧ Taylor (neg x) (fun h => -F h) ∧
    Taylor (addScalar x c) (fun h => F h + c) ∧ Taylor (mulScalar x c) (fun h => F h * c) ∧
    Taylor (pow x k) (fun h => F h ^ k) := by
  have hX := hx.1.rep
  have hY := hy.1.rep
  obtain ⟨a1, a2⟩ := C44_add x y _ _ hX hY
  obtain ⟨s1, s2⟩ := C44_sub x y _ _ hX hY
  obtain ⟨m1, m2⟩ := C44_mul x y _ _ hX hY
  obtain ⟨n1, n2⟩ := C44_neg x _ hX
  obtain ⟨c1, c2⟩ := C44_add_scalar x _ c hX
  obtain ⟨d1, d2⟩ := C44_mul_scalar x _ c hX
  obtain ⟨p1, p2⟩ := C44_pow x _ hX k
  refine ⟨.of_rep a1 ?_, .of_rep s1 ?_, .of_rep m1 ?_, .of_rep n1 ?_, .of_rep c1 ?_, .of_rep d1 ?_,
    .of_rep p1 ?_⟩
  · rw [a2]; exact (hx.2.mono (min_le_left _ _)).add (hy.2.mono (min_le_right _ _))
  · rw [s2]; exact (hx.2.mono (min_le_left _ _)).sub (hy.2.mono (min_le_right _ _))
  · rw [m2]; exact (hx.2.mono (min_le_left _ _)).mul (hy.2.mono (min_le_right _ _))
  · rw [n2]
    have := (Germ.const x.deg 0).sub hx.2
    rw [C_0, zero_sub] at this
    exact this.congr_fun (Eventually.of_forall fun h => zero_sub _)
  · rw [c2]; exact hx.2.add (Germ.const _ c)
  · rw [d2]; exact hx.2.mul (Germ.const _ c)
  · rw [p2]; exact hx.2.pow k

/-- **C44** (Taylor polynomials: elementary functions): if the differential `x` is the Taylor
polynomial of `F` then the result of an elementary function `f` is that of `f∘F`, of the same degree,
provided `f` is smooth at `F(0)` and `x` has at least one term. -/
theorem C44_taylor_apply_partial (op : Op) (x : Diff n ℝ) (F : (Fin n → ℝ) → ℝ) (hx : Taylor x F)
    (hdom : op.dom (F 0)) (hne : x.terms ≠ []) :
    ∃ r, apply realFns op x = some r ∧ r.deg = x.deg ∧ Taylor r (fun h => op.fn (F h)) := by
  have hsmall := hx.1.small
  obtain ⟨r, e, hd, hr⟩ := C44_compose_univariate_partial
    (series realFns op (value x) (x.deg + 1)) x _ (by rw [series_length]; omega) hx.1.rep hne
  have hd' : r.deg = x.deg := by rw [hd, series_length]; omega
  have hv := hx.value_eq
  have hv0 : (poly x).coeff 0 = F 0 := hx.2.at_zero.symm
  refine ⟨r, e, hd', .of_rep hr ?_⟩
  rw [hd', hv]
  have hg := hx.2.comp (f := op.fn) (by rw [hv0]; exact Op.analytic op _ hdom)
  refine hg.congr (Cong.of_eq ?_)
  apply Finset.sum_congr rfl
  intro i hi
  have hi' := Finset.mem_range.1 hi
  rw [(C44_series op (F 0) hdom (x.deg + 1) i hi').2, hv0]
  rfl

/-- **C44** (Taylor polynomials: quotients and negative powers) -/
theorem C44_taylor_div (x y : Diff n ℝ) (F G : (Fin n → ℝ) → ℝ) (hx : Taylor x F) (hy : Taylor y G)
    (h0 : G 0 ≠ 0) :
    (∃ r, div realFns x y = some r ∧ r.deg = min x.deg y.deg ∧ Taylor r (fun h => F h / G h)) ∧
    ∀ k : Int, ∃ r, powInt realFns y k = some r ∧ r.deg = y.deg ∧ Taylor r (fun h => G h ^ k) := by
  have hv : value y ≠ 0 := by rw [hy.value_eq]; exact h0
  refine ⟨?_, fun k => ?_⟩
  · obtain ⟨s, e, hd, hs⟩ := C44_taylor_apply_partial .recip y G hy h0 (terms_ne_nil hv)
    obtain ⟨-, -, hm, -⟩ := C44_taylor_arithmetic x s _ _ hx hs 0 0
    refine ⟨mul x s, by rw [div, e]; rfl, ?_, hm⟩
    rw [(C44_mul x s _ _ hx.1.rep hs.1.rep).2, hd]
  · have hp := fun k => (C44_taylor_arithmetic y y _ _ hy hy 0 k).2.2.2.2.2.2
    cases k with
    | ofNat k =>
      refine ⟨_, rfl, (C44_pow y _ hy.1.rep k).2, ?_⟩
      simpa using hp k
    | negSucc k =>
      have hn : (G 0) ^ (k + 1) ≠ 0 := pow_ne_zero _ h0
      obtain ⟨r, e, hd, hr⟩ := C44_taylor_apply_partial .recip _ _ (hp (k + 1)) hn
        (terms_ne_nil (by rw [(hp (k + 1)).value_eq]; exact hn))
      refine ⟨r, e, by rw [hd, (C44_pow y _ hy.1.rep (k + 1)).2], ?_⟩
      simp only [zpow_negSucc]
      exact hr

/-- **C44** (Taylor polynomials: minimum, maximum and absolute value), wherever these are smooth; where
the values coincide the code throws. -/
theorem C44_taylor_lattice (x y : Diff n ℝ) (F G : (Fin n → ℝ) → ℝ) (hx : Taylor x F)
    (hy : Taylor y G) :
    (F 0 ≠ G 0 → (∃ r, min' x y = some r ∧ Taylor r (fun h => min (F h) (G h))) ∧
      ∃ r, max' x y = some r ∧ Taylor r (fun h => max (F h) (G h))) ∧
    (F 0 = G 0 → min' x y = none ∧ max' x y = none) ∧
    (F 0 ≠ 0 → ∃ r, abs' x = some r ∧ Taylor r (fun h => |F h|)) ∧
    (F 0 = 0 → abs' x = none) := by
  have tx : Tendsto F (𝓝 0) (𝓝 (F 0)) := by
    rw [hx.2.at_zero]; exact hx.2.tendsto
  have ty : Tendsto G (𝓝 0) (𝓝 (G 0)) := by
    rw [hy.2.at_zero]; exact hy.2.tendsto
  have hneg := (C44_taylor_arithmetic x x _ _ hx hx 0 0).2.2.2.1
  unfold min' max' abs'
  rw [hx.value_eq, hy.value_eq]
  refine ⟨fun h => ?_, fun h => ?_, fun h => ?_, fun h => ?_⟩
  · rw [if_neg h, if_neg h]
    rcases lt_or_gt_of_ne h with hlt | hgt
    · have ev := tx.eventually_lt ty hlt
      rw [if_pos hlt, if_neg (not_lt.2 hlt.le)]
      refine ⟨⟨x, rfl, hx.1, hx.2.congr_fun ?_⟩, ⟨y, rfl, hy.1, hy.2.congr_fun ?_⟩⟩
      · filter_upwards [ev] with h hh; exact (min_eq_left hh.le).symm
      · filter_upwards [ev] with h hh; exact (max_eq_right hh.le).symm
    · have ev := ty.eventually_lt tx hgt
      rw [if_neg (not_lt.2 hgt.le), if_pos hgt]
      refine ⟨⟨y, rfl, hy.1, hy.2.congr_fun ?_⟩, ⟨x, rfl, hx.1, hx.2.congr_fun ?_⟩⟩
      · filter_upwards [ev] with h hh; exact (min_eq_right hh.le).symm
      · filter_upwards [ev] with h hh; exact (max_eq_left hh.le).symm
  · rw [if_pos h, if_pos h]; exact ⟨rfl, rfl⟩
  · rw [if_neg h]
    by_cases hp : 0 < F 0
    · rw [if_pos hp]
      refine ⟨x, rfl, hx.1, hx.2.congr_fun ?_⟩
      filter_upwards [tx.eventually (lt_mem_nhds hp)] with h hh; exact (abs_of_pos hh).symm
    · rw [if_neg hp]
      have hn : F 0 < 0 := lt_of_le_of_ne (not_lt.1 hp) h
      refine ⟨neg x, rfl, hneg.1, hneg.2.congr_fun ?_⟩
      filter_upwards [tx.eventually (gt_mem_nhds hn)] with h hh; exact (abs_of_neg hh).symm
  · rw [if_pos h]

/-- Composition of germs of several variables. -/
theorem Germ.bind {d : Nat} {F : (Fin m → ℝ) → ℝ} {p : MvPolynomial (Fin m) ℝ} (hF : Germ d F p)
    {G : Fin m → (Fin n → ℝ) → ℝ} {q : Fin m → MvPolynomial (Fin n) ℝ}
    (hG : ∀ i, Germ d (G i) (q i)) :
    Germ d (fun h => F (fun i => G i h - G i 0)) (bind₁ (fun i => center (q i)) p) := by
  have h0 : ∀ i, G i 0 = (q i).coeff 0 := fun i => (hG i).at_zero
  have hs : Tendsto (fun h => (fun i => G i h - G i 0)) (𝓝 0) (𝓝 (0 : Fin m → ℝ)) := by
    rw [tendsto_pi_nhds]
    intro i
    have := (hG i).tendsto.sub_const (G i 0)
    rw [h0, sub_self] at this
    rw [h0]
    exact this
  have hb : (fun h => (fun i => G i h - G i 0)) =O[𝓝 0] fun h : Fin n → ℝ => ‖h‖ := by
    rw [isBigO_pi]
    intro i
    rw [h0]
    exact (hG i).isBigO_sub
  have h1 := (IsBigO.comp_tendsto hF hs).trans (hb.norm_left.pow (d + 1))
  have h2 : Germ d (fun h => eval (fun i => G i h - G i 0) p) (bind₁ (fun i => center (q i)) p) := by
    have hq : ∀ i, Germ d (fun h => G i h - G i 0) (center (q i)) := by
      intro i
      rw [h0]
      exact (hG i).sub (Germ.const _ _)
    clear hF h1
    induction p using MvPolynomial.induction_on with
    | C a =>
      rw [MvPolynomial.algHom_C]
      simpa using Germ.const d a
    | add p p' i1 i2 =>
      simp only [map_add]
      exact i1.add i2
    | mul_X p i i1 =>
      simp only [map_mul, bind₁_X_right, eval_X]
      exact i1.mul (hq i)
  refine (IsBigO.add h1 h2).congr_left (fun x => ?_)
  simp only [Function.comp_apply]
  ring

/-- **C44** (Taylor polynomials: composition): if `x` is the Taylor polynomial of a function `F` of the
displacement from the value of `y`, and the components of `y` are those of `G`, then the composition
is that of `F∘(G-G(0))`, to the lesser degree. -/
theorem C44_taylor_compose_partial (x : Diff m ℝ) (y : DVec m n ℝ) (F : (Fin m → ℝ) → ℝ)
    (G : Fin m → (Fin n → ℝ) → ℝ) (hx : Taylor x F) (h1 : 1 ≤ x.deg)
    (hy : ∀ i, Taylor (y.comp i) (G i)) (hd : ∀ i, (y.comp i).deg = y.deg) (hs : y.deg ≤ 65535) :
    ∃ r, (compose x y).1 = some r ∧ r.deg = min x.deg y.deg ∧
      Taylor r (fun h => F (fun i => G i h - G i 0)) := by
  obtain ⟨⟨r, e, hr, hrep⟩, -⟩ := C44_compose_partial x y (poly x) (fun i => poly (y.comp i)) hx.1.rep h1
    ⟨fun i => (hy i).1.rep.at (by rw [hd]), hs⟩
  refine ⟨r, e, hr, .of_rep hrep ?_⟩
  rw [hr]
  refine (Germ.bind (hx.2.mono (min_le_left _ _)) (fun i => (hy i).2.mono ?_))
  rw [hd]; exact min_le_right _ _

/-- **C44** (gradient): a function with a Taylor polynomial of degree at least one is differentiable,
and the gradient of the differential lists its partial derivatives. -/
theorem C44_gradient (x : Diff n ℝ) (F : (Fin n → ℝ) → ℝ) (hx : Taylor x F) (h1 : 1 ≤ x.deg) :
    HasFDerivAt F (∑ j, gradient x j • ContinuousLinearMap.proj (R := ℝ) (φ := fun _ : Fin n => ℝ) j)
      0 := by
  have hg := hx.2.mono h1
  have h2 := eval_isBigO (ord_two (poly x))
  have h3 := IsBigO.add hg h2
  have hlin : ∀ h : Fin n → ℝ, eval h (linear (poly x)) = ∑ j, gradient x j * h j := by
    intro h
    rw [linear, map_sum]
    apply Finset.sum_congr rfl
    intro j _
    rw [map_mul, eval_C, eval_X, (C44_read x _ hx.1.rep).2.2.2 h1]
  rw [hasFDerivAt_iff_isLittleO_nhds_zero]
  have h4 : (fun h : Fin n → ℝ => F (0 + h) - F 0 - (∑ j, gradient x j •
      ContinuousLinearMap.proj (R := ℝ) (φ := fun _ : Fin n => ℝ) j) h) =O[𝓝 0]
      fun h => ‖h‖ ^ 2 := by
    refine h3.congr_left (fun h => ?_)
    have e : (∑ j, gradient x j • ContinuousLinearMap.proj (R := ℝ) (φ := fun _ : Fin n => ℝ) j) h =
        ∑ j, gradient x j * h j := by
      simp
    rw [e, zero_add, hx.2.at_zero, map_sub, map_sub, hlin, eval_C]
    ring
  refine h4.trans_isLittleO ?_
  have h5 := isLittleO_norm_pow_id (E' := Fin n → ℝ) (n := 2) (by omega)
  exact h5

/-- **C44** (uniqueness): two differentials of the same degree which are Taylor polynomials of the same
function have the same coefficients. -/
theorem C44_taylor_unique (x y : Diff n ℝ) (F : (Fin n → ℝ) → ℝ) (hx : Taylor x F) (hy : Taylor y F)
    (hd : x.deg = y.deg) (a : MIndex n) : coef x a = coef y a := by
  have h := germ_unique hx.2 (by rw [hd]; exact hy.2)
  rw [coef_eq hx.1, coef_eq hy.1, hx.1.poly_eq hy.1 hd h]

end Verif.Differential
