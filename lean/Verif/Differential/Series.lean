import Verif.Differential.Solve
import Mathlib.Analysis.Calculus.IteratedDeriv.Lemmas
import Mathlib.Analysis.SpecialFunctions.Trigonometric.ArctanDeriv
import Mathlib.Analysis.SpecialFunctions.Log.Deriv
import Mathlib.Analysis.SpecialFunctions.Sqrt
import Mathlib.Analysis.SpecialFunctions.Complex.Analytic
/-!
# C44: reciprocals, quotients and power series of elementary functions
-/
namespace Verif.Differential
open Verif.Expansion MvPolynomial

/-! ### The coefficients of a series -/

section Coefs
variable {K : Type*} [Field K]

theorem series_length (F : Fns K) (op : Op) (c : K) (k : Nat) : (series F op c k).length = k := by
  induction k with
  | zero => rfl
  | succ k ih => rw [series, List.length_append, ih]; rfl

/-- The coefficients are given by any sequence satisfying the recursion. -/
theorem series_eq (F : Fns K) (op : Op) (c : K) (a : Nat → K) (k : Nat)
    (h : ∀ i, i < k → a i = nextCoef F op i c ((List.range i).map a)) :
    series F op c k = (List.range k).map a := by
  induction k with
  | zero => rfl
  | succ k ih =>
    rw [series, ih (fun i hi => h i (by omega)), ← h k (by omega), List.range_succ, List.map_append]
    rfl

theorem getD_range_map (a : Nat → K) (k i : Nat) :
    ((List.range k).map a).getD i 0 = if i < k then a i else 0 := by
  rw [List.getD_eq_getElem?_getD, List.getElem?_map]
  by_cases h : i < k
  · rw [List.getElem?_range h, if_pos h]; rfl
  · rw [List.getElem?_eq_none (by simpa using h), if_neg h]; rfl

theorem series_recip (F : Fns K) (c : K) (k : Nat) :
    series F .recip c k = (List.range k).map (fun i => (-1) ^ i * (c⁻¹) ^ (i + 1)) := by
  apply series_eq
  intro i _
  cases i with
  | zero => simp [nextCoef]
  | succ i =>
    simp only [nextCoef, getD_range_map]
    rw [if_neg (by omega), if_pos (by omega), if_pos (by omega)]
    simp
    ring
end Coefs

/-! ### Reciprocals, quotients and integer powers -/

section Rec
variable {n : Nat} {K : Type*} [Field K] [DecidableEq K]

/-- A differential with a nonzero coefficient has terms. -/
theorem terms_ne_nil {x : Diff n K} (h : value x ≠ 0) : x.terms ≠ [] := by
  intro e
  apply h
  unfold value coef
  rw [e]
  rfl

/-- **C44** (reciprocal): the result times the argument is one, to the degree of the argument. -/
theorem C44_rec (F : Fns K) (y : Diff n K) (p : MvPolynomial (Fin n) K) (hy : Rep y p)
    (h0 : value y ≠ 0) :
    ∃ r, apply F .recip y = some r ∧ r.deg = y.deg ∧ WF r ∧ Cong y.deg (poly r * p) 1 := by
  have hsmall := hy.1.small
  obtain ⟨r, e, hd, hr⟩ := C44_compose_univariate_partial
    (series F .recip (value y) (y.deg + 1)) y p (by rw [series_length]; omega) hy (terms_ne_nil h0)
  have hd' : r.deg = y.deg := by rw [hd, series_length]; omega
  refine ⟨r, e, hd', hr.1, ?_⟩
  have hv : value y = p.coeff 0 := (C44_read y p hy).2.2.1
  have h1 := hr.2.mul (Cong.refl (d := r.deg) p)
  rw [hd'] at h1
  refine h1.trans ?_
  rw [cong_iff_ord]
  set c := value y with hc
  set w := p - C (p.coeff 0) with hw
  have hp : p = C c + w := by rw [hw, hv]; ring
  have hsum : ∀ k, k ≤ y.deg + 1 →
      (∑ i ∈ Finset.range k, C ((series F .recip c (y.deg + 1)).getD i 0) * w ^ i) * p - 1 =
      -(C ((-c⁻¹) ^ k) * w ^ k) := by
    intro k
    induction k with
    | zero => intro _; simp
    | succ k ih =>
      intro hk
      rw [Finset.sum_range_succ, add_mul]
      have h2 := ih (by omega)
      have h3 : (series F .recip c (y.deg + 1)).getD k 0 = (-1) ^ k * (c⁻¹) ^ (k + 1) := by
        rw [series_recip, getD_range_map, if_pos (by omega)]
      rw [h3]
      have h4 : (C ((-1) ^ k * c⁻¹ ^ (k + 1)) : MvPolynomial (Fin n) K) * C c = C ((-c⁻¹) ^ k) := by
        rw [← C_mul]
        congr 1
        rw [neg_pow c⁻¹ k, pow_succ, mul_assoc, mul_assoc, inv_mul_cancel₀ h0, mul_one]
      have h5 : (C ((-c⁻¹) ^ (k + 1)) : MvPolynomial (Fin n) K) = -C ((-1) ^ k * c⁻¹ ^ (k + 1)) := by
        rw [← C_neg]
        congr 1
        rw [neg_pow c⁻¹ (k + 1), pow_succ (-1)]
        ring
      rw [h5]
      have h6 : C ((-1) ^ k * c⁻¹ ^ (k + 1)) * w ^ k * p =
          C ((-c⁻¹) ^ k) * w ^ k + C ((-1) ^ k * c⁻¹ ^ (k + 1)) * w ^ (k + 1) := by
        rw [← h4]
        calc _ = C ((-1) ^ k * c⁻¹ ^ (k + 1)) * w ^ k * (C c + w) := by rw [← hp]
          _ = _ := by ring
      rw [h6]
      linear_combination h2
  rw [hsum _ (le_refl _)]
  exact (((ord_center p).pow _).mul_left _).neg

/-- **C44** (quotient): the result times the divisor is the dividend, to the lesser degree. -/
theorem C44_div (F : Fns K) (x y : Diff n K) (p q : MvPolynomial (Fin n) K) (hx : Rep x p)
    (hy : Rep y q) (h0 : value y ≠ 0) :
    ∃ r, div F x y = some r ∧ r.deg = min x.deg y.deg ∧ WF r ∧ Cong r.deg (poly r * q) p := by
  obtain ⟨s, e, hd, hw, hs⟩ := C44_rec F y q hy h0
  obtain ⟨m1, m2⟩ := C44_mul x s _ _ hx hw.rep
  rw [hd] at m2
  refine ⟨mul x s, by rw [div, e]; rfl, m2, m1.1, ?_⟩
  have h1 := m1.2.mul (Cong.refl (d := (mul x s).deg) q)
  refine h1.trans ?_
  have h2 := (Cong.refl (d := y.deg) p).mul hs
  rw [mul_one, ← mul_assoc] at h2
  exact h2.mono (by rw [m2]; exact min_le_right _ _)

/-- **C44** (integer powers): a power with a negative exponent times the power with the opposite
exponent is one. -/
theorem C44_pow_int (F : Fns K) (x : Diff n K) (p : MvPolynomial (Fin n) K) (hx : Rep x p) :
    (∀ k : Nat, ∃ r, powInt F x k = some r ∧ r.deg = x.deg ∧ Rep r (p ^ k)) ∧
    ∀ k : Nat, value x ≠ 0 → ∃ r, powInt F x (-((k : Int) + 1)) = some r ∧ r.deg = x.deg ∧ WF r ∧
      Cong x.deg (poly r * p ^ (k + 1)) 1 := by
  refine ⟨fun k => ⟨_, rfl, (C44_pow x p hx k).2, (C44_pow x p hx k).1⟩, fun k h0 => ?_⟩
  obtain ⟨h1, h2⟩ := C44_pow x p hx (k + 1)
  have hv : value (pow x (k + 1)) ≠ 0 := by
    rw [(C44_read _ _ h1).2.2.1, ← constantCoeff_eq, map_pow, constantCoeff_eq,
      ← (C44_read _ _ hx).2.2.1]
    exact pow_ne_zero _ h0
  obtain ⟨r, e, hd, hw, hc⟩ := C44_rec F _ _ h1 hv
  rw [h2] at hd hc
  refine ⟨r, ?_, hd, hw, hc⟩
  rw [← e]
  have : (-((k : Int) + 1)) = Int.negSucc k := by rw [Int.negSucc_eq]
  rw [this]
  rfl
end Rec

/-! ### Taylor coefficients of real functions -/

/-- The Taylor coefficient of degree `i` of `f` at `c`. -/
noncomputable def tay (f : ℝ → ℝ) (c : ℝ) (i : Nat) : ℝ := iteratedDeriv i f c / i.factorial

section Taylor
open Filter Topology

theorem tay_congr {f g : ℝ → ℝ} {c : ℝ} (h : f =ᶠ[𝓝 c] g) (i : Nat) : tay f c i = tay g c i := by
  rw [tay, tay, h.iteratedDeriv_eq]

theorem tay_zero (f : ℝ → ℝ) (c : ℝ) : tay f c 0 = f c := by simp [tay]

theorem tay_deriv (f : ℝ → ℝ) (c : ℝ) (i : Nat) :
    tay (_root_.deriv f) c i = (i + 1) * tay f c (i + 1) := by
  rw [tay, tay, iteratedDeriv_succ', Nat.factorial_succ]
  have h1 : (i.factorial : ℝ) ≠ 0 := by exact_mod_cast i.factorial_ne_zero
  have h2 : ((i : ℝ) + 1) ≠ 0 := by positivity
  push_cast
  field_simp

theorem tay_mul {f g : ℝ → ℝ} {c : ℝ} (hf : AnalyticAt ℝ f c) (hg : AnalyticAt ℝ g c) (i : Nat) :
    tay (fun x => f x * g x) c i = ∑ j ∈ Finset.range (i + 1), tay f c j * tay g c (i - j) := by
  rw [tay, iteratedDeriv_fun_mul hf.contDiffAt hg.contDiffAt, Finset.sum_div]
  apply Finset.sum_congr rfl
  intro j hj
  have hj' : j ≤ i := by have := Finset.mem_range.1 hj; omega
  rw [tay, tay, Nat.cast_choose ℝ hj']
  have h1 : (i.factorial : ℝ) ≠ 0 := by exact_mod_cast i.factorial_ne_zero
  have h2 : (j.factorial : ℝ) ≠ 0 := by exact_mod_cast j.factorial_ne_zero
  have h3 : ((i - j).factorial : ℝ) ≠ 0 := by exact_mod_cast (i - j).factorial_ne_zero
  field_simp

theorem tay_const (a c : ℝ) (i : Nat) : tay (fun _ => a) c i = if i = 0 then a else 0 := by
  rw [tay, iteratedDeriv_const]
  split_ifs with h
  · subst h; simp
  · simp

theorem tay_id (c : ℝ) (i : Nat) :
    tay (fun x => x) c i = if i = 0 then c else if i = 1 then 1 else 0 := by
  cases i with
  | zero => simp [tay_zero]
  | succ i =>
    have h := tay_deriv (fun x => x) c i
    have hd : _root_.deriv (fun x : ℝ => x) = fun _ => 1 := by funext x; simp
    rw [hd, tay_const] at h
    have h2 : ((i : ℝ) + 1) ≠ 0 := by positivity
    rw [if_neg (by omega)]
    by_cases hi : i = 0
    · subst hi
      rw [if_pos rfl] at h
      rw [if_pos rfl]
      simpa using h.symm
    · rw [if_neg hi] at h
      rw [if_neg (by omega)]
      rcases mul_eq_zero.1 h.symm with h | h
      · exact absurd h h2
      · exact h

/-- Multiplication by the variable. -/
theorem tay_id_mul {g : ℝ → ℝ} {c : ℝ} (hg : AnalyticAt ℝ g c) (i : Nat) :
    tay (fun x => x * g x) c (i + 1) = c * tay g c (i + 1) + tay g c i := by
  rw [tay_mul (f := fun x => x) analyticAt_id hg, Finset.sum_range_succ', Finset.sum_range_succ',
    Finset.sum_eq_zero]
  · simp [tay_id]; ring
  · intro j _
    rw [tay_id, if_neg (by omega), if_neg (by omega), zero_mul]

theorem tay_const_mul (a : ℝ) (g : ℝ → ℝ) (c : ℝ) (i : Nat) :
    tay (fun x => a * g x) c i = a * tay g c i := by
  rw [tay, tay, iteratedDeriv_const_mul_field]
  ring

theorem tay_add {f g : ℝ → ℝ} {c : ℝ} (hf : AnalyticAt ℝ f c) (hg : AnalyticAt ℝ g c) (i : Nat) :
    tay (fun x => f x + g x) c i = tay f c i + tay g c i := by
  rw [tay, tay, tay, iteratedDeriv_fun_add hf.contDiffAt hg.contDiffAt]
  ring

/-! ### The series of the elementary functions -/

/-- The real functions. -/
noncomputable def realFns : Fns ℝ where
  sqrt := Real.sqrt
  exp := Real.exp
  log := Real.log
  sin := Real.sin
  cos := Real.cos
  tan := Real.tan
  atan := Real.arctan

/-- The function which an operation denotes. -/
noncomputable def Op.fn : Op → ℝ → ℝ
  | .nul => fun _ => 0
  | .pos => fun x => x
  | .neg => fun x => -x
  | .hlf => fun x => x / 2
  | .sqr => fun x => x ^ 2
  | .recip => fun x => x⁻¹
  | .sqrt => Real.sqrt
  | .exp => Real.exp
  | .log => Real.log
  | .sin => Real.sin
  | .cos => Real.cos
  | .tan => Real.tan
  | .atan => Real.arctan

/-- Where the function is defined and smooth. -/
def Op.dom : Op → ℝ → Prop
  | .recip => fun c => c ≠ 0
  | .sqrt => fun c => 0 < c
  | .log => fun c => 0 < c
  | .tan => fun c => Real.cos c ≠ 0
  | _ => fun _ => True

theorem Op.analytic (op : Op) (c : ℝ) (h : op.dom c) : AnalyticAt ℝ op.fn c := by
  cases op with
  | nul => exact analyticAt_const
  | pos => exact analyticAt_id
  | neg => exact analyticAt_id.neg
  | hlf => exact analyticAt_id.div_const
  | sqr => exact analyticAt_id.pow 2
  | recip => exact analyticAt_inv h
  | sqrt => exact (Real.contDiffAt_sqrt (ne_of_gt h)).analyticAt
  | exp => exact analyticAt_rexp
  | log => exact analyticAt_log h
  | sin => exact Real.analyticAt_sin
  | cos => exact Real.analyticAt_cos
  | tan => exact (Real.contDiffAt_tan.2 h).analyticAt
  | atan => exact Real.contDiff_arctan.contDiffAt.analyticAt

/-- The Taylor coefficients satisfy the recursion of the code. -/
theorem tay_next (op : Op) (c : ℝ) (h : op.dom c) (i : Nat) :
    tay op.fn c i = nextCoef realFns op i c ((List.range i).map (tay op.fn c)) := by
  have han := Op.analytic op c h
  simp only [nextCoef, getD_range_map]
  cases op with
  | nul => simp only; show tay (fun _ => 0) c i = 0; rw [tay_const]; simp
  | pos => simp only; show tay (fun x => x) c i = _; rw [tay_id, zero_add]
  | neg =>
    simp only
    have : tay (Op.neg.fn) c i = tay (fun x => (-1) * x) c i := by
      congr 1; funext x; show -x = _; ring
    rw [this, tay_const_mul, tay_id]
    split_ifs <;> ring
  | hlf =>
    simp only
    have : tay (Op.hlf.fn) c i = tay (fun x => (1 / 2) * x) c i := by
      congr 1; funext x; show x / 2 = _; ring
    rw [this, tay_const_mul, tay_id]
    split_ifs <;> ring
  | sqr =>
    simp only
    have e : tay (Op.sqr.fn) c i = tay (fun x => x * x) c i := by
      congr 1; funext x; show x ^ 2 = _; ring
    rw [e]
    cases i with
    | zero => simp [tay_zero]
    | succ i =>
      rw [tay_id_mul (g := fun x => x) analyticAt_id, tay_id, tay_id]
      rcases i with _ | _ | i
      · simp; ring
      · simp
      · simp
  | recip =>
    have h : c ≠ 0 := h
    simp only
    cases i with
    | zero => rw [if_pos rfl, tay_zero]; show c⁻¹ = _; rw [one_div]
    | succ i =>
      rw [if_neg (by omega), if_pos (by omega), if_pos (by omega), tay_zero]
      have h1 := tay_id_mul han i
      have h2 : (fun x => x * Op.recip.fn x) =ᶠ[𝓝 c] fun _ => 1 := by
        filter_upwards [isOpen_ne.mem_nhds h] with x hx
        exact mul_inv_cancel₀ hx
      rw [tay_congr h2, tay_const, if_neg (by omega)] at h1
      show _ = tay Op.recip.fn c i * -c⁻¹
      field_simp
      linear_combination -h1
  | sqrt =>
    have h : 0 < c := h
    simp only
    cases i with
    | zero => rw [if_pos rfl, tay_zero]; rfl
    | succ i =>
      rw [if_neg (by omega), if_pos (by omega)]
      have h2 : (fun x => x * _root_.deriv Real.sqrt x) =ᶠ[𝓝 c] fun x => (1 / 2) * Real.sqrt x := by
        filter_upwards [isOpen_Ioi.mem_nhds h] with x hx
        have hx : 0 < x := hx
        have hs := Real.sqrt_pos.2 hx
        rw [(Real.hasDerivAt_sqrt hx.ne').deriv]
        have := Real.mul_self_sqrt hx.le
        field_simp
        nlinarith
      have han' : AnalyticAt ℝ (_root_.deriv Real.sqrt) c := han.deriv
      have key : c * ((i : ℝ) + 1) * tay Real.sqrt c (i + 1) + i * tay Real.sqrt c i =
          1 / 2 * tay Real.sqrt c i := by
        have h3 := tay_congr h2 i
        rw [tay_const_mul] at h3
        cases i with
        | zero =>
          rw [tay_zero] at h3
          have h4 := tay_deriv Real.sqrt c 0
          rw [tay_zero] at h4
          rw [h4] at h3
          push_cast at h3 ⊢
          linear_combination h3
        | succ i =>
          rw [tay_id_mul han', tay_deriv, tay_deriv] at h3
          push_cast at h3 ⊢
          linear_combination h3
      show tay Real.sqrt c (i + 1) = _ * tay Real.sqrt c i
      have hi : ((i : ℝ) + 1) ≠ 0 := by positivity
      push_cast
      have hc : c ≠ 0 := h.ne'
      field_simp
      linear_combination 2 * key
  | exp =>
    simp only
    cases i with
    | zero => rw [if_pos rfl, tay_zero]; rfl
    | succ i =>
      rw [if_neg (by omega), if_pos (by omega)]
      have h1 := tay_deriv Real.exp c i
      rw [Real.deriv_exp] at h1
      have hi : ((i : ℝ) + 1) ≠ 0 := by positivity
      show tay Real.exp c (i + 1) = tay Real.exp c i / _
      push_cast
      field_simp
      linear_combination -h1
  | log =>
    have h : 0 < c := h
    simp only
    have hd : _root_.deriv Real.log = Op.recip.fn := by
      funext x; rw [Real.deriv_log]; rfl
    rcases i with _ | _ | i
    · rw [if_pos rfl, tay_zero]; rfl
    · have h1 := tay_deriv Real.log c 0
      rw [hd, tay_zero] at h1
      rw [if_neg (by omega), if_pos rfl, one_div]
      have h1 : c⁻¹ = _ := h1
      rw [h1]
      show tay Real.log c (0 + 1) = _
      push_cast; ring
    · rw [if_neg (by omega), if_neg (by omega), if_pos (by omega), if_pos (by omega)]
      have h1 := tay_deriv Real.log c 0
      rw [hd, tay_zero] at h1
      have h1 : c⁻¹ = _ := h1
      have h2 := tay_deriv Real.log c i
      have h3 := tay_deriv Real.log c (i + 1)
      have h4 := tay_id_mul (Op.analytic .recip c (ne_of_gt h)) i
      have h5 : (fun x => x * Op.recip.fn x) =ᶠ[𝓝 c] fun _ => 1 := by
        filter_upwards [isOpen_ne.mem_nhds h.ne'] with x hx
        exact mul_inv_cancel₀ hx
      rw [tay_congr h5, tay_const, if_neg (by omega), ← hd, h2, h3] at h4
      show tay Real.log c (i + 2) = -tay Real.log c (i + 1) * tay Real.log c 1 * _ / _
      have hi : ((i : ℝ) + 2) ≠ 0 := by positivity
      have h6 : tay Real.log c 1 = c⁻¹ := by rw [h1]; push_cast; ring
      rw [h6]
      have e1 : i + 1 + 1 - 1 = i + 1 := by omega
      rw [e1]
      push_cast at h4 ⊢
      have hc := h.ne'
      have e2 : (i : ℝ) + 1 + 1 ≠ 0 := by positivity
      field_simp
      linear_combination -h4
  | sin =>
    simp only
    have hd : _root_.deriv Real.sin = Real.cos := by funext x; simp
    have hd' : _root_.deriv Real.cos = fun x => (-1) * Real.sin x := by funext x; simp
    rcases i with _ | _ | i
    · rw [if_pos rfl, tay_zero]; rfl
    · have h1 := tay_deriv Real.sin c 0
      rw [hd, tay_zero] at h1
      rw [if_neg (by omega), if_pos rfl]
      show tay Real.sin c (0 + 1) = Real.cos c
      rw [h1]; push_cast; ring
    · rw [if_neg (by omega), if_neg (by omega), if_pos (by omega)]
      have h1 := tay_deriv Real.sin c (i + 1)
      have h2 := tay_deriv Real.cos c i
      rw [hd', tay_const_mul] at h2
      rw [hd] at h1
      show tay Real.sin c (i + 1 + 1) = -tay Real.sin c (i + 1 + 1 - 2) / _
      have e1 : i + 1 + 1 - 2 = i := by omega
      have e2 : i + 1 + 1 - 1 = i + 1 := by omega
      rw [e1, e2]
      push_cast at h1 ⊢
      have e3 : (i : ℝ) + 1 + 1 ≠ 0 := by positivity
      have e4 : (i : ℝ) + 1 ≠ 0 := by positivity
      field_simp
      rw [h1] at h2
      linear_combination -h2
  | cos =>
    simp only
    have hd : _root_.deriv Real.sin = Real.cos := by funext x; simp
    have hd' : _root_.deriv Real.cos = fun x => (-1) * Real.sin x := by funext x; simp
    rcases i with _ | _ | i
    · rw [if_pos rfl, tay_zero]; rfl
    · have h1 := tay_deriv Real.cos c 0
      rw [hd', tay_const_mul, tay_zero] at h1
      rw [if_neg (by omega), if_pos rfl]
      show tay Real.cos c (0 + 1) = -Real.sin c
      push_cast at h1
      linear_combination -h1
    · rw [if_neg (by omega), if_neg (by omega), if_pos (by omega)]
      have h1 := tay_deriv Real.cos c (i + 1)
      have h2 := tay_deriv Real.sin c i
      rw [hd', tay_const_mul] at h1
      rw [hd] at h2
      show tay Real.cos c (i + 1 + 1) = -tay Real.cos c (i + 1 + 1 - 2) / _
      have e1 : i + 1 + 1 - 2 = i := by omega
      have e2 : i + 1 + 1 - 1 = i + 1 := by omega
      rw [e1, e2]
      push_cast at h1 ⊢
      have e3 : (i : ℝ) + 1 + 1 ≠ 0 := by positivity
      have e4 : (i : ℝ) + 1 ≠ 0 := by positivity
      field_simp
      rw [h2]
      linear_combination -((i : ℝ) + 1) * h1
  | tan =>
    have h : Real.cos c ≠ 0 := h
    simp only
    have hev : _root_.deriv Real.tan =ᶠ[𝓝 c] fun x => 1 + Real.tan x * Real.tan x := by
      have : ∀ᶠ x in 𝓝 c, Real.cos x ≠ 0 :=
        Real.continuous_cos.continuousAt.eventually_ne h
      filter_upwards [this] with x hx
      rw [Real.deriv_tan, Real.tan_eq_sin_div_cos]
      have := Real.sin_sq_add_cos_sq x
      field_simp
      linear_combination -this
    have han : AnalyticAt ℝ Real.tan c := han
    have key : ∀ i : ℕ, ((i : ℝ) + 1) * tay Real.tan c (i + 1) = (if i = 0 then 1 else 0) +
        ∑ j ∈ Finset.range (i + 1), tay Real.tan c j * tay Real.tan c (i - j) := by
      intro i
      rw [← tay_deriv, tay_congr hev, tay_add (f := fun _ => 1)
        (g := fun x => Real.tan x * Real.tan x) analyticAt_const (han.mul han), tay_const,
        tay_mul han han]
    rcases i with _ | _ | _ | i
    · rw [if_pos rfl, tay_zero]; rfl
    · have h1 := key 0
      rw [if_neg (by omega), if_pos rfl, if_pos (by omega)]
      simp only [if_true, zero_add, Finset.sum_range_one, Nat.sub_self] at h1
      show tay Real.tan c 1 = 1 + tay Real.tan c 0 * tay Real.tan c 0
      rw [← h1]; push_cast; ring
    · have h1 := key 1
      rw [if_neg (by omega), if_neg (by omega), if_pos rfl, if_pos (by omega), if_pos (by omega)]
      rw [if_neg (by omega), Finset.sum_range_succ, Finset.sum_range_one] at h1
      show tay Real.tan c 2 = tay Real.tan c 0 * tay Real.tan c 1
      have e : (1 : ℕ) - 0 = 1 := rfl
      have e' : (1 : ℕ) - 1 = 0 := rfl
      rw [e, e'] at h1
      push_cast at h1
      linear_combination h1 / 2
    · have h1 := key (i + 2)
      rw [if_neg (by omega), if_neg (by omega), if_neg (by omega)]
      rw [if_neg (by omega), zero_add, Finset.sum_range_succ'] at h1
      have hfold : ∀ (l : List Nat) (g : Nat → ℝ) (r : ℝ),
          l.foldl (fun r i => r + g i) r = r + (l.map g).sum := by
        intro l g
        induction l with
        | nil => intro r; simp
        | cons a l ih => intro r; rw [List.foldl_cons, ih, List.map_cons, List.sum_cons]; ring
      have e1 : i + 2 + 1 - 1 = i + 2 := by omega
      have e1' : i + 1 + 1 + 1 - 1 = i + 2 := by omega
      rw [e1', if_pos (by omega), if_pos (by omega)]
      show tay Real.tan c (i + 2 + 1) = _
      have hcoe : ((i + 1 + 1 + 1 : ℕ) : ℝ) = ((i + 2 : ℕ) : ℝ) + 1 := by push_cast; ring
      have hne : ((i + 2 : ℕ) : ℝ) + 1 ≠ 0 := by positivity
      rw [hcoe, eq_div_iff hne, mul_comm, h1, hfold, Nat.sub_zero, add_comm]
      show tay Real.tan c 0 * tay Real.tan c (i + 2) + _ = _
      congr 1
      rw [List.map_map, Finset.sum_eq_multiset_sum]
      show ((List.range (i + 2)).map _).sum = _
      congr 1
      apply List.map_congr_left
      intro j hj
      have hj' := List.mem_range.1 hj
      show _ = (if j + 1 < i + 1 + 1 + 1 then tay Real.tan c (j + 1) else 0) *
        (if i + 2 - (j + 1) < i + 1 + 1 + 1 then tay Real.tan c (i + 2 - (j + 1)) else 0)
      rw [if_pos (by omega), if_pos (by omega)]
  | atan =>
    simp only
    have hone : ∀ x : ℝ, 1 + x * x ≠ 0 := fun x => by nlinarith [mul_self_nonneg x]
    have hev : (fun x => _root_.deriv Real.arctan x + x * (x * _root_.deriv Real.arctan x)) =
        fun _ => 1 := by
      funext x
      rw [Real.deriv_arctan]
      have := hone x
      have h2 : 1 + x ^ 2 ≠ 0 := by rw [pow_two]; exact this
      field_simp
    have han' : AnalyticAt ℝ (_root_.deriv Real.arctan) c := han.deriv
    have hg : AnalyticAt ℝ (fun x => x * _root_.deriv Real.arctan x) c :=
      (analyticAt_id (𝕜 := ℝ)).mul han'
    have hg2 : AnalyticAt ℝ (fun x => x * (x * _root_.deriv Real.arctan x)) c :=
      (analyticAt_id (𝕜 := ℝ)).mul hg
    have ht1 : tay Real.arctan c 1 = 1 / (1 + c * c) := by
      have h1 := tay_deriv Real.arctan c 0
      rw [tay_zero, Real.deriv_arctan] at h1
      push_cast at h1
      rw [pow_two] at h1
      linear_combination -h1
    have hc := hone c
    rcases i with _ | _ | _ | i
    · rw [if_pos rfl, tay_zero]; rfl
    · rw [if_neg (by omega), if_pos rfl]
      exact ht1
    · rw [if_neg (by omega), if_neg (by omega), if_pos rfl, if_pos (by omega)]
      show tay Real.arctan c 2 = -c * (tay Real.arctan c 1 * tay Real.arctan c 1)
      have h1 := tay_add han' hg2 1
      have h0 := congrFun (congrFun (congrArg tay hev) c) 1
      rw [h0, tay_const, if_neg (by omega), tay_id_mul hg 0, tay_id_mul han' 0, tay_zero (fun x => _),
        tay_deriv, tay_zero] at h1
      have h2 := tay_deriv Real.arctan c 0
      rw [tay_zero] at h2
      rw [h2] at h1
      push_cast at h1
      rw [ht1] at h1 ⊢
      field_simp
      field_simp at h1
      linear_combination -h1 / 2
    · rw [if_neg (by omega), if_neg (by omega), if_neg (by omega), if_pos (by omega),
        if_pos (by omega), if_pos (by omega)]
      show tay Real.arctan c (i + 3) = -tay Real.arctan c 1 *
        (((i + 3 - 2 : ℕ) : ℝ) * tay Real.arctan c (i + 3 - 2) +
          2 * ((i + 3 - 1 : ℕ) : ℝ) * c * tay Real.arctan c (i + 3 - 1)) / ((i + 3 : ℕ) : ℝ)
      have e1 : i + 3 - 2 = i + 1 := by omega
      have e2 : i + 3 - 1 = i + 2 := by omega
      rw [e1, e2]
      have h1 := tay_add han' hg2 (i + 2)
      have h0 := congrFun (congrFun (congrArg tay hev) c) (i + 2)
      rw [h0, tay_const, if_neg (by omega), tay_id_mul hg (i + 1), tay_id_mul han' (i + 1),
        tay_id_mul han' i, tay_deriv, tay_deriv, tay_deriv] at h1
      rw [ht1]
      push_cast at h1 ⊢
      have e3 : (i : ℝ) + 3 ≠ 0 := by positivity
      field_simp
      linear_combination -h1

/-- **C44** (series): the coefficients computed for an elementary function at a point of its domain are
its Taylor coefficients, that is, its derivatives divided by factorials. -/
theorem C44_series (op : Op) (c : ℝ) (h : op.dom c) (k i : Nat) (hi : i < k) :
    (series realFns op c k).length = k ∧
    (series realFns op c k).getD i 0 = iteratedDeriv i op.fn c / i.factorial := by
  refine ⟨series_length _ _ _ _, ?_⟩
  rw [series_eq realFns op c (tay op.fn c) k (fun i _ => tay_next op c h i), getD_range_map, if_pos hi,
    tay]

end Taylor

end Verif.Differential
