import Verif.FixedDifferential.Model
import Verif.FixedDifferential.Calculus
import Mathlib.Analysis.SpecialFunctions.ExpDeriv
import Mathlib.Analysis.SpecialFunctions.Log.Deriv
import Mathlib.Analysis.SpecialFunctions.Sqrt
import Mathlib.Analysis.SpecialFunctions.Trigonometric.Deriv
import Mathlib.Analysis.SpecialFunctions.Trigonometric.ArctanDeriv
import Mathlib.Analysis.SpecialFunctions.Trigonometric.InverseDeriv
import Mathlib.Analysis.Calculus.Deriv.ZPow

/-!
# Numbers for first and second differentials: what is assumed of the operations on them
-/

namespace Verif.FixedDifferential

open Filter Topology
open Ariadne.Symbolic (UnOp BinOp)

/-- spec: the operators on real numbers. -/
noncomputable def fn : UnOp → ℝ → ℝ
  | .nul, _ => 0
  | .pos, x => x
  | .neg, x => -x
  | .sqr, x => x * x
  | .hlf, x => x / 2
  | .recip, x => x⁻¹
  | .sqrt, x => Real.sqrt x
  | .exp, x => Real.exp x
  | .log, x => Real.log x
  | .sin, x => Real.sin x
  | .cos, x => Real.cos x
  | .tan, x => Real.tan x
  | .asin, x => Real.arcsin x
  | .acos, x => Real.arccos x
  | .atan, x => Real.arctan x
  | .abs, x => |x|

/-- spec: the operators of two arguments on real numbers. -/
noncomputable def fn2 : BinOp → ℝ → ℝ → ℝ
  | .add, x, y => x + y
  | .sub, x, y => x - y
  | .mul, x, y => x * y
  | .div, x, y => x / y
  | .max, x, y => max x y
  | .min, x, y => min x y

variable {X : Type*}

/-- spec: the operations on numbers enclose those on the real numbers; `nz` tells that a number is
certainly not zero, `ps` that it is certainly positive. -/
structure Sound (o : Num X) (mem : X → ℝ → Prop) (nz ps : X → Prop) : Prop where
  ofInt : ∀ k : ℤ, mem (o.ofInt k) k
  add : ∀ {a b x y}, mem a x → mem b y → mem (o.add a b) (x + y)
  sub : ∀ {a b x y}, mem a x → mem b y → mem (o.sub a b) (x - y)
  mul : ∀ {a b x y}, mem a x → mem b y → mem (o.mul a b) (x * y)
  div : ∀ {a b x y}, mem a x → mem b y → nz b → mem (o.div a b) (x / y)
  two : nz (o.ofInt 2)
  neg : ∀ {a x}, mem a x → mem (o.neg a) (-x)
  hlf : ∀ {a x}, mem a x → mem (o.hlf a) (x / 2)
  sqr : ∀ {a x}, mem a x → mem (o.sqr a) (x * x)
  recip : ∀ {a x}, mem a x → nz a → mem (o.recip a) x⁻¹
  sqrt : ∀ {a x}, mem a x → ps a → mem (o.sqrt a) (Real.sqrt x)
  exp : ∀ {a x}, mem a x → mem (o.exp a) (Real.exp x)
  log : ∀ {a x}, mem a x → ps a → mem (o.log a) (Real.log x)
  sin : ∀ {a x}, mem a x → mem (o.sin a) (Real.sin x)
  cos : ∀ {a x}, mem a x → mem (o.cos a) (Real.cos x)
  tan : ∀ {a x}, mem a x → nz (o.cos a) → mem (o.tan a) (Real.tan x)
  asin : ∀ {a x}, mem a x → ps (o.sub (o.ofInt 1) (o.sqr a)) → mem (o.asin a) (Real.arcsin x)
  acos : ∀ {a x}, mem a x → ps (o.sub (o.ofInt 1) (o.sqr a)) → mem (o.acos a) (Real.arccos x)
  atan : ∀ {a x}, mem a x → mem (o.atan a) (Real.arctan x)
  pow : ∀ {a x} (m : ℤ), mem a x → 0 ≤ m ∨ nz a → mem (o.pow a m) (x ^ m)
  nz_ne : ∀ {a x}, mem a x → nz a → x ≠ 0
  ps_pos : ∀ {a x}, mem a x → ps a → 0 < x

/-- spec: comparisons of numbers decide those of the real numbers. -/
def Decides (o : Num X) (mem : X → ℝ → Prop) : Prop :=
  ∀ a b x y, mem a x → mem b y → (o.eq a b = true ↔ x = y) ∧ (o.lt a b = true ↔ x < y)

/-- spec: what must be certain of a number for the derivatives of an operator to be computed. -/
def UnDom (o : Num X) (nz ps : X → Prop) : UnOp → X → Prop
  | .recip, a => nz a
  | .sqrt, a => ps a ∧ nz (o.mul (o.ofInt 2) (o.sqrt a)) ∧ nz (o.mul (o.mul (o.ofInt 4) (o.sqrt a)) a)
  | .log, a => ps a ∧ nz a
  | .tan, a => nz (o.cos a)
  | .asin, a => ps (o.sub (o.ofInt 1) (o.sqr a)) ∧ nz (o.sqrt (o.sub (o.ofInt 1) (o.sqr a)))
  | .acos, a => ps (o.sub (o.ofInt 1) (o.sqr a)) ∧ nz (o.sqrt (o.sub (o.ofInt 1) (o.sqr a)))
  | .atan, a => nz (o.add (o.ofInt 1) (o.sqr a))
  | _, _ => True

/-- Points where an operator is smooth. -/
def RDom : UnOp → ℝ → Prop
  | .recip, x => x ≠ 0
  | .sqrt, x => 0 < x
  | .log, x => 0 < x
  | .tan, x => Real.cos x ≠ 0
  | .asin, x => 0 < 1 - x * x
  | .acos, x => 0 < 1 - x * x
  | .abs, x => x ≠ 0
  | _, _ => True

/-- The first derivatives of the operators. -/
noncomputable def d1 : UnOp → ℝ → ℝ
  | .nul, _ => 0
  | .pos, _ => 1
  | .neg, _ => -1
  | .sqr, x => 2 * x
  | .hlf, _ => 1 / 2
  | .recip, x => -(x⁻¹ * x⁻¹)
  | .sqrt, x => (2 * Real.sqrt x)⁻¹
  | .exp, x => Real.exp x
  | .log, x => x⁻¹
  | .sin, x => Real.cos x
  | .cos, x => -Real.sin x
  | .tan, x => (Real.cos x)⁻¹ * (Real.cos x)⁻¹
  | .asin, x => (Real.sqrt (1 - x * x))⁻¹
  | .acos, x => -(Real.sqrt (1 - x * x))⁻¹
  | .atan, x => (1 + x * x)⁻¹
  | .abs, x => if 0 < x then 1 else -1

/-- The second derivatives of the operators used by second differentials. -/
noncomputable def d2 : UnOp → ℝ → ℝ
  | .sqr, _ => 2
  | .recip, x => 2 * (x⁻¹ * (x⁻¹ * x⁻¹))
  | .sqrt, x => -(4 * Real.sqrt x * x)⁻¹
  | .exp, x => Real.exp x
  | .log, x => -(x⁻¹ * x⁻¹)
  | .sin, x => -Real.sin x
  | .cos, x => -Real.cos x
  | .tan, x => 2 * Real.tan x * ((Real.cos x)⁻¹ * (Real.cos x)⁻¹)
  | .atan, x => -2 * x * ((1 + x * x)⁻¹ * (1 + x * x)⁻¹)
  | _, _ => 0

theorem hasDerivAt_fn {op : UnOp} (ha : op ≠ .abs) {x : ℝ} (h : RDom op x) : HasDerivAt (fn op) (d1 op x) x := by
  cases op <;> simp only [d1, RDom] at *
  case nul => exact hasDerivAt_const x 0
  case pos => exact hasDerivAt_id x
  case neg => exact (hasDerivAt_id x).fun_neg
  case sqr => exact ((hasDerivAt_id x).fun_mul (hasDerivAt_id x)).congr_deriv (by simp; ring)
  case hlf => exact (hasDerivAt_id x).div_const 2
  case recip => exact (hasDerivAt_inv h).congr_deriv (by field_simp)
  case sqrt => exact (Real.hasDerivAt_sqrt h.ne').congr_deriv (by rw [one_div])
  case exp => exact Real.hasDerivAt_exp x
  case log => exact Real.hasDerivAt_log h.ne'
  case sin => exact Real.hasDerivAt_sin x
  case cos => exact Real.hasDerivAt_cos x
  case tan => exact (Real.hasDerivAt_tan h).congr_deriv (by field_simp)
  case asin =>
    exact (Real.hasDerivAt_arcsin (by nlinarith) (by nlinarith)).congr_deriv (by rw [one_div, pow_two])
  case acos =>
    exact (Real.hasDerivAt_arccos (by nlinarith) (by nlinarith)).congr_deriv (by rw [one_div, pow_two])
  case atan => exact (Real.hasDerivAt_arctan x).congr_deriv (by rw [one_div, pow_two])
  case abs => exact absurd rfl ha

theorem hasDerivAt_d1 {op : UnOp} (ha : op ≠ .abs) (h1 : op ≠ .asin) (h2 : op ≠ .acos) {x : ℝ}
    (h : RDom op x) : HasDerivAt (d1 op) (d2 op x) x := by
  cases op <;> simp only [d2, RDom] at *
  case nul => exact hasDerivAt_const x _
  case pos => exact hasDerivAt_const x _
  case neg => exact hasDerivAt_const x _
  case sqr => exact ((hasDerivAt_id x).const_mul 2).congr_deriv (by simp)
  case hlf => exact hasDerivAt_const x _
  case recip =>
    exact (((hasDerivAt_inv h).fun_mul (hasDerivAt_inv h)).fun_neg).congr_deriv (by field_simp; ring)
  case sqrt =>
    have hs := Real.sqrt_pos.2 h
    have hq := Real.mul_self_sqrt h.le
    refine (((Real.hasDerivAt_sqrt h.ne').const_mul 2).fun_inv (by positivity)).congr_deriv ?_
    rw [show (2 * Real.sqrt x) ^ 2 = 4 * x by rw [mul_pow, Real.sq_sqrt h.le]; ring]
    field_simp
  case exp => exact Real.hasDerivAt_exp x
  case log => exact (hasDerivAt_inv h.ne').congr_deriv (by field_simp)
  case sin => exact Real.hasDerivAt_cos x
  case cos => exact (Real.hasDerivAt_sin x).fun_neg
  case tan =>
    have hc := (Real.hasDerivAt_cos x).fun_inv h
    refine (hc.fun_mul hc).congr_deriv ?_
    rw [Real.tan_eq_sin_div_cos]
    field_simp
    ring
  case atan =>
    have hp : 1 + x * x ≠ 0 := (by nlinarith [mul_self_nonneg x] : 0 < 1 + x * x).ne'
    have hq := ((((hasDerivAt_id x).fun_mul (hasDerivAt_id x)).const_add 1).fun_inv (by simpa using hp))
    refine hq.congr_deriv ?_
    simp only [id]
    field_simp
    ring
  all_goals contradiction

theorem ev_RDom {op : UnOp} {x : ℝ} (h : RDom op x) : ∀ᶠ y in 𝓝 x, RDom op y := by
  cases op <;> simp only [RDom] at * <;> try exact Filter.Eventually.of_forall fun _ => trivial
  case recip => exact continuousAt_id.eventually_ne h
  case sqrt => exact continuousAt_id.eventually_const_lt h
  case log => exact continuousAt_id.eventually_const_lt h
  case tan => exact Real.continuous_cos.continuousAt.eventually_ne h
  case asin =>
    have : ContinuousAt (fun x : ℝ => 1 - x * x) x := by fun_prop
    exact this.eventually_const_lt h
  case acos =>
    have : ContinuousAt (fun x : ℝ => 1 - x * x) x := by fun_prop
    exact this.eventually_const_lt h
  case abs => exact continuousAt_id.eventually_ne h

theorem contDiffAt_fn {op : UnOp} (ha : op ≠ .abs) (h1 : op ≠ .asin) (h2 : op ≠ .acos) {x : ℝ}
    (h : RDom op x) : ContDiffAt ℝ 2 (fn op) x := by
  cases op
  case nul => exact contDiffAt_const
  case pos => exact contDiffAt_id
  case neg => exact contDiffAt_id.neg
  case sqr => exact contDiffAt_id.mul contDiffAt_id
  case hlf => exact contDiffAt_id.div_const 2
  case recip => exact contDiffAt_inv ℝ h
  case sqrt => exact Real.contDiffAt_sqrt (ne_of_gt h)
  case exp => exact Real.contDiff_exp.contDiffAt
  case log => exact Real.contDiffAt_log.2 (ne_of_gt h)
  case sin => exact Real.contDiff_sin.contDiffAt
  case cos => exact Real.contDiff_cos.contDiffAt
  case tan => exact Real.contDiffAt_tan.2 h
  case atan => exact Real.contDiff_arctan.contDiffAt
  all_goals contradiction

variable {o : Num X} {mem : X → ℝ → Prop} {nz ps : X → Prop}

theorem rdom_of (S : Sound o mem nz ps) {op : UnOp} (ha : op ≠ .abs) {a : X} {x : ℝ} (hm : mem a x)
    (h : UnDom o nz ps op a) : RDom op x := by
  cases op <;> simp only [RDom, UnDom] at * <;> try contradiction
  case recip => exact S.nz_ne hm h
  case sqrt => exact S.ps_pos hm h.1
  case log => exact S.ps_pos hm h.1
  case tan => exact S.nz_ne (S.cos hm) h
  case asin => simpa using S.ps_pos (S.sub (S.ofInt 1) (S.sqr hm)) h.1
  case acos => simpa using S.ps_pos (S.sub (S.ofInt 1) (S.sqr hm)) h.1

end Verif.FixedDifferential
