import Verif.FixedDifferential.SecondProps
import Verif.Procedure.Compile

/-!
# C99: univariate second differentials and second derivatives of procedures
-/

namespace Verif.FixedDifferential

open Filter Topology
open Ariadne.Symbolic (UnOp BinOp)
open Verif.Procedure (Alg Formula Coherent compile)

variable {X : Type*} {o : Num X} {mem : X → ℝ → Prop} {nz ps : X → Prop}

theorem deriv_dd (g : ℝ → ℝ) (t : ℝ) : deriv g t = dd 1 g t := by rw [deriv_eq_dd]

theorem deriv2_dd (g : ℝ → ℝ) (t : ℝ) : deriv (deriv g) t = dd 1 (dd 1 g) t := by
  rw [deriv_eq_dd, deriv_eq_dd]

theorem d2_comp {op : UnOp} (ha : op ≠ .abs) (h1 : op ≠ .asin) (h2 : op ≠ .acos)
    {g : ℝ → ℝ} {t : ℝ} (hg : ContDiffAt ℝ 2 g t) (hr : RDom op (g t)) :
    deriv (deriv fun s => fn op (g s)) t =
      d1 op (g t) * deriv (deriv g) t + d2 op (g t) * (deriv g t * deriv g t) := by
  rw [deriv2_dd, deriv2_dd, deriv_dd]
  exact dd2_comp ((ev_RDom hr).mono fun _ h => hasDerivAt_fn ha h) (hasDerivAt_d1 ha h1 h2 hr) hg

theorem d1_comp {op : UnOp} (ha : op ≠ .abs) {g : ℝ → ℝ} {t : ℝ} (hg : ContDiffAt ℝ 2 g t)
    (hr : RDom op (g t)) : deriv (fun s => fn op (g s)) t = d1 op (g t) * deriv g t := by
  rw [deriv_dd, deriv_dd]
  exact dd_comp (hasDerivAt_fn ha hr) (diff2 hg)

/-- **C99** Constants and variables. -/
theorem C99_univariate_variables (S : Sound o mem nz ps) (t : ℝ) :
    (∀ c y, mem c y → (USecond.constant o c).Has mem (fun _ => y) t) ∧
    ∀ v y, mem v y → (USecond.var o v).Has mem (fun s => y + (s - t)) t := by
  refine ⟨fun c y h => ⟨contDiffAt_const, h, ?_, ?_⟩, fun v y h => ⟨by fun_prop, mem_eq h (by simp), ?_, ?_⟩⟩
  · exact mem_eq (S.ofInt 0) (by simp)
  · exact mem_eq (S.ofInt 0) (by simp)
  · exact mem_eq (S.ofInt 1) (by simp)
  · exact mem_eq (S.ofInt 0) (by simp)

/-- **C99** Sums, differences, products and quotients. -/
theorem C99_univariate_arithmetic (S : Sound o mem nz ps) {x y : USecond X} {g h : ℝ → ℝ}
    {t : ℝ} (hx : x.Has mem g t) (hy : y.Has mem h t) {op : BinOp} (hM : op ≠ .max) (hm : op ≠ .min)
    (hz : op = .div → nz y.value) :
    ∃ r, USecond.bin o op x y = some r ∧ r.Has mem (fun s => fn2 op (g s) (h s)) t := by
  have dx := hx.gradient
  have dy := hy.gradient
  have sx := hx.half
  have sy := hy.half
  rw [deriv_dd] at dx dy
  rw [deriv2_dd] at sx sy
  have hvx := hx.value
  have hvy := hy.value
  cases op
  case add =>
    refine ⟨_, rfl, hx.smooth.add hy.smooth, S.add hvx hvy, ?_, ?_⟩
    · rw [deriv_dd]; simp only [fn2]; rw [dd_add (diff2 hx.smooth) (diff2 hy.smooth)]; exact S.add dx dy
    · rw [deriv2_dd]; simp only [fn2]; rw [dd2_add hx.smooth hy.smooth]
      exact mem_eq (S.add sx sy) (by ring)
  case sub =>
    refine ⟨_, rfl, hx.smooth.sub hy.smooth, S.sub hvx hvy, ?_, ?_⟩
    · rw [deriv_dd]; simp only [fn2]; rw [dd_sub (diff2 hx.smooth) (diff2 hy.smooth)]; exact S.sub dx dy
    · rw [deriv2_dd]; simp only [fn2]; rw [dd2_sub hx.smooth hy.smooth]
      exact mem_eq (S.sub sx sy) (by ring)
  case mul =>
    refine ⟨_, rfl, hx.smooth.mul hy.smooth, S.mul hvx hvy, ?_, ?_⟩
    · rw [deriv_dd]; simp only [fn2]; rw [dd_mul (diff2 hx.smooth) (diff2 hy.smooth)]
      exact S.add (S.mul dx hvy) (S.mul hvx dy)
    · rw [deriv2_dd]; simp only [fn2]; rw [dd2_mul hx.smooth hy.smooth]
      exact mem_eq (S.add (S.add (S.mul sx hvy) (S.mul dx dy)) (S.mul hvx sy)) (by ring)
  case div =>
    have hz := hz rfl
    have h0 := S.nz_ne hvy hz
    refine ⟨_, rfl, hx.smooth.div hy.smooth h0, S.div hvx hvy hz, ?_, ?_⟩
    · rw [deriv_dd]; simp only [fn2]; rw [dd_div (diff2 hx.smooth) (diff2 hy.smooth) h0]
      exact S.div (S.sub dx (S.mul (S.div hvx hvy hz) dy)) hvy hz
    · have hi : ContDiffAt ℝ 2 (fun s => (h s)⁻¹) t := hy.smooth.inv h0
      have e1 : dd 1 (fun s => (h s)⁻¹) t = d1 .recip (h t) * dd 1 h t :=
        dd_comp (hasDerivAt_fn (op := .recip) (by simp) h0) (diff2 hy.smooth)
      have e2 : dd 1 (dd 1 fun s => (h s)⁻¹) t =
          d1 .recip (h t) * dd 1 (dd 1 h) t + d2 .recip (h t) * (dd 1 h t * dd 1 h t) :=
        dd2_comp ((ev_RDom (op := .recip) h0).mono fun _ h => hasDerivAt_fn (op := .recip) (by simp) h)
          (hasDerivAt_d1 (op := .recip) (by simp) (by simp) (by simp) h0) hy.smooth
      rw [deriv2_dd]; simp only [fn2, div_eq_mul_inv _ (h _)]; rw [dd2_mul hx.smooth hi, e1, e2]
      refine mem_eq (S.add (S.sub (S.sub (S.div sx hvy hz) (S.mul (S.div hvx hvy hz) (S.div sy hvy hz)))
        (S.mul (S.div dx hvy hz) (S.div dy hvy hz))) (S.mul (S.div hvx hvy hz) (S.sqr (S.div dy hvy hz)))) ?_
      simp only [d1, d2]
      field_simp
      ring
  case max => exact absurd rfl hM
  case min => exact absurd rfl hm

/-- **C99** Sums with and multiples by a number. -/
theorem C99_univariate_scalar (S : Sound o mem nz ps) {x : USecond X} {g : ℝ → ℝ} {t : ℝ}
    (hx : x.Has mem g t) {c : X} {y : ℝ} (hc : mem c y) :
    (∃ r, USecond.scalar o .add x c = some r ∧ r.Has mem (fun s => g s + y) t) ∧
    (∃ r, USecond.scalar o .sub x c = some r ∧ r.Has mem (fun s => g s - y) t) ∧
    (∃ r, USecond.scalar o .mul x c = some r ∧ r.Has mem (fun s => g s * y) t) ∧
    (nz c → ∃ r, USecond.scalar o .div x c = some r ∧ r.Has mem (fun s => g s / y) t) := by
  have hk : ContDiffAt ℝ 2 (fun _ : ℝ => y) t := contDiffAt_const
  have e1 : deriv (fun s => g s + y) = deriv g := funext fun s => deriv_add_const y
  have e2 : deriv (fun s => g s - y) = deriv g := funext fun s => deriv_sub_const y
  have e3 : ∀ y, deriv (fun s => g s * y) = fun s => deriv g s * y := fun y =>
    funext fun s => deriv_mul_const_field y
  refine ⟨⟨_, rfl, hx.smooth.add hk, S.add hx.value hc, e1 ▸ hx.gradient, e1 ▸ hx.half⟩,
    ⟨_, rfl, hx.smooth.sub hk, S.sub hx.value hc, e2 ▸ hx.gradient, e2 ▸ hx.half⟩,
    ⟨_, rfl, hx.smooth.mul hk, S.mul hx.value hc, ?_, ?_⟩,
    fun hz => ⟨_, rfl, hx.smooth.div_const y, S.div hx.value hc hz, ?_, ?_⟩⟩
  · rw [e3]; exact S.mul hx.gradient hc
  · rw [e3, deriv_mul_const_field]; exact mem_eq (S.mul hx.half hc) (by ring)
  · simp only [div_eq_mul_inv]; rw [e3]
    exact mem_eq (S.div hx.gradient hc hz) (div_eq_mul_inv _ _)
  · simp only [div_eq_mul_inv _ y]; rw [e3, deriv_mul_const_field]
    exact mem_eq (S.div hx.half hc hz) (by ring)

/-- **C99** The unary operators, except for squares and absolute values, and for inverse sines and cosines,
which throw. -/
theorem C99_univariate_unary (S : Sound o mem nz ps) {x : USecond X} {g : ℝ → ℝ} {t : ℝ}
    (hx : x.Has mem g t) {op : UnOp} (ha : op ≠ .abs) (h1 : op ≠ .asin) (h2 : op ≠ .acos) (h3 : op ≠ .sqr)
    (hd : UnDom o nz ps op x.value) :
    ∃ r, USecond.un o op x = some r ∧ r.Has mem (fun s => fn op (g s)) t := by
  have hv := hx.value
  have hr := rdom_of S ha hv hd
  have hs : ContDiffAt ℝ 2 (fun s => fn op (g s)) t := (contDiffAt_fn ha h1 h2 hr).comp t hx.smooth
  have e1 := d1_comp ha hx.smooth hr
  have e2 := d2_comp ha h1 h2 hx.smooth hr
  have hg := hx.gradient
  have hh := hx.half
  have key : ∀ {v d c : X}, mem v (fn op (g t)) → mem d (d1 op (g t)) → mem c (d2 op (g t) / 2) →
      (USecond.chain o v d c x).Has mem (fun s => fn op (g s)) t := by
    intro v d c hv hd hc
    refine ⟨hs, hv, ?_, ?_⟩
    · rw [e1]; exact S.mul hd hg
    · rw [e2]; exact mem_eq (S.add (S.mul hd hh) (S.mul hc (S.sqr hg))) (by ring)
  cases op <;> simp only [UnDom] at hd
  case nul =>
    refine ⟨_, rfl, hs, mem_eq (S.ofInt 0) (by simp [fn]), ?_, ?_⟩
    · rw [e1]; exact mem_eq (S.mul hg (S.ofInt 0)) (by simp [d1])
    · rw [e2]; exact mem_eq (S.add (S.mul hh (S.ofInt 0)) (S.mul (S.ofInt 0) (S.sqr hg))) (by simp [d1, d2])
  case pos => exact ⟨_, rfl, hx⟩
  case neg =>
    refine ⟨_, rfl, hs, S.neg hv, ?_, ?_⟩
    · rw [e1]; exact mem_eq (S.neg hg) (by simp [d1])
    · rw [e2]; exact mem_eq (S.neg hh) (by simp [d1, d2]; ring)
  case sqr => exact absurd rfl h3
  case hlf =>
    have hm := S.hlf (S.add (S.ofInt 0) (S.ofInt 1))
    refine ⟨_, rfl, hs, S.hlf hv, ?_, ?_⟩
    · rw [e1]; exact mem_eq (S.mul hg hm) (by simp [d1]; ring)
    · rw [e2]; exact mem_eq (S.add (S.mul hh hm) (S.mul (S.ofInt 0) (S.sqr hg))) (by simp [d1, d2]; ring)
  case recip =>
    have hq := S.neg (S.sqr (S.recip hv hd))
    exact ⟨_, rfl, key (S.recip hv hd) hq (mem_eq (S.mul (S.neg (S.recip hv hd)) hq) (by simp only [d2]; ring))⟩
  case sqrt =>
    have hq := S.sqrt hv hd.1
    exact ⟨_, rfl, key hq (mem_eq (S.recip (S.mul (S.ofInt 2) hq) hd.2.1) (by simp [d1]))
      (mem_eq (S.hlf (S.neg (S.recip (S.mul (S.mul (S.ofInt 4) hq) hv) hd.2.2))) (by simp [d2]))⟩
  case exp => exact ⟨_, rfl, key (S.exp hv) (S.exp hv) (S.hlf (S.exp hv))⟩
  case log =>
    have hq := S.recip hv hd.2
    exact ⟨_, rfl, key (S.log hv hd.1) hq (S.hlf (S.neg (S.sqr hq)))⟩
  case sin => exact ⟨_, rfl, key (S.sin hv) (S.cos hv) (S.hlf (S.neg (S.sin hv)))⟩
  case cos => exact ⟨_, rfl, key (S.cos hv) (S.neg (S.sin hv)) (S.hlf (S.neg (S.cos hv)))⟩
  case tan =>
    have hq := S.sqr (S.recip (S.cos hv) hd)
    exact ⟨_, rfl, key (S.tan hv hd) hq (mem_eq (S.hlf (S.mul (S.mul (S.ofInt 2) (S.tan hv hd)) hq)) (by simp [d2]))⟩
  case atan =>
    have hq := S.recip (S.add (S.ofInt 1) (S.sqr hv)) hd
    exact ⟨_, rfl, key (S.atan hv) (mem_eq hq (by simp [d1]))
      (mem_eq (S.hlf (S.mul (S.mul (S.ofInt (-2)) hv) (S.sqr hq))) (by simp [d2]))⟩
  all_goals contradiction

/-- **C99** Squares have the right value and derivative.  In the second derivative, the term with the second
derivative of the argument is halved; so squares are right where the argument is zero or its second derivative
is. -/
theorem C99_univariate_square_partial (S : Sound o mem nz ps) {x : USecond X} {g : ℝ → ℝ} {t : ℝ}
    (hx : x.Has mem g t) :
    ∃ r, USecond.un o .sqr x = some r ∧ mem r.value (g t * g t) ∧
      mem r.gradient (deriv (fun s => g s * g s) t) ∧
      mem r.half (deriv (deriv fun s => g s * g s) t / 2 - g t * (deriv (deriv g) t / 2)) := by
  have e1 := d1_comp (op := .sqr) (by simp) hx.smooth trivial
  have e2 := d2_comp (op := .sqr) (by simp) (by simp) (by simp) hx.smooth trivial
  simp only [fn, d1, d2] at e1 e2
  refine ⟨_, rfl, S.sqr hx.value, ?_, ?_⟩
  · rw [e1]; exact mem_eq (S.mul (S.mul (S.ofInt 2) hx.value) hx.gradient) (by simp)
  · rw [e2]; exact mem_eq (S.add (S.mul hx.value hx.half) (S.sqr hx.gradient)) (by ring)

/-- **C99** Integer powers have the right value and derivative. -/
theorem C99_univariate_power_partial (S : Sound o mem nz ps) {x : USecond X} {g : ℝ → ℝ} {t : ℝ}
    (hx : x.Has mem g t) {m : ℤ} (hm : 1 ≤ m ∨ nz x.value) :
    mem (USecond.pow o x m).value (g t ^ m) ∧
      mem (USecond.pow o x m).gradient (deriv (fun s => g s ^ m) t) := by
  have h0 : g t ≠ 0 ∨ 0 ≤ m := hm.elim (fun h => Or.inr (by omega)) fun h => Or.inl (S.nz_ne hx.value h)
  refine ⟨S.pow m hx.value (hm.imp (fun h => by omega) id), ?_⟩
  have hg := hx.gradient
  rw [deriv_dd] at hg
  rw [deriv_dd, dd_comp (F := fun y => y ^ m) (hasDerivAt_zpow m (g t) h0) (diff2 hx.smooth)]
  exact S.mul (S.mul (S.ofInt m) (S.pow (m - 1) hx.value (hm.imp (fun h => by omega) id))) hg

/-! ## Procedures -/

variable {Y : Type*}

/-- spec: the operators on real numbers, for evaluating formulae. -/
noncomputable def realAlg (val : Y → ℝ) : Alg Y ℝ where
  cst := val
  un := fn
  bin := fn2
  pow a m := a ^ m
  mix op c a := fn2 op (val c) a
  zero := 0

/-- spec: the formula only uses sums, differences, products, quotients and the unary operators which univariate
second differentials support, and the values computed for their arguments are certainly where the derivatives
exist. -/
def Safe (o : Num X) (nz ps : X → Prop) (cst : Y → X) (x : ℕ → Option (USecond X)) : Formula Y → Prop
  | .const _ _ => True
  | .ind _ _ => True
  | .un _ op a => Safe o nz ps cst x a ∧ op ≠ .abs ∧ op ≠ .asin ∧ op ≠ .acos ∧ op ≠ .sqr ∧
      ∀ d, a.eval (USecond.alg o cst) x = some d → UnDom o nz ps op d.value
  | .bin _ op a b => Safe o nz ps cst x a ∧ Safe o nz ps cst x b ∧ op ≠ .max ∧ op ≠ .min ∧
      (op = .div → ∀ d, b.eval (USecond.alg o cst) x = some d → nz d.value)
  | .graded _ _ _ => False
  | .scalar _ _ _ _ => False

theorem Safe.noScalar {cst : Y → X} {x : ℕ → Option (USecond X)} {f : Formula Y} (h : Safe o nz ps cst x f) :
    f.NoScalar := by
  induction f with
  | const p c => trivial
  | ind p i => trivial
  | un p op a ih => exact ih h.1
  | bin p op a b ih1 ih2 => exact ⟨ih1 h.1, ih2 h.2.1⟩
  | graded p a m ih => exact h.elim
  | scalar p op c a ih => exact h.elim

theorem eval_has (S : Sound o mem nz ps) {cst : Y → X} {val : Y → ℝ} (hc : ∀ c, mem (cst c) (val c))
    {x : ℕ → Option (USecond X)} {g : ℕ → ℝ → ℝ} {t : ℝ}
    (hx : ∀ i, ∃ d, x i = some d ∧ d.Has mem (g i) t) (f : Formula Y) (hf : Safe o nz ps cst x f) :
    ∃ d, f.eval (USecond.alg o cst) x = some d ∧
      d.Has mem (fun s => f.eval (realAlg val) fun i => g i s) t := by
  induction f with
  | const p c => exact ⟨_, rfl, (C99_univariate_variables S t).1 _ _ (hc c)⟩
  | ind p i => exact hx i
  | un p op a ih =>
    obtain ⟨ha, h1, h2, h3, h4, h5⟩ := hf
    obtain ⟨d, e1, e2⟩ := ih ha
    obtain ⟨r, r1, r2⟩ := C99_univariate_unary S e2 h1 h2 h3 h4 (h5 d e1)
    exact ⟨r, by simp only [Formula.eval, USecond.alg] at e1 ⊢; rw [e1]; exact r1, r2⟩
  | bin p op a b ih1 ih2 =>
    obtain ⟨ha, hb, h1, h2, h3⟩ := hf
    obtain ⟨d, e1, e2⟩ := ih1 ha
    obtain ⟨d', e1', e2'⟩ := ih2 hb
    obtain ⟨r, r1, r2⟩ := C99_univariate_arithmetic S e2 e2' h1 h2 fun h => h3 h d' e1'
    exact ⟨r, by simp only [Formula.eval, USecond.alg] at e1 e1' ⊢; rw [e1, e1']; exact r1, r2⟩
  | graded p a m ih => exact hf.elim
  | scalar p op c a ih => exact hf.elim

/-- **C99** `hessian(f,x,s)` for the procedure compiled from a formula is the second derivative of the formula
along the line through `x` in direction `s`.  Missing: formulae with squares, integer powers, absolute values,
maxima, minima, and inverse sines and cosines; for squares and powers the result is wrong. -/
theorem C99_hessian_partial (S : Sound o mem nz ps) {cst : Y → X} {val : Y → ℝ} (hc : ∀ c, mem (cst c) (val c))
    {x s : ℕ → X} {p v : ℕ → ℝ} (hx : ∀ i, mem (x i) (p i)) (hs : ∀ i, mem (s i) (v i)) (rf : Bool)
    (f : Formula Y) (hn : Coherent f.nodes) (hf : Safe o nz ps cst (line o x s) f) :
    ∃ H, procHessian o cst (compile rf f) x s = some H ∧
      mem H (deriv (deriv fun r : ℝ => f.eval (realAlg val) fun i => p i + r * v i) 0) := by
  have hl : ∀ i, ∃ d, line o x s i = some d ∧ d.Has mem (fun r => p i + r * v i) 0 := by
    intro i
    have h0 : mem (o.ofInt 0) 0 := mem_eq (S.ofInt 0) (by simp)
    obtain ⟨r, r1, r2⟩ := (C99_univariate_scalar S ((C99_univariate_variables S 0).2 _ _ h0) (hs i)).2.2.1
    obtain ⟨q, q1, q2⟩ := (C99_univariate_scalar S r2 (hx i)).1
    refine ⟨q, by simp only [line, r1, Option.bind_some]; exact q1, ?_⟩
    have : (fun r => p i + r * v i) = fun r => (0 + (r - 0)) * v i + p i := funext fun r => by ring
    rw [this]; exact q2
  obtain ⟨d, d1, d2⟩ := eval_has S hc hl f hf
  refine ⟨USecond.hessian o d, ?_, ?_⟩
  · rw [procHessian, Verif.Procedure.C32_compile_partial _ rf f hn hf.noScalar, d1]; rfl
  · exact mem_eq (S.mul d2.half (S.ofInt 2)) (by push_cast; ring)

end Verif.FixedDifferential
