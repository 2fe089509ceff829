import Verif.FixedDifferential.Scalar
import Mathlib.Analysis.Calculus.FDeriv.Pi

/-!
# C99: first and second differentials hold partial derivatives
-/

namespace Verif.FixedDifferential

open Filter Topology
open Ariadne.Symbolic (UnOp BinOp)

variable {X : Type*} {o : Num X} {mem : X → ℝ → Prop} {nz ps : X → Prop} {n : ℕ}

/-- spec: the partial derivative with respect to the `j`-th variable. -/
noncomputable def pd (j : Fin n) (g : (Fin n → ℝ) → ℝ) : (Fin n → ℝ) → ℝ := dd (Pi.single j 1) g

/-- spec: a first differential holds the value and the gradient of `g` at `p`. -/
structure First.Has (mem : X → ℝ → Prop) (d : First n X) (g : (Fin n → ℝ) → ℝ) (p : Fin n → ℝ) : Prop where
  smooth : DifferentiableAt ℝ g p
  value : mem d.value (g p)
  gradient : ∀ j, mem (d.gradient j) (pd j g p)

/-- spec: a second differential holds the value, the gradient and half the second derivatives of `g` at
`p`. -/
structure Second.Has (mem : X → ℝ → Prop) (d : Second n X) (g : (Fin n → ℝ) → ℝ) (p : Fin n → ℝ) :
    Prop where
  smooth : ContDiffAt ℝ 2 g p
  value : mem d.value (g p)
  gradient : ∀ j, mem (d.gradient j) (pd j g p)
  half : ∀ j k, mem (d.half j k) (pd j (pd k g) p / 2)

/-- spec: a univariate second differential holds the value, the derivative and half the second derivative
of `g` at `t`. -/
structure USecond.Has (mem : X → ℝ → Prop) (d : USecond X) (g : ℝ → ℝ) (t : ℝ) : Prop where
  smooth : ContDiffAt ℝ 2 g t
  value : mem d.value (g t)
  gradient : mem d.gradient (deriv g t)
  half : mem d.half (deriv (deriv g) t / 2)

theorem mem_eq {a : X} {x y : ℝ} (h : mem a x) (e : x = y) : mem a y := e ▸ h

theorem deriv_eq_dd (g : ℝ → ℝ) : deriv g = dd 1 g := funext fun t => by simp [dd]

/-! ## First differentials -/

/-- **C99** Constants and variables. -/
theorem C99_first_variables (S : Sound o mem nz ps) (p : Fin n → ℝ) :
    (∀ c y, mem c y → (First.constant o c : First n X).Has mem (fun _ => y) p) ∧
    ∀ v j, mem v (p j) → (First.var o v j).Has mem (fun q => q j) p := by
  refine ⟨fun c y h => ⟨differentiableAt_const _, h, fun j => ?_⟩, fun v j h => ⟨by fun_prop, h, fun i => ?_⟩⟩
  · rw [pd, dd_const]; exact mem_eq (S.ofInt 0) (by simp)
  · have : pd i (fun q : Fin n → ℝ => q j) p = if i = j then 1 else 0 := by
      have h1 : HasFDerivAt (fun q : Fin n → ℝ => q j) (ContinuousLinearMap.proj (R := ℝ) (φ := fun _ : Fin n => ℝ) j) p :=
        (ContinuousLinearMap.proj (R := ℝ) (φ := fun _ : Fin n => ℝ) j).hasFDerivAt
      rw [pd, dd, h1.fderiv]
      simp [Pi.single_apply, eq_comm]
    rw [this, First.var]
    by_cases e : i = j
    · simpa [e] using S.ofInt 1
    · simpa [e] using S.ofInt 0

/-- **C99** Sums, differences and products. -/
theorem C99_first_arithmetic (S : Sound o mem nz ps) {x y : First n X} {g h : (Fin n → ℝ) → ℝ} {p : Fin n → ℝ}
    (hx : x.Has mem g p) (hy : y.Has mem h p) :
    (∃ r, First.bin o .add x y = some r ∧ r.Has mem (fun q => g q + h q) p) ∧
    (∃ r, First.bin o .sub x y = some r ∧ r.Has mem (fun q => g q - h q) p) ∧
    (∃ r, First.bin o .mul x y = some r ∧ r.Has mem (fun q => g q * h q) p) := by
  refine ⟨⟨_, rfl, hx.smooth.fun_add hy.smooth, S.add hx.value hy.value, fun j => ?_⟩,
    ⟨_, rfl, hx.smooth.fun_sub hy.smooth, S.sub hx.value hy.value, fun j => ?_⟩,
    ⟨_, rfl, hx.smooth.fun_mul hy.smooth, S.mul hx.value hy.value, fun j => ?_⟩⟩
  · rw [pd, dd_add hx.smooth hy.smooth]; exact S.add (hx.gradient j) (hy.gradient j)
  · rw [pd, dd_sub hx.smooth hy.smooth]; exact S.sub (hx.gradient j) (hy.gradient j)
  · rw [pd, dd_mul hx.smooth hy.smooth]
    exact mem_eq (S.add (S.mul hx.value (hy.gradient j)) (S.mul hy.value (hx.gradient j))) (by
      simp only [pd]; ring)

theorem dd_div {E : Type*} [NormedAddCommGroup E] [NormedSpace ℝ E] {g h : E → ℝ} {p e : E}
    (hg : DifferentiableAt ℝ g p) (hh : DifferentiableAt ℝ h p) (h0 : h p ≠ 0) :
    dd e (fun q => g q / h q) p = (dd e g p - g p / h p * dd e h p) / h p := by
  have hi : DifferentiableAt ℝ (fun q => (h q)⁻¹) p := hh.fun_inv h0
  have e1 : (fun q => g q / h q) = fun q => g q * (h q)⁻¹ := funext fun q => div_eq_mul_inv _ _
  rw [e1, dd_mul hg hi, dd_comp (F := fun y => y⁻¹) (hasDerivAt_inv h0) hh]
  field_simp
  ring

/-- **C99** Quotients have the right value, but the second term of the derivative has the wrong sign: the
gradient exceeds the right one by twice the gradient of the divisor times the quotient over the divisor.
It is right where the dividend is zero or the divisor has gradient zero. -/
theorem C99_first_quotient_partial (S : Sound o mem nz ps) {x y : First n X} {g h : (Fin n → ℝ) → ℝ}
    {p : Fin n → ℝ} (hx : x.Has mem g p) (hy : y.Has mem h p) (hz : nz y.value) :
    ∃ r, First.bin o .div x y = some r ∧ mem r.value (g p / h p) ∧
      ∀ j, mem (r.gradient j) (pd j (fun q => g q / h q) p + 2 * (g p / h p) * pd j h p / h p) := by
  have h0 := S.nz_ne hy.value hz
  refine ⟨_, rfl, S.div hx.value hy.value hz, fun j => ?_⟩
  rw [pd, dd_div hx.smooth hy.smooth h0]
  refine mem_eq (S.div (S.add (S.mul (S.div hx.value hy.value hz) (hy.gradient j)) (hx.gradient j)) hy.value hz) ?_
  simp only [pd]
  field_simp
  ring

/-- **C99** The quotient of univariate first differentials is right. -/
theorem C99_univariate_first_quotient (S : Sound o mem nz ps) {x y : UFirst X} {g h : ℝ → ℝ} {t : ℝ}
    (hg : DifferentiableAt ℝ g t) (hh : DifferentiableAt ℝ h t) (hx : mem x.value (g t))
    (hx' : mem x.gradient (deriv g t)) (hy : mem y.value (h t)) (hy' : mem y.gradient (deriv h t)) :
    (∃ r, UFirst.bin o .add x y = some r ∧ mem r.value (g t + h t) ∧
      mem r.gradient (deriv (fun s => g s + h s) t)) ∧
    (∃ r, UFirst.bin o .sub x y = some r ∧ mem r.value (g t - h t) ∧
      mem r.gradient (deriv (fun s => g s - h s) t)) ∧
    (∃ r, UFirst.bin o .mul x y = some r ∧ mem r.value (g t * h t) ∧
      mem r.gradient (deriv (fun s => g s * h s) t)) ∧
    (nz y.value → ∃ r, UFirst.bin o .div x y = some r ∧ mem r.value (g t / h t) ∧
      mem r.gradient (deriv (fun s => g s / h s) t)) := by
  simp only [deriv_eq_dd] at *
  refine ⟨⟨_, rfl, S.add hx hy, ?_⟩, ⟨_, rfl, S.sub hx hy, ?_⟩, ⟨_, rfl, S.mul hx hy, ?_⟩,
    fun hz => ⟨_, rfl, S.div hx hy hz, ?_⟩⟩
  · rw [dd_add hg hh]; exact S.add hx' hy'
  · rw [dd_sub hg hh]; exact S.sub hx' hy'
  · rw [dd_mul hg hh]; exact S.add (S.mul hx' hy) (S.mul hx hy')
  · rw [dd_div hg hh (S.nz_ne hy hz)]
    exact S.div (S.sub hx' (S.mul (S.div hx hy hz) hy')) hy hz

/-- **C99** Operations with a number. -/
theorem C99_first_scalar (S : Sound o mem nz ps) {x : First n X} {g : (Fin n → ℝ) → ℝ} {p : Fin n → ℝ}
    (hx : x.Has mem g p) {c : X} {y : ℝ} (hc : mem c y) :
    (∃ r, First.scalar o .add x c = some r ∧ r.Has mem (fun q => g q + y) p) ∧
    (∃ r, First.scalar o .sub x c = some r ∧ r.Has mem (fun q => g q - y) p) ∧
    (∃ r, First.scalar o .mul x c = some r ∧ r.Has mem (fun q => g q * y) p) ∧
    (nz c → ∃ r, First.scalar o .div x c = some r ∧ r.Has mem (fun q => g q / y) p) := by
  have hk : DifferentiableAt ℝ (fun _ : Fin n → ℝ => y) p := differentiableAt_const _
  refine ⟨⟨_, rfl, hx.smooth.fun_add hk, S.add hx.value hc, fun j => ?_⟩,
    ⟨_, rfl, hx.smooth.fun_sub hk, S.sub hx.value hc, fun j => ?_⟩,
    ⟨_, rfl, hx.smooth.fun_mul hk, S.mul hx.value hc, fun j => ?_⟩,
    fun hz => ⟨_, rfl, by simpa [div_eq_mul_inv] using hx.smooth.mul_const y⁻¹, S.div hx.value hc hz, fun j => ?_⟩⟩
  · rw [pd, dd_add hx.smooth hk, dd_const, add_zero]; exact hx.gradient j
  · rw [pd, dd_sub hx.smooth hk, dd_const, sub_zero]; exact hx.gradient j
  · rw [pd, dd_mul hx.smooth hk, dd_const, mul_zero, add_zero]; exact S.mul (hx.gradient j) hc
  · rw [pd, dd_div hx.smooth hk (S.nz_ne hc hz), dd_const, mul_zero, sub_zero]
    exact S.div (hx.gradient j) hc hz

/-- **C99** The unary operators, except for the absolute value. -/
theorem C99_first_unary (S : Sound o mem nz ps) {x : First n X} {g : (Fin n → ℝ) → ℝ} {p : Fin n → ℝ}
    (hx : x.Has mem g p) {op : UnOp} (ha : op ≠ .abs) (hd : UnDom o nz ps op x.value) :
    ∃ r, First.un o op x = some r ∧ r.Has mem (fun q => fn op (g q)) p := by
  have hD := hasDerivAt_fn ha (rdom_of S ha hx.value hd)
  have hs : DifferentiableAt ℝ (fun q => fn op (g q)) p :=
    (hD.comp_hasFDerivAt p hx.smooth.hasFDerivAt).differentiableAt
  have hp : ∀ j, pd j (fun q => fn op (g q)) p = d1 op (g p) * pd j g p := fun j => dd_comp hD hx.smooth
  have hv := hx.value
  have hg := hx.gradient
  cases op <;> simp only [UnDom] at hd
  case nul =>
    refine ⟨_, rfl, hs, mem_eq (S.ofInt 0) (by simp [fn]), fun j => ?_⟩
    rw [hp]
    exact mem_eq (S.mul (hg j) (S.ofInt 0)) (by simp [d1])
  case pos => exact ⟨_, rfl, hs, hv, fun j => by rw [hp]; simpa [d1] using hg j⟩
  case neg => exact ⟨_, rfl, hs, S.neg hv, fun j => by rw [hp]; exact mem_eq (S.neg (hg j)) (by simp [d1])⟩
  case sqr =>
    refine ⟨_, rfl, hs, S.sqr hv, fun j => ?_⟩
    rw [hp]
    exact mem_eq (S.mul (S.mul (S.ofInt 2) hv) (hg j)) (by simp [d1])
  case hlf =>
    refine ⟨_, rfl, hs, S.hlf hv, fun j => ?_⟩
    rw [hp]
    exact mem_eq (S.mul (hg j) (S.hlf (S.add (S.ofInt 0) (S.ofInt 1)))) (by simp [d1]; ring)
  case recip =>
    refine ⟨_, rfl, hs, S.recip hv hd, fun j => ?_⟩
    rw [hp]
    exact mem_eq (S.mul (hg j) (S.neg (S.sqr (S.recip hv hd)))) (by simp only [d1]; ring)
  case sqrt =>
    refine ⟨_, rfl, hs, S.sqrt hv hd.1, fun j => ?_⟩
    rw [hp]
    exact mem_eq (S.mul (S.recip (S.mul (S.ofInt 2) (S.sqrt hv hd.1)) hd.2.1) (hg j)) (by simp [d1])
  case exp => exact ⟨_, rfl, hs, S.exp hv, fun j => by rw [hp]; exact S.mul (S.exp hv) (hg j)⟩
  case log =>
    exact ⟨_, rfl, hs, S.log hv hd.1, fun j => by rw [hp]; exact S.mul (S.recip hv hd.2) (hg j)⟩
  case sin => exact ⟨_, rfl, hs, S.sin hv, fun j => by rw [hp]; exact S.mul (S.cos hv) (hg j)⟩
  case cos => exact ⟨_, rfl, hs, S.cos hv, fun j => by rw [hp]; exact S.mul (S.neg (S.sin hv)) (hg j)⟩
  case tan =>
    exact ⟨_, rfl, hs, S.tan hv hd, fun j => by rw [hp]; exact S.mul (S.sqr (S.recip (S.cos hv) hd)) (hg j)⟩
  case asin =>
    refine ⟨_, rfl, hs, S.asin hv hd.1, fun j => ?_⟩
    rw [hp]
    exact mem_eq (S.mul (S.recip (S.sqrt (S.sub (S.ofInt 1) (S.sqr hv)) hd.1) hd.2) (hg j)) (by simp [d1])
  case acos =>
    refine ⟨_, rfl, hs, S.acos hv hd.1, fun j => ?_⟩
    rw [hp]
    exact mem_eq (S.mul (S.neg (S.recip (S.sqrt (S.sub (S.ofInt 1) (S.sqr hv)) hd.1) hd.2)) (hg j)) (by simp [d1])
  case atan =>
    refine ⟨_, rfl, hs, S.atan hv, fun j => ?_⟩
    rw [hp]
    exact mem_eq (S.mul (S.recip (S.add (S.ofInt 1) (S.sqr hv)) hd) (hg j)) (by simp [d1])
  case abs => exact absurd rfl ha

/-- **C99** Integer powers; a power with exponent zero also needs an argument which is not zero. -/
theorem C99_first_power (S : Sound o mem nz ps) {x : First n X} {g : (Fin n → ℝ) → ℝ} {p : Fin n → ℝ}
    (hx : x.Has mem g p) {m : ℤ} (hm : 1 ≤ m ∨ nz x.value) :
    (First.pow o x m).Has mem (fun q => g q ^ m) p := by
  have h0 : g p ≠ 0 ∨ 0 ≤ m := hm.elim (fun h => Or.inr (by omega)) fun h => Or.inl (S.nz_ne hx.value h)
  have hD := hasDerivAt_zpow m (g p) h0
  refine ⟨(hD.comp_hasFDerivAt p hx.smooth.hasFDerivAt).differentiableAt, S.pow m hx.value
    (hm.imp (fun h => by omega) id), fun j => ?_⟩
  rw [pd, dd_comp (F := fun y => y ^ m) hD hx.smooth]
  exact S.mul (S.mul (S.ofInt m) (S.pow (m - 1) hx.value (hm.imp (fun h => by omega) id))) (hx.gradient j)

/-- **C99** Absolute values, maxima and minima throw where they need not be differentiable, and are right
elsewhere, if comparisons decide. -/
theorem C99_first_lattice (S : Sound o mem nz ps) (hd : Decides o mem) {x y : First n X}
    {g h : (Fin n → ℝ) → ℝ} {p : Fin n → ℝ} (hx : x.Has mem g p) (hy : y.Has mem h p) :
    (g p = 0 → First.un o .abs x = none) ∧
    (g p ≠ 0 → ∃ r, First.un o .abs x = some r ∧ r.Has mem (fun q => |g q|) p) ∧
    (g p = h p → First.bin o .max x y = none ∧ First.bin o .min x y = none) ∧
    (g p ≠ h p → (∃ r, First.bin o .max x y = some r ∧ r.Has mem (fun q => max (g q) (h q)) p) ∧
      ∃ r, First.bin o .min x y = some r ∧ r.Has mem (fun q => min (g q) (h q)) p) := by
  have h0 : mem (o.ofInt 0) 0 := by simpa using S.ofInt 0
  have cong : ∀ {z : First n X} {u w : (Fin n → ℝ) → ℝ}, z.Has mem u p → w =ᶠ[𝓝 p] u → z.Has mem w p := by
    intro z u w H e
    refine ⟨H.smooth.congr_of_eventuallyEq e, e.eq_of_nhds ▸ H.value, fun j => ?_⟩
    rw [pd, dd_congr e]; exact H.gradient j
  have hgc := hx.smooth.continuousAt
  have hhc := hy.smooth.continuousAt
  refine ⟨fun e => ?_, fun e => ?_, fun e => ?_, fun e => ⟨?_, ?_⟩⟩
  · rw [First.un, if_pos ((hd _ _ _ _ hx.value h0).1.2 e)]
  · rw [First.un, if_neg (fun c => e ((hd _ _ _ _ hx.value h0).1.1 c))]
    rcases lt_or_gt_of_ne e with hl | hl
    · rw [if_neg (fun c => absurd ((hd _ _ _ _ h0 hx.value).2.1 c) (by linarith))]
      obtain ⟨r, h1, h2⟩ := C99_first_unary S hx (op := .neg) (by simp) trivial
      refine ⟨r, h1, cong h2 ?_⟩
      exact (hgc.eventually_lt_const hl).mono fun q hq => abs_of_neg hq
    · rw [if_pos ((hd _ _ _ _ h0 hx.value).2.2 hl)]
      exact ⟨x, rfl, cong hx ((hgc.eventually_const_lt hl).mono fun q hq => abs_of_pos hq)⟩
  · have := (hd _ _ _ _ hx.value hy.value).1.2 e
    exact ⟨if_pos this, if_pos this⟩
  · rw [First.bin, if_neg (fun c => e ((hd _ _ _ _ hx.value hy.value).1.1 c))]
    rcases lt_or_gt_of_ne e with hl | hl
    · rw [if_neg (fun c => absurd ((hd _ _ _ _ hy.value hx.value).2.1 c) (by linarith))]
      exact ⟨y, rfl, cong hy ((hgc.eventually_lt hhc hl).mono fun q hq => max_eq_right hq.le)⟩
    · rw [if_pos ((hd _ _ _ _ hy.value hx.value).2.2 hl)]
      exact ⟨x, rfl, cong hx ((hhc.eventually_lt hgc hl).mono fun q hq => max_eq_left hq.le)⟩
  · rw [First.bin, if_neg (fun c => e ((hd _ _ _ _ hx.value hy.value).1.1 c))]
    rcases lt_or_gt_of_ne e with hl | hl
    · rw [if_pos ((hd _ _ _ _ hx.value hy.value).2.2 hl)]
      exact ⟨x, rfl, cong hx ((hgc.eventually_lt hhc hl).mono fun q hq => min_eq_left hq.le)⟩
    · rw [if_neg (fun c => absurd ((hd _ _ _ _ hx.value hy.value).2.1 c) (by linarith))]
      exact ⟨y, rfl, cong hy ((hhc.eventually_lt hgc hl).mono fun q hq => min_eq_right hq.le)⟩

end Verif.FixedDifferential
