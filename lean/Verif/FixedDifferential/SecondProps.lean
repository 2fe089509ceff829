import Verif.FixedDifferential.Props

/-!
# C99: second differentials
-/

namespace Verif.FixedDifferential

open Filter Topology
open Ariadne.Symbolic (UnOp BinOp)

variable {X : Type*} {o : Num X} {mem : X → ℝ → Prop} {nz ps : X → Prop} {n : ℕ}

theorem pd2_comp {op : UnOp} (ha : op ≠ .abs) (h1 : op ≠ .asin) (h2 : op ≠ .acos)
    {g : (Fin n → ℝ) → ℝ} {p : Fin n → ℝ} (hg : ContDiffAt ℝ 2 g p) (hr : RDom op (g p)) (j k : Fin n) :
    pd j (pd k fun q => fn op (g q)) p =
      d1 op (g p) * pd j (pd k g) p + d2 op (g p) * (pd j g p * pd k g p) :=
  dd2_comp ((ev_RDom hr).mono fun _ h => hasDerivAt_fn ha h) (hasDerivAt_d1 ha h1 h2 hr) hg

theorem deriv_fn {op : UnOp} (ha : op ≠ .abs) (h1 : op ≠ .asin) (h2 : op ≠ .acos) {x : ℝ} (hr : RDom op x) :
    deriv (deriv (fn op)) x = d2 op x := by
  have : deriv (fn op) =ᶠ[𝓝 x] d1 op := (ev_RDom hr).mono fun _ h => (hasDerivAt_fn ha h).deriv
  rw [this.deriv_eq, (hasDerivAt_d1 ha h1 h2 hr).deriv]

/-- **C99** Constants and variables. -/
theorem C99_second_variables (S : Sound o mem nz ps) (p : Fin n → ℝ) :
    (∀ c y, mem c y → (Second.constant o c : Second n X).Has mem (fun _ => y) p) ∧
    ∀ v j, mem v (p j) → (Second.var o v j).Has mem (fun q => q j) p := by
  have hf := C99_first_variables (n := n) S p
  refine ⟨fun c y h => ⟨contDiffAt_const, h, (hf.1 c y h).gradient, fun j k => ?_⟩,
    fun v j h => ⟨by fun_prop, h, (hf.2 v j h).gradient, fun i k => ?_⟩⟩
  · rw [pd, pd, dd2_const]; exact mem_eq (S.ofInt 0) (by simp)
  · have : pd k (fun q : Fin n → ℝ => q j) = fun _ => if k = j then 1 else 0 := by
      funext q
      have h1 : HasFDerivAt (fun q : Fin n → ℝ => q j) (ContinuousLinearMap.proj (R := ℝ) (φ := fun _ : Fin n => ℝ) j) q :=
        (ContinuousLinearMap.proj (R := ℝ) (φ := fun _ : Fin n => ℝ) j).hasFDerivAt
      rw [pd, dd, h1.fderiv]
      simp [Pi.single_apply, eq_comm]
    rw [this, pd, dd_const]; exact mem_eq (S.ofInt 0) (by simp)

theorem second_mul (S : Sound o mem nz ps) {x y : Second n X} {g h : (Fin n → ℝ) → ℝ}
    {p : Fin n → ℝ} (hx : x.Has mem g p) (hy : y.Has mem h p) :
    (Second.mul o x y).Has mem (fun q => g q * h q) p := by
  refine ⟨hx.smooth.mul hy.smooth, S.mul hx.value hy.value, fun j => ?_, fun j k => ?_⟩
  · rw [pd, dd_mul (diff2 hx.smooth) (diff2 hy.smooth)]
    exact S.add (S.mul (hx.gradient j) hy.value) (S.mul hx.value (hy.gradient j))
  · rw [pd, pd, dd2_mul hx.smooth hy.smooth]
    refine mem_eq (S.add (S.add (S.mul (hx.half j k) hy.value) (S.mul hx.value (hy.half j k)))
      (S.div (S.add (S.mul (hx.gradient j) (hy.gradient k)) (S.mul (hx.gradient k) (hy.gradient j)))
        (S.ofInt 2) S.two)) ?_
    simp only [pd]
    push_cast
    ring

theorem second_recip (S : Sound o mem nz ps) {x : Second n X} {g : (Fin n → ℝ) → ℝ} {p : Fin n → ℝ}
    (hx : x.Has mem g p) (hz : nz x.value) : (Second.recip o x).Has mem (fun q => (g q)⁻¹) p := by
  have h0 := S.nz_ne hx.value hz
  have hr := S.recip hx.value hz
  refine ⟨hx.smooth.inv h0, hr, fun j => ?_, fun j k => ?_⟩
  · have : pd j (fun q => (g q)⁻¹) p = d1 .recip (g p) * pd j g p :=
      dd_comp (hasDerivAt_fn (op := .recip) (by simp) h0) (diff2 hx.smooth)
    rw [this]
    exact S.mul (S.neg (S.sqr hr)) (hx.gradient j)
  · have := pd2_comp (op := .recip) (by simp) (by simp) (by simp) hx.smooth h0 j k
    rw [show (fun q => (g q)⁻¹) = fun q => fn .recip (g q) from rfl, this]
    refine mem_eq (S.add (S.mul (S.neg (S.sqr hr)) (hx.half j k))
      (S.mul (S.mul (S.neg hr) (S.neg (S.sqr hr))) (S.mul (hx.gradient j) (hx.gradient k)))) ?_
    simp only [d1, d2]
    ring

/-- **C99** Sums, differences, products and quotients. -/
theorem C99_second_arithmetic (S : Sound o mem nz ps) {x y : Second n X} {g h : (Fin n → ℝ) → ℝ}
    {p : Fin n → ℝ} (hx : x.Has mem g p) (hy : y.Has mem h p) :
    (∃ r, Second.bin o .add x y = some r ∧ r.Has mem (fun q => g q + h q) p) ∧
    (∃ r, Second.bin o .sub x y = some r ∧ r.Has mem (fun q => g q - h q) p) ∧
    (∃ r, Second.bin o .mul x y = some r ∧ r.Has mem (fun q => g q * h q) p) ∧
    (nz y.value → ∃ r, Second.bin o .div x y = some r ∧ r.Has mem (fun q => g q / h q) p) := by
  refine ⟨⟨_, rfl, hx.smooth.add hy.smooth, S.add hx.value hy.value, fun j => ?_, fun j k => ?_⟩,
    ⟨_, rfl, hx.smooth.sub hy.smooth, S.sub hx.value hy.value, fun j => ?_, fun j k => ?_⟩,
    ⟨_, rfl, second_mul S hx hy⟩, fun hz => ⟨_, rfl, ?_⟩⟩
  · rw [pd, dd_add (diff2 hx.smooth) (diff2 hy.smooth)]; exact S.add (hx.gradient j) (hy.gradient j)
  · rw [pd, pd, dd2_add hx.smooth hy.smooth]
    exact mem_eq (S.add (hx.half j k) (hy.half j k)) (by simp only [pd]; ring)
  · rw [pd, dd_sub (diff2 hx.smooth) (diff2 hy.smooth)]; exact S.sub (hx.gradient j) (hy.gradient j)
  · rw [pd, pd, dd2_sub hx.smooth hy.smooth]
    exact mem_eq (S.sub (hx.half j k) (hy.half j k)) (by simp only [pd]; ring)
  · simpa only [div_eq_mul_inv] using second_mul S hx (second_recip S hy hz)

/-- **C99** Operations with a number. -/
theorem C99_second_scalar (S : Sound o mem nz ps) {x : Second n X} {g : (Fin n → ℝ) → ℝ} {p : Fin n → ℝ}
    (hx : x.Has mem g p) {c : X} {y : ℝ} (hc : mem c y) :
    (∃ r, Second.scalar o .add x c = some r ∧ r.Has mem (fun q => g q + y) p) ∧
    (∃ r, Second.scalar o .sub x c = some r ∧ r.Has mem (fun q => g q - y) p) ∧
    (∃ r, Second.scalar o .mul x c = some r ∧ r.Has mem (fun q => g q * y) p) ∧
    (nz c → ∃ r, Second.scalar o .div x c = some r ∧ r.Has mem (fun q => g q / y) p) := by
  have hk : ContDiffAt ℝ 2 (fun _ : Fin n → ℝ => y) p := contDiffAt_const
  have hk' : ∀ y : ℝ, ContDiffAt ℝ 2 (fun _ : Fin n → ℝ => y) p := fun _ => contDiffAt_const
  refine ⟨⟨_, rfl, hx.smooth.add hk, S.add hx.value hc, fun j => ?_, fun j k => ?_⟩,
    ⟨_, rfl, hx.smooth.sub hk, S.sub hx.value hc, fun j => ?_, fun j k => ?_⟩,
    ⟨_, rfl, hx.smooth.mul hk, S.mul hx.value hc, fun j => ?_, fun j k => ?_⟩,
    fun hz => ⟨_, rfl, hx.smooth.div_const y, S.div hx.value hc hz, fun j => ?_, fun j k => ?_⟩⟩
  · rw [pd, dd_add (diff2 hx.smooth) (diff2 hk), dd_const, add_zero]; exact hx.gradient j
  · rw [pd, pd, dd2_add hx.smooth hk, dd2_const, add_zero]; exact hx.half j k
  · rw [pd, dd_sub (diff2 hx.smooth) (diff2 hk), dd_const, sub_zero]; exact hx.gradient j
  · rw [pd, pd, dd2_sub hx.smooth hk, dd2_const, sub_zero]; exact hx.half j k
  · rw [pd, dd_mul (diff2 hx.smooth) (diff2 hk), dd_const, mul_zero, add_zero]
    exact S.mul (hx.gradient j) hc
  · rw [pd, pd, dd2_mul hx.smooth hk, dd2_const, dd_const, dd_const]
    exact mem_eq (S.mul (hx.half j k) hc) (by simp only [pd]; ring)
  · simp only [div_eq_mul_inv]
    rw [pd, dd_mul (diff2 hx.smooth) (diff2 (hk' _)), dd_const, mul_zero, add_zero]
    exact mem_eq (S.div (hx.gradient j) hc hz) (div_eq_mul_inv _ _)
  · simp only [div_eq_mul_inv]
    rw [pd, pd, dd2_mul hx.smooth (hk' _), dd2_const, dd_const, dd_const]
    exact mem_eq (S.div (hx.half j k) hc hz) (by simp only [pd, div_eq_mul_inv]; ring)

/-- **C99** Unary plus and minus and the reciprocal. -/
theorem C99_second_unary (S : Sound o mem nz ps) {x : Second n X} {g : (Fin n → ℝ) → ℝ} {p : Fin n → ℝ}
    (hx : x.Has mem g p) :
    (∃ r, Second.un o .pos x = some r ∧ r.Has mem (fun q => g q) p) ∧
    (∃ r, Second.un o .neg x = some r ∧ r.Has mem (fun q => -g q) p) ∧
    (nz x.value → ∃ r, Second.un o .recip x = some r ∧ r.Has mem (fun q => (g q)⁻¹) p) := by
  refine ⟨⟨_, rfl, hx⟩, ⟨_, rfl, hx.smooth.neg, S.neg hx.value, fun j => ?_, fun j k => ?_⟩,
    fun hz => ⟨_, rfl, second_recip S hx hz⟩⟩
  · rw [pd, dd_neg]; exact S.neg (hx.gradient j)
  · rw [pd, pd, dd2_neg]; exact mem_eq (S.neg (hx.half j k)) (by simp only [pd]; ring)

/-- **C99** Square roots, exponentials, logarithms, sines, cosines and tangents have the right value and
gradient.  In the second derivative, the term with the product of the gradients is doubled. -/
theorem C99_second_elementary_partial (S : Sound o mem nz ps) {x : Second n X} {g : (Fin n → ℝ) → ℝ}
    {p : Fin n → ℝ} (hx : x.Has mem g p) {op : UnOp}
    (hop : op = .sqrt ∨ op = .exp ∨ op = .log ∨ op = .sin ∨ op = .cos ∨ op = .tan)
    (hd : UnDom o nz ps op x.value) :
    ∃ r, Second.un o op x = some r ∧ (⟨r.value, r.gradient⟩ : First n X).Has mem (fun q => fn op (g q)) p ∧
      ∀ j k, mem (r.half j k) (pd j (pd k fun q => fn op (g q)) p / 2 +
        deriv (deriv (fn op)) (g p) / 2 * (pd j g p * pd k g p)) := by
  have ha : op ≠ .abs := by rcases hop with rfl | rfl | rfl | rfl | rfl | rfl <;> simp
  have h1 : op ≠ .asin := by rcases hop with rfl | rfl | rfl | rfl | rfl | rfl <;> simp
  have h2 : op ≠ .acos := by rcases hop with rfl | rfl | rfl | rfl | rfl | rfl <;> simp
  have hR := rdom_of S ha hx.value hd
  have hfirst := C99_first_unary (x := ⟨x.value, x.gradient⟩) S ⟨diff2 hx.smooth, hx.value, hx.gradient⟩ ha hd
  have hp := pd2_comp ha h1 h2 hx.smooth hR
  have he := deriv_fn ha h1 h2 hR
  have hv := hx.value
  have key : ∀ {d c : X}, mem d (d1 op (g p)) → mem c (d2 op (g p)) → ∀ v j k,
      mem ((Second.chain o v d c x).half j k) (pd j (pd k fun q => fn op (g q)) p / 2 +
        deriv (deriv (fn op)) (g p) / 2 * (pd j g p * pd k g p)) := by
    intro d c hd hc v j k
    rw [hp, he]
    exact mem_eq (S.add (S.mul hd (hx.half j k)) (S.mul hc (S.mul (hx.gradient j) (hx.gradient k)))) (by ring)
  obtain ⟨r, hr1, hr2⟩ := hfirst
  rcases hop with rfl | rfl | rfl | rfl | rfl | rfl <;> simp only [UnDom] at hd <;> cases hr1
  · refine ⟨_, rfl, hr2, key (mem_eq (S.recip (S.mul (S.ofInt 2) (S.sqrt hv hd.1)) hd.2.1) (by simp [d1]))
      (mem_eq (S.neg (S.recip (S.mul (S.mul (S.ofInt 4) (S.sqrt hv hd.1)) hv) hd.2.2)) (by simp [d2])) _⟩
  · exact ⟨_, rfl, hr2, key (S.exp hv) (S.exp hv) _⟩
  · exact ⟨_, rfl, hr2, key (S.recip hv hd.2) (S.neg (S.sqr (S.recip hv hd.2))) _⟩
  · exact ⟨_, rfl, hr2, key (S.cos hv) (S.neg (S.sin hv)) _⟩
  · exact ⟨_, rfl, hr2, key (S.neg (S.sin hv)) (S.neg (S.cos hv)) _⟩
  · refine ⟨_, rfl, hr2, key (S.sqr (S.recip (S.cos hv) hd)) (mem_eq (S.mul (S.mul (S.ofInt 2) (S.tan hv hd))
      (S.sqr (S.recip (S.cos hv) hd))) (by simp [d2])) _⟩

/-- **C99** Squares have the right value and gradient.  In the second derivative, the term with the product
of the gradients is halved. -/
theorem C99_second_square_partial (S : Sound o mem nz ps) {x : Second n X} {g : (Fin n → ℝ) → ℝ}
    {p : Fin n → ℝ} (hx : x.Has mem g p) :
    ∃ r, Second.un o .sqr x = some r ∧ (⟨r.value, r.gradient⟩ : First n X).Has mem (fun q => g q * g q) p ∧
      ∀ j k, mem (r.half j k) (pd j (pd k fun q => g q * g q) p / 2 - pd j g p * pd k g p / 2) := by
  obtain ⟨r, hr1, hr2⟩ := C99_first_unary (x := ⟨x.value, x.gradient⟩) (op := .sqr) S
    ⟨diff2 hx.smooth, hx.value, hx.gradient⟩ (by simp) trivial
  cases hr1
  refine ⟨_, rfl, hr2, fun j k => ?_⟩
  rw [show (fun q => g q * g q) = fun q => fn .sqr (g q) from rfl,
    pd2_comp (op := .sqr) (by simp) (by simp) (by simp) hx.smooth trivial]
  refine mem_eq (S.add (S.mul (S.mul (S.ofInt 2) hx.value) (hx.half j k))
    (S.div (S.mul (hx.gradient j) (hx.gradient k)) (S.ofInt 2) S.two)) ?_
  simp only [d1, d2]
  push_cast
  ring

/-- **C99** Integer powers have the right value and gradient. -/
theorem C99_second_power_partial (S : Sound o mem nz ps) {x : Second n X} {g : (Fin n → ℝ) → ℝ}
    {p : Fin n → ℝ} (hx : x.Has mem g p) {m : ℤ} (hm : 1 ≤ m ∨ nz x.value) :
    (⟨(Second.pow o x m).value, (Second.pow o x m).gradient⟩ : First n X).Has mem (fun q => g q ^ m) p :=
  C99_first_power (x := ⟨x.value, x.gradient⟩) S ⟨diff2 hx.smooth, hx.value, hx.gradient⟩ hm

/-- **C99** Absolute values, maxima and minima. -/
theorem C99_second_lattice (S : Sound o mem nz ps) (hd : Decides o mem) {x y : Second n X}
    {g h : (Fin n → ℝ) → ℝ} {p : Fin n → ℝ} (hx : x.Has mem g p) (hy : y.Has mem h p) :
    (g p = 0 → Second.un o .abs x = none) ∧
    (g p ≠ 0 → ∃ r, Second.un o .abs x = some r ∧ r.Has mem (fun q => |g q|) p) ∧
    (g p = h p → Second.bin o .max x y = none ∧ Second.bin o .min x y = none) ∧
    (g p ≠ h p → (∃ r, Second.bin o .max x y = some r ∧ r.Has mem (fun q => max (g q) (h q)) p) ∧
      ∃ r, Second.bin o .min x y = some r ∧ r.Has mem (fun q => min (g q) (h q)) p) := by
  have h0 : mem (o.ofInt 0) 0 := by simpa using S.ofInt 0
  have cong : ∀ {z : Second n X} {u w : (Fin n → ℝ) → ℝ}, z.Has mem u p → w =ᶠ[𝓝 p] u → z.Has mem w p := by
    intro z u w H e
    refine ⟨H.smooth.congr_of_eventuallyEq e, e.eq_of_nhds ▸ H.value, fun j => ?_, fun j k => ?_⟩
    · rw [pd, dd_congr e]; exact H.gradient j
    · rw [pd, pd, dd2_congr e]; exact H.half j k
  have hgc := hx.smooth.continuousAt
  have hhc := hy.smooth.continuousAt
  refine ⟨fun e => ?_, fun e => ?_, fun e => ?_, fun e => ⟨?_, ?_⟩⟩
  · rw [Second.un, if_pos ((hd _ _ _ _ hx.value h0).1.2 e)]
  · rw [Second.un, if_neg (fun c => e ((hd _ _ _ _ hx.value h0).1.1 c))]
    rcases lt_or_gt_of_ne e with hl | hl
    · rw [if_neg (fun c => absurd ((hd _ _ _ _ h0 hx.value).2.1 c) (by linarith))]
      obtain ⟨r, h1, h2⟩ := (C99_second_unary S hx).2.1
      exact ⟨r, h1, cong h2 ((hgc.eventually_lt_const hl).mono fun q hq => abs_of_neg hq)⟩
    · rw [if_pos ((hd _ _ _ _ h0 hx.value).2.2 hl)]
      exact ⟨x, rfl, cong hx ((hgc.eventually_const_lt hl).mono fun q hq => abs_of_pos hq)⟩
  · have := (hd _ _ _ _ hx.value hy.value).1.2 e
    exact ⟨if_pos this, if_pos this⟩
  · rw [Second.bin, if_neg (fun c => e ((hd _ _ _ _ hx.value hy.value).1.1 c))]
    rcases lt_or_gt_of_ne e with hl | hl
    · rw [if_neg (fun c => absurd ((hd _ _ _ _ hy.value hx.value).2.1 c) (by linarith))]
      exact ⟨y, rfl, cong hy ((hgc.eventually_lt hhc hl).mono fun q hq => max_eq_right hq.le)⟩
    · rw [if_pos ((hd _ _ _ _ hy.value hx.value).2.2 hl)]
      exact ⟨x, rfl, cong hx ((hhc.eventually_lt hgc hl).mono fun q hq => max_eq_left hq.le)⟩
  · rw [Second.bin, if_neg (fun c => e ((hd _ _ _ _ hx.value hy.value).1.1 c))]
    rcases lt_or_gt_of_ne e with hl | hl
    · rw [if_pos ((hd _ _ _ _ hx.value hy.value).2.2 hl)]
      exact ⟨x, rfl, cong hx ((hgc.eventually_lt hhc hl).mono fun q hq => min_eq_left hq.le)⟩
    · rw [if_neg (fun c => absurd ((hd _ _ _ _ hx.value hy.value).2.1 c) (by linarith))]
      exact ⟨y, rfl, cong hy ((hhc.eventually_lt hgc hl).mono fun q hq => min_eq_right hq.le)⟩

/-- **C99** The matrix returned by `hessian` holds the second partial derivatives; the coefficient of a
multi-index of degree two is right for the square of a variable. -/
theorem C99_second_hessian (S : Sound o mem nz ps) {x : Second n X} {g : (Fin n → ℝ) → ℝ} {p : Fin n → ℝ}
    (hx : x.Has mem g p) (j k : Fin n) :
    mem (Second.hessian o x j k) (pd j (pd k g) p) ∧
      mem (Second.coefficient x j j) (pd j (pd j g) p / 2) :=
  ⟨mem_eq (S.mul (hx.half j k) (S.ofInt 2)) (by push_cast; ring), hx.half j j⟩

/-- **C99** Composition with a function of one variable given by its derivatives. -/
theorem C99_second_compose (S : Sound o mem nz ps) {x : USecond X} {y : Second n X} {F : ℝ → ℝ}
    {g : (Fin n → ℝ) → ℝ} {p : Fin n → ℝ} (hx : x.Has mem F (g p)) (hy : y.Has mem g p) :
    (Second.compose o x y).Has mem (fun q => F (g q)) p := by
  have hF : ∀ᶠ z in 𝓝 (g p), HasDerivAt F (deriv F z) z :=
    (ev_differentiable hx.smooth).mono fun z h => h.hasDerivAt
  have hF' : HasDerivAt (deriv F) (deriv (deriv F) (g p)) (g p) := by
    rw [deriv_eq_dd F]
    exact (differentiableAt_dd hx.smooth).hasDerivAt
  refine ⟨hx.smooth.comp p hy.smooth, hx.value, fun j => ?_, fun j k => ?_⟩
  · rw [pd, dd_comp hF.self_of_nhds (diff2 hy.smooth)]
    exact mem_eq (S.mul (hy.gradient j) hx.gradient) (by simp only [pd]; ring)
  · rw [pd, pd, dd2_comp hF hF' hy.smooth]
    exact mem_eq (S.add (S.mul (hy.half j k) hx.gradient) (S.mul hx.half (S.mul (hy.gradient j) (hy.gradient k))))
      (by simp only [pd]; ring)

end Verif.FixedDifferential
