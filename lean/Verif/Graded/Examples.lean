import Verif.Graded.Props
import Verif.Matrix.Props
import Verif.Rounding.Props

/-!
# C96: instances, concrete flows and counterexamples
-/

namespace Verif.Graded

open Filter Topology
open Ariadne.Symbolic (UnOp BinOp)
open Verif.Procedure (Instr Proc Alg Computes)
open Ariadne (Bounds Ext XRounding Rounding)
open Verif.Matrix (In in_add in_sub in_mul)

/-! ## Exact coefficients -/

/-- Coefficients which are real functions of a parameter, with exact operations. -/
noncomputable def exactG (Q : Type*) : GOps ℝ (Q → ℝ) where
  zero _ := 0
  plusOne f q := f q + 1
  add f g q := f q + g q
  sub f g q := f q - g q
  mul f g q := f q * g q
  div f g q := f q / g q
  neg f q := -f q
  hlf f q := f q / 2
  smul k f q := k * f q
  divInt f k q := f q / k
  recip f q := (f q)⁻¹
  sqrt f q := Real.sqrt (f q)
  exp f q := Real.exp (f q)
  log f q := Real.log (f q)
  sin f q := Real.sin (f q)
  cos f q := Real.cos (f q)
  pow f n q := f q ^ n
  cst c _ := c

/-- **C96** Exact coefficients meet the hypotheses of the theorems. -/
theorem C96_exact (Q : Type*) : GSound (exactG Q) (fun a f => a = f) (fun a => ∀ q, a q ≠ 0)
    (fun a => ∀ q, 0 < a q) id where
  zero := rfl
  plusOne := by rintro a f rfl; rfl
  add := by rintro a b f g rfl rfl; rfl
  sub := by rintro a b f g rfl rfl; rfl
  mul := by rintro a b f g rfl rfl; rfl
  div := by rintro a b f g rfl rfl _; rfl
  neg := by rintro a f rfl; rfl
  hlf := by rintro a f rfl; rfl
  smul := by rintro a f k rfl; rfl
  divInt := by rintro a f k _ rfl; rfl
  recip := by rintro a f rfl _; rfl
  sqrt := by rintro a f rfl _; rfl
  exp := by rintro a f rfl; rfl
  log := by rintro a f rfl _; rfl
  sin := by rintro a f rfl; rfl
  cos := by rintro a f rfl; rfl
  pow := by rintro a f n rfl _; rfl
  cst := fun _ => rfl
  nz_ne := by rintro a f rfl h; exact h
  ps_pos := by rintro a f rfl h; exact h
  ps_nz := fun h q => (h q).ne'

/-- The equation `x' = x`. -/
def linear : Proc ℝ := ⟨[], [.ind 0]⟩

theorem linear_solves : Solves true [0] [fun (q : ℝ) t => q * Real.exp t]
    (fun i (q : ℝ) t => if i = 0 then q * Real.exp t else 0) where
  state := by
    intro i k h
    cases i with
    | zero =>
      simp only [List.getElem?_cons_zero, Option.some.injEq] at h
      subst h
      exact ⟨_, rfl, fun q => Eventually.of_forall fun t => by
        simpa using (Real.hasDerivAt_exp t).const_mul q⟩
    | succ i => simp at h
  time := by simp
  param := by
    intro i hi q
    simp only [List.length_cons, List.length_nil, if_true] at hi
    exact Eventually.of_forall fun t => by rw [if_neg (by omega), if_neg (by omega)]

theorem linear_computes : Computes (funAlg ℝ id) linear.c
    (fun i (q : ℝ) t => if i = 0 then q * Real.exp t else 0) linear.p [fun (q : ℝ) t => q * Real.exp t] := by
  refine ⟨rfl, fun r i h => ?_⟩
  cases r with
  | zero =>
    simp only [linear, List.getElem?_cons_zero, Option.some.injEq] at h
    subst h
    exact ⟨_, rfl, rfl⟩
  | succ r => simp [linear] at h

/-- **C96** The hypotheses are met by `x' = x` with every initial value `q`: each number `n` of
iterations succeeds and gives `n+1` coefficients, the Taylor coefficients of `q*exp(t)`. -/
theorem C96_linear (n : ℕ) : ∃ s, flowRun (exactG ℝ) true linear [0] [fun q => q] n = some s ∧
    ∃ l, s.yta = [l] ∧ l.length = n + 1 ∧ ∀ k ≤ n, ∃ a, l[k]? = some a ∧
      a = fun q => q / (k.factorial : ℝ) := by
  obtain ⟨s, h1, -, h3, -, -⟩ := C96_total (o := exactG ℝ) (aut := true) (P := linear) (res := [0])
    (init := [fun q => q])
    (by
      intro r i h
      cases r with
      | zero =>
        simp only [linear, List.getElem?_cons_zero, Option.some.injEq] at h
        subst h
        simp [Instr.reads, Instr.constants]
      | succ r => simp [linear] at h)
    (by simp [linear, Supported]) (by simp [linear]) (by simp [linear]) (by simp) (by simp) n
  refine ⟨s, h1, ?_⟩
  obtain ⟨h4, h5⟩ := C96_flow_partial (C96_exact ℝ) linear_computes linear_solves
    (init := [fun q => q])
    (by
      intro i a h
      cases i with
      | zero =>
        simp only [List.getElem?_cons_zero, Option.some.injEq] at h
        subst h
        funext q; simp
      | succ i => simp at h) n h1
    (by
      intro m _ _ s' _ k i h
      cases k with
      | zero =>
        simp only [linear, List.getElem?_cons_zero, Option.some.injEq] at h
        subst h
        trivial
      | succ k => simp [linear] at h)
  obtain ⟨l, hl⟩ := List.length_eq_one_iff.1 (h3.trans rfl)
  obtain ⟨h6, h7⟩ := h5 0 l (by simp [hl])
  refine ⟨l, hl, h6, fun k hk => ?_⟩
  obtain ⟨a, ha, h8⟩ := h7 k hk
  refine ⟨a, ha, h8.trans (funext fun q => ?_)⟩
  simp only [if_true]
  rw [iteratedDeriv_const_mul_field, iteratedDeriv_eq_iterate, Real.iter_deriv_exp]
  simp

/-! ## Rounded bounds -/

/-- Coefficients which are bounds for a real number, with rounded operations.  The elementary functions
and powers are given. -/
noncomputable def boundsG (R : XRounding ℝ) (e : UnOp → Bounds ℝ → Bounds ℝ)
    (pw : Bounds ℝ → ℤ → Bounds ℝ) : GOps ℝ (Bounds ℝ) where
  zero := ⟨.fin 0, .fin 0⟩
  plusOne a := Bounds.add R a ⟨.fin 1, .fin 1⟩
  add := Bounds.add R
  sub := Bounds.sub R
  mul := Bounds.mul R
  div := Bounds.div R
  neg := Bounds.neg
  hlf := Bounds.hlf
  smul k a := Bounds.mul R (Bounds.ofExact R k) a
  divInt a k := Bounds.div R a (Bounds.ofExact R k)
  recip := Bounds.recip R
  sqrt := e .sqrt
  exp := e .exp
  log := e .log
  sin := e .sin
  cos := e .cos
  pow := pw
  cst c := Bounds.ofExact R c

/-- spec: finite bounds for numbers which are all positive. -/
def Above (b : Bounds ℝ) : Prop := ∃ l u, b = ⟨.fin l, .fin u⟩ ∧ 0 < l

/-- spec: finite bounds for numbers which are not zero. -/
def Away (b : Bounds ℝ) : Prop := ∃ l u, b = ⟨.fin l, .fin u⟩ ∧ (0 < l ∨ u < 0)

theorem away_iff {b : Bounds ℝ} (h : Away b) : Ext.lt (.fin 0) b.l = true ∨ Ext.lt b.u (.fin 0) = true := by
  obtain ⟨l, u, rfl, h⟩ := h
  simpa [Ext.lt] using h

theorem away_ofExact (R : Rounding ℝ) {k : ℤ} (hk : k ≠ 0) :
    Away (Bounds.ofExact (XRounding.ofRounding R) (k : ℝ)) := by
  refine ⟨R.down k, R.up k, rfl, ?_⟩
  rcases lt_or_gt_of_ne hk with h | h
  · right
    have h1 : (k : ℝ) ≤ -1 := by exact_mod_cast (by omega : k ≤ -1)
    have := R.up_min _ _ (R.rep_neg _ R.rep_one) h1
    linarith
  · left
    have h1 : (1 : ℝ) ≤ k := by exact_mod_cast (by omega : 1 ≤ k)
    have := R.down_max _ _ R.rep_one h1
    linarith

theorem in_ofExact (R : Rounding ℝ) (x : ℝ) : In (Bounds.ofExact (XRounding.ofRounding R) x) x :=
  ⟨⟨⟨_, rfl⟩, ⟨_, rfl⟩⟩, Bounds.C05_ofExact _ x⟩

theorem in_point (x : ℝ) : In (⟨.fin x, .fin x⟩ : Bounds ℝ) x :=
  ⟨⟨⟨_, rfl⟩, ⟨_, rfl⟩⟩, le_rfl, le_rfl⟩

/-- **C96** Bounds with rounded operations meet the hypotheses of the theorems, with any sound
elementary functions. -/
theorem C96_bounds (R : Rounding ℝ) (Q : Type*) (e : UnOp → Bounds ℝ → Bounds ℝ)
    (pw : Bounds ℝ → ℤ → Bounds ℝ)
    (hs : ∀ b x, In b x → Above b → In (e .sqrt b) (Real.sqrt x))
    (hl : ∀ b x, In b x → Above b → In (e .log b) (Real.log x))
    (he : ∀ b x, In b x → In (e .exp b) (Real.exp x))
    (hsin : ∀ b x, In b x → In (e .sin b) (Real.sin x))
    (hcos : ∀ b x, In b x → In (e .cos b) (Real.cos x))
    (hpw : ∀ b x n, In b x → Away b → In (pw b n) (x ^ n)) :
    GSound (boundsG (XRounding.ofRounding R) e pw) (fun b (f : Q → ℝ) => ∀ q, In b (f q)) Away Above id where
  zero := fun _ => in_point 0
  plusOne := fun h q => in_add R (h q) (in_point 1)
  add := fun h h' q => in_add R (h q) (h' q)
  sub := fun h h' q => in_sub R (h q) (h' q)
  mul := fun h h' q => in_mul R (h q) (h' q)
  div := fun h h' hz q => Verif.Matrix.in_div R (h q) (h' q) (away_iff hz)
  neg := fun {a f} h q => by
    obtain ⟨⟨⟨l, hl⟩, ⟨u, hu⟩⟩, hc⟩ := h q
    refine ⟨⟨⟨-u, ?_⟩, ⟨-l, ?_⟩⟩, Bounds.C05_neg hc⟩
    · simp [boundsG, Bounds.neg, hu, Ext.neg]
    · simp [boundsG, Bounds.neg, hl, Ext.neg]
  hlf := fun {a f} h q => by
    obtain ⟨⟨⟨l, hl⟩, ⟨u, hu⟩⟩, hc⟩ := h q
    refine ⟨⟨⟨l / 2, ?_⟩, ⟨u / 2, ?_⟩⟩, Bounds.C05_hlf hc⟩
    · simp [boundsG, Bounds.hlf, hl, Ext.hlf]
    · simp [boundsG, Bounds.hlf, hu, Ext.hlf]
  smul := fun k h q => in_mul R (in_ofExact R k) (h q)
  divInt := fun k hk h q => Verif.Matrix.in_div R (h q) (in_ofExact R k) (away_iff (away_ofExact R hk))
  recip := fun {a f} h hz q => by
    refine ⟨?_, by
      have h1 := Bounds.C06_rec (XRounding.ofRounding R) (h q).2
      rw [one_div] at h1
      exact h1⟩
    obtain ⟨l, u, rfl, hlu⟩ := hz
    have hh := h q
    have h1 : l ≤ f q := hh.2.1
    have h2 : f q ≤ u := hh.2.2
    have hne : l ≠ 0 ∧ u ≠ 0 := by
      rcases hlu with h | h
      · exact ⟨h.ne', by linarith⟩
      · exact ⟨by linarith, h.ne⟩
    have hc : (Ext.lt (.fin 0) (Ext.fin l) || Ext.lt (Ext.fin u) (.fin 0)) = true := by
      simpa [Ext.lt] using hlu
    simp only [boundsG, Bounds.recip, hc, if_true, Ext.recip, Ext.div, hne.1, hne.2, if_false]
    exact ⟨⟨_, rfl⟩, ⟨_, rfl⟩⟩
  sqrt := fun h hp q => hs _ _ (h q) hp
  exp := fun h q => he _ _ (h q)
  log := fun h hp q => hl _ _ (h q) hp
  sin := fun h q => hsin _ _ (h q)
  cos := fun h q => hcos _ _ (h q)
  pow := fun n h hz q => hpw _ _ n (h q) hz
  cst := fun y _ => in_ofExact R y
  nz_ne := fun {a f} h hz q => by
    obtain ⟨l, u, rfl, hlu⟩ := hz
    have h1 : l ≤ f q := (h q).2.1
    have h2 : f q ≤ u := (h q).2.2
    rcases hlu with h | h
    · linarith
    · linarith
  ps_pos := fun {a f} h hz q => by
    obtain ⟨l, u, rfl, hl⟩ := hz
    have h1 : l ≤ f q := (h q).2.1
    linarith
  ps_nz := fun hp => by
    obtain ⟨l, u, rfl, h⟩ := hp
    exact ⟨l, u, rfl, Or.inl h⟩

/-- A continuous function on bounds has bounds for its values. -/
theorem exists_bounds {b : Bounds ℝ} {f : ℝ → ℝ} (hf : ∀ x, In b x → ContinuousAt f x) :
    ∃ c, ∀ x, In b x → In c (f x) := by
  by_cases hb : b.Finite
  · obtain ⟨l, u⟩ := b
    obtain ⟨⟨l, rfl⟩, ⟨u, rfl⟩⟩ := hb
    have hx : ∀ x, x ∈ Set.Icc l u ↔ In (⟨.fin l, .fin u⟩ : Bounds ℝ) x := fun x =>
      ⟨fun h => ⟨⟨⟨_, rfl⟩, ⟨_, rfl⟩⟩, h.1, h.2⟩, fun h => ⟨h.2.1, h.2.2⟩⟩
    have hc : ContinuousOn f (Set.Icc l u) := fun x h => (hf x ((hx x).1 h)).continuousWithinAt
    obtain ⟨m, hm⟩ := isCompact_Icc.bddBelow_image hc
    obtain ⟨M, hM⟩ := isCompact_Icc.bddAbove_image hc
    exact ⟨⟨.fin m, .fin M⟩, fun x h => ⟨⟨⟨_, rfl⟩, ⟨_, rfl⟩⟩, hm ⟨x, (hx x).2 h, rfl⟩,
      hM ⟨x, (hx x).2 h, rfl⟩⟩⟩
  · exact ⟨⟨.fin 0, .fin 0⟩, fun x h => absurd h.1 hb⟩

theorem ne_of_away {b : Bounds ℝ} {x : ℝ} (h : Away b) (hx : In b x) : x ≠ 0 := by
  obtain ⟨l, u, rfl, hlu⟩ := h
  have h1 : l ≤ x := hx.2.1
  have h2 : x ≤ u := hx.2.2
  rcases hlu with h | h <;> intro h0 <;> linarith

theorem away_of_above {b : Bounds ℝ} (h : Above b) : Away b := by
  obtain ⟨l, u, rfl, h⟩ := h
  exact ⟨l, u, rfl, Or.inl h⟩

/-- The hypotheses of `C96_bounds` are met by some functions. -/
example : ∃ (e : UnOp → Bounds ℝ → Bounds ℝ) (pw : Bounds ℝ → ℤ → Bounds ℝ),
    (∀ b x, In b x → Above b → In (e .sqrt b) (Real.sqrt x)) ∧
    (∀ b x, In b x → Above b → In (e .log b) (Real.log x)) ∧
    (∀ b x, In b x → In (e .exp b) (Real.exp x)) ∧
    (∀ b x, In b x → In (e .sin b) (Real.sin x)) ∧
    (∀ b x, In b x → In (e .cos b) (Real.cos x)) ∧
    (∀ b x n, In b x → Away b → In (pw b n) (x ^ n)) := by
  classical
  let F : UnOp → ℝ → ℝ := fun op => match op with
    | .sqrt => Real.sqrt | .log => Real.log | .exp => Real.exp | .sin => Real.sin | _ => Real.cos
  let enc : (ℝ → ℝ) → Bounds ℝ → Bounds ℝ := fun f b =>
    if h : ∃ c, ∀ x, In b x → In c (f x) then h.choose else b
  have key : ∀ f b, (∀ x, In b x → ContinuousAt f x) → ∀ x, In b x → In (enc f b) (f x) := by
    intro f b hf x hx
    have h := exists_bounds hf
    simp only [enc, dif_pos h]
    exact h.choose_spec x hx
  refine ⟨fun op => enc (F op), fun b n => enc (fun x => x ^ n) b, ?_, ?_, ?_, ?_, ?_, ?_⟩
  · exact fun b x hx _ => key _ b (fun y _ => Real.continuous_sqrt.continuousAt) x hx
  · exact fun b x hx hb =>
      key _ b (fun y hy => Real.continuousAt_log (ne_of_away (away_of_above hb) hy)) x hx
  · exact fun b x hx => key _ b (fun y _ => Real.continuous_exp.continuousAt) x hx
  · exact fun b x hx => key _ b (fun y _ => Real.continuous_sin.continuousAt) x hx
  · exact fun b x hx => key _ b (fun y _ => Real.continuous_cos.continuousAt) x hx
  · exact fun b x n hx hb =>
      key _ b (fun y hy => continuousAt_zpow₀ y n (Or.inl (ne_of_away hb hy))) x hx

/-! ## Counterexamples -/

/-- The series `1+t`. -/
theorem enc_one_add : Enc (exactG Unit) (fun a f => a = f) [fun _ => 1, fun _ => 1] (fun _ t => 1 + t) 2 := by
  refine ⟨rfl, fun k hk => ?_⟩
  have : k = 0 ∨ k = 1 := by omega
  rcases this with rfl | rfl
  · funext q; simp [co, tc_zero]
  · funext q; simp [co, tc_time 1 0]

theorem tc_two_mul (k : ℕ) : tc (fun t => 2 * (1 + t)) k = 2 * tc (fun t => 1 + t) k := by
  rw [tc, tc, iteratedDeriv_const_mul_field]; ring

/-- **C96** Multiplying a series by a number on the left only multiplies the coefficient of order
zero: twice `1+t` is `2+t`. -/
theorem C96_number_left_wrong : ∃ l, mulNumLeft (fun f q => 2 * f q) [fun _ : Unit => (1 : ℝ), fun _ => 1] = some l ∧
    ¬ Enc (exactG Unit) (fun a f => a = f) l (fun _ t => 2 * (1 + t)) 2 := by
  refine ⟨_, rfl, fun h => ?_⟩
  have := congrFun (h.2 1 (by omega)) ()
  simp only [tc_two_mul, tc_time 1 0] at this
  norm_num [co] at this

/-- **C96** Multiplying a series by a number on the right only multiplies the last coefficient: `1+t`
times `2` is `1+2t`. -/
theorem C96_number_right_wrong :
    ∃ l, mulNumRight (fun f q => 2 * f q) [fun _ : Unit => (1 : ℝ), fun _ => 1] = some l ∧
    ¬ Enc (exactG Unit) (fun a f => a = f) l (fun _ t => 2 * (1 + t)) 2 := by
  refine ⟨_, rfl, fun h => ?_⟩
  have := congrFun (h.2 0 (by omega)) ()
  simp only [tc_two_mul, tc_zero] at this
  norm_num [co] at this

/-- **C96** The square of `t` by `pow` divides by the coefficient of order zero, which is zero, so that
the next coefficient is unbounded for every rounding; `sqr` gives zero. -/
theorem C96_pow_zero_wrong (R : XRounding ℝ) (e : UnOp → Bounds ℝ → Bounds ℝ)
    (pw : Bounds ℝ → ℤ → Bounds ℝ) (b0 : Bounds ℝ) (a1 : Bounds ℝ) :
    pow (boundsG R e pw) [b0] [⟨.fin 0, .fin 0⟩, a1] 2 = some [b0, ⟨.ninf, .pinf⟩] := by
  simp [pow, boundsG, co, Bounds.div, Ext.lt]

/-- **C96** Halving a series always fails at the first coefficient, as do unary plus and `nul`. -/
theorem C96_half_fails {Y X : Type*} (o : GOps Y X) (a : X) :
    hlf o [] [a] = none ∧ pos o [] [a] = none ∧ nul o [] [a] = none := by
  simp [hlf, pos, nul, degree16]

/-- So the flow of `x' = x/2`, with `hlf`, cannot be computed, although that of `x' = x` can. -/
example (n : ℕ) : flowRun (exactG ℝ) true ⟨[], [.ind 0, .un .hlf 0]⟩ [1] [fun q => q] (n + 1) = none :=
  C96_unsupported (i := .un .hlf 0) (by simp) (by simp [Supported]) n

end Verif.Graded
