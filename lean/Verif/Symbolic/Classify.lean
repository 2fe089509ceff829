import Verif.Symbolic.Subst
import Mathlib.Algebra.MvPolynomial.Eval
import Mathlib.Algebra.MvPolynomial.Variables

/-!
# C37: classification of expressions
-/

noncomputable section

namespace Ariadne.Symbolic

open Expr

variable {V : Type*} [DecidableEq V]

/-- spec: the two valuations agree on all other variables -/
def AgreeOff (vars : Finset V) (x y : V → ℝ) : Prop := ∀ v, v ∉ vars → x v = y v

theorem bind_eq {a : Option ℝ} {f : ℝ → Option ℝ} {r : ℝ} (h : a.bind f = some r) : ∃ p, a = some p ∧ f p = some r := by
  cases a with
  | none => simp at h
  | some p => exact ⟨p, rfl, by simpa using h⟩

theorem powEval_zero (p : ℝ) : powEval p 0 = some 1 := by simp [powEval]

/-- C37: an expression which is constant in some variables has the same value wherever it is
defined. -/
theorem C37_constant {vars : Finset V} {e : Expr V} (h : e.isConstantIn vars = true) {x y : V → ℝ}
    (hxy : AgreeOff vars x y) {p q : ℝ} (hp : e.eval x = some p) (hq : e.eval y = some q) : p = q := by
  induction e generalizing p q with
  | const n c => simp only [eval, Option.some.injEq] at hp hq; rw [← hp, ← hq]
  | var v =>
    simp only [isConstantIn, decide_eq_true_eq] at h
    simp only [eval, Option.some.injEq] at hp hq
    rw [← hp, ← hq]; exact hxy v h
  | un op a ih =>
    obtain ⟨a1, h1, h2⟩ := bind_eq hp
    obtain ⟨b1, h3, h4⟩ := bind_eq hq
    have := ih h h1 h3
    subst this
    rw [h2] at h4
    simpa using h4
  | bin op a b iha ihb =>
    simp only [isConstantIn, Bool.and_eq_true] at h
    obtain ⟨a1, h1, h2⟩ := bind_eq hp
    obtain ⟨a2, h3, h4⟩ := bind_eq hq
    obtain ⟨b1, h5, h6⟩ := bind_eq h2
    obtain ⟨b2, h7, h8⟩ := bind_eq h4
    have e1 := iha h.1 h1 h3
    have e2 := ihb h.2 h5 h7
    subst e1 e2
    rw [h6] at h8
    simpa using h8
  | pow a n ih =>
    obtain ⟨a1, h1, h2⟩ := bind_eq hp
    obtain ⟨b1, h3, h4⟩ := bind_eq hq
    simp only [isConstantIn, Bool.or_eq_true, beq_iff_eq] at h
    rcases h with h | h
    · subst h
      rw [powEval_zero] at h2 h4
      simp only [Option.some.injEq] at h2 h4
      rw [← h2, ← h4]
    · have := ih h h1 h3
      subst this
      rw [h2] at h4
      simpa using h4

/-- spec: over a valuation `b` of the other variables, the expression is given by `f` wherever
it is defined -/
def GivenBy (vars : Finset V) (b : V → ℝ) (e : Expr V) (f : (V → ℝ) → ℝ) : Prop :=
  ∀ x, AgreeOff vars x b → ∀ p, e.eval x = some p → p = f x

theorem givenBy_const {vars : Finset V} {e : Expr V} (h : e.isConstantIn vars = true) (b : V → ℝ) :
    ∃ c, GivenBy vars b e fun _ => c := by
  by_cases hd : ∃ x, AgreeOff vars x b ∧ ∃ p, e.eval x = some p
  · obtain ⟨x, hx, p, hp⟩ := hd
    refine ⟨p, fun y hy q hq => ?_⟩
    exact C37_constant h (fun v hv => (hy v hv).trans (hx v hv).symm) hq hp
  · refine ⟨0, fun x hx p hp => ?_⟩
    exact absurd ⟨x, hx, p, hp⟩ hd

/-- spec: an affine function of the variables -/
def IsAffine (vars : Finset V) (f : (V → ℝ) → ℝ) : Prop :=
  ∃ (c : ℝ) (a : V → ℝ), ∀ x, f x = c + ∑ v ∈ vars, a v * x v

omit [DecidableEq V] in
theorem IsAffine.const (vars : Finset V) (c : ℝ) : IsAffine vars fun _ => c :=
  ⟨c, fun _ => 0, fun x => by simp⟩

omit [DecidableEq V] in
theorem IsAffine.add {vars : Finset V} {f g : (V → ℝ) → ℝ} (hf : IsAffine vars f) (hg : IsAffine vars g) :
    IsAffine vars fun x => f x + g x := by
  obtain ⟨c, a, h1⟩ := hf
  obtain ⟨d, b, h2⟩ := hg
  refine ⟨c + d, fun v => a v + b v, fun x => ?_⟩
  simp only [h1, h2, add_mul, Finset.sum_add_distrib]
  ring

omit [DecidableEq V] in
theorem IsAffine.smul {vars : Finset V} {f : (V → ℝ) → ℝ} (hf : IsAffine vars f) (k : ℝ) :
    IsAffine vars fun x => k * f x := by
  obtain ⟨c, a, h1⟩ := hf
  refine ⟨k * c, fun v => k * a v, fun x => ?_⟩
  simp only [h1, mul_add, Finset.mul_sum, mul_assoc]

theorem givenBy_var (vars : Finset V) (b : V → ℝ) (v : V) : ∃ f, GivenBy vars b (var v) f ∧ IsAffine vars f := by
  by_cases h : v ∈ vars
  · refine ⟨fun x => x v, fun x _ p hp => ?_, 0, fun w => if w = v then 1 else 0, fun x => ?_⟩
    · simp only [eval, Option.some.injEq] at hp; exact hp.symm
    · simp [h]
  · refine ⟨fun _ => b v, fun x hx p hp => ?_, IsAffine.const _ _⟩
    simp only [eval, Option.some.injEq] at hp
    rw [← hp]; exact hx v h

/-- C37: an expression which is affine in some variables is an affine function of them. -/
theorem C37_affine {vars : Finset V} {e : Expr V} (h : e.isAffineIn vars = true) (b : V → ℝ) :
    ∃ f, GivenBy vars b e f ∧ IsAffine vars f := by
  have hconst : ∀ {e : Expr V}, e.isConstantIn vars = true → ∃ f, GivenBy vars b e f ∧ IsAffine vars f := by
    intro e h
    obtain ⟨c, hc⟩ := givenBy_const h b
    exact ⟨_, hc, IsAffine.const _ _⟩
  induction e with
  | const n c => exact hconst (e := Expr.const n c) rfl
  | var v => exact givenBy_var vars b v
  | un op a ih =>
    have hlin : ∀ k : ℝ, a.isAffineIn vars = true → (∀ p, op.eval p = some (k * p)) →
        ∃ f, GivenBy vars b (un op a) f ∧ IsAffine vars f := by
      intro k ha hk
      obtain ⟨f, hf, hfa⟩ := ih ha
      refine ⟨fun x => k * f x, fun x hx p hp => ?_, hfa.smul k⟩
      obtain ⟨q, hq, hp⟩ := bind_eq hp
      rw [hk] at hp
      simp only [Option.some.injEq] at hp
      rw [← hp, hf x hx q hq]
    cases op
    case nul =>
      refine ⟨fun _ => 0, fun x hx p hp => ?_, IsAffine.const _ _⟩
      obtain ⟨q, hq, hp⟩ := bind_eq hp
      simpa [UnOp.eval] using hp.symm
    case pos => exact hlin 1 h fun p => by simp [UnOp.eval]
    case neg => exact hlin (-1) h fun p => by simp [UnOp.eval]
    case hlf => exact hlin (1/2) h fun p => by simp [UnOp.eval]; ring
    all_goals exact hconst h
  | bin op a c iha ihc =>
    cases op
    case add =>
      simp only [isAffineIn, Bool.and_eq_true] at h
      obtain ⟨f, hf, hfa⟩ := iha h.1
      obtain ⟨g, hg, hga⟩ := ihc h.2
      refine ⟨fun x => f x + g x, fun x hx p hp => ?_, hfa.add hga⟩
      obtain ⟨q, hq, hp⟩ := bind_eq hp
      obtain ⟨s, hs, hp⟩ := bind_eq hp
      simp only [BinOp.eval, Option.some.injEq] at hp
      rw [← hp, hf x hx q hq, hg x hx s hs]
    case sub =>
      simp only [isAffineIn, Bool.and_eq_true] at h
      obtain ⟨f, hf, hfa⟩ := iha h.1
      obtain ⟨g, hg, hga⟩ := ihc h.2
      refine ⟨fun x => f x + (-1) * g x, fun x hx p hp => ?_, hfa.add (hga.smul _)⟩
      obtain ⟨q, hq, hp⟩ := bind_eq hp
      obtain ⟨s, hs, hp⟩ := bind_eq hp
      simp only [BinOp.eval, Option.some.injEq] at hp
      rw [← hp, hf x hx q hq, hg x hx s hs]; ring
    case mul =>
      simp only [isAffineIn, Bool.or_eq_true, Bool.and_eq_true] at h
      rcases h with h | h
      · obtain ⟨f, hf, hfa⟩ := iha h.1
        obtain ⟨k, hk⟩ := givenBy_const h.2 b
        refine ⟨fun x => k * f x, fun x hx p hp => ?_, hfa.smul k⟩
        obtain ⟨q, hq, hp⟩ := bind_eq hp
        obtain ⟨s, hs, hp⟩ := bind_eq hp
        simp only [BinOp.eval, Option.some.injEq] at hp
        rw [← hp, hf x hx q hq, hk x hx s hs]; ring
      · obtain ⟨f, hf, hfa⟩ := ihc h.2
        obtain ⟨k, hk⟩ := givenBy_const h.1 b
        refine ⟨fun x => k * f x, fun x hx p hp => ?_, hfa.smul k⟩
        obtain ⟨q, hq, hp⟩ := bind_eq hp
        obtain ⟨s, hs, hp⟩ := bind_eq hp
        simp only [BinOp.eval, Option.some.injEq] at hp
        rw [← hp, hk x hx q hq, hf x hx s hs]
    case div =>
      simp only [isAffineIn, Bool.and_eq_true] at h
      obtain ⟨f, hf, hfa⟩ := iha h.1
      obtain ⟨k, hk⟩ := givenBy_const h.2 b
      refine ⟨fun x => k⁻¹ * f x, fun x hx p hp => ?_, hfa.smul _⟩
      obtain ⟨q, hq, hp⟩ := bind_eq hp
      obtain ⟨s, hs, hp⟩ := bind_eq hp
      have hs' := hk x hx s hs
      simp only [BinOp.eval] at hp
      by_cases h0 : s = 0
      · simp [h0] at hp
      · rw [if_neg h0] at hp
        simp only [Option.some.injEq] at hp
        rw [← hp, hf x hx q hq, hs', div_eq_inv_mul]
    case max => exact hconst h
    case min => exact hconst h
  | pow a n ih =>
    simp only [isAffineIn, Bool.or_eq_true, Bool.and_eq_true, beq_iff_eq] at h
    rcases h with (h | h) | h
    · exact hconst (e := Expr.pow a n) (by simp [isConstantIn, h])
    · obtain ⟨f, hf, hfa⟩ := ih h.2
      refine ⟨f, fun x hx p hp => ?_, hfa⟩
      obtain ⟨q, hq, hp⟩ := bind_eq hp
      rw [h.1] at hp
      simp only [powEval] at hp
      rw [if_neg (by norm_num)] at hp
      simp only [zpow_one, Option.some.injEq] at hp
      rw [← hp]; exact hf x hx q hq
    · exact hconst (e := Expr.pow a n) (by simp [isConstantIn, h])

/-- spec: a polynomial function of the variables -/
def IsPolynomialIn (vars : Finset V) (f : (V → ℝ) → ℝ) : Prop :=
  ∃ p : MvPolynomial V ℝ, (∀ v ∈ p.vars, v ∈ vars) ∧ ∀ x, f x = MvPolynomial.eval x p

omit [DecidableEq V] in
theorem IsPolynomialIn.const (vars : Finset V) (c : ℝ) : IsPolynomialIn vars fun _ => c :=
  ⟨MvPolynomial.C c, by simp, fun x => by simp⟩

theorem IsPolynomialIn.add {vars : Finset V} {f g : (V → ℝ) → ℝ} (hf : IsPolynomialIn vars f)
    (hg : IsPolynomialIn vars g) : IsPolynomialIn vars fun x => f x + g x := by
  obtain ⟨p, hp, h1⟩ := hf
  obtain ⟨q, hq, h2⟩ := hg
  refine ⟨p + q, fun v hv => ?_, fun x => by simp [h1, h2]⟩
  rcases Finset.mem_union.1 (MvPolynomial.vars_add_subset p q hv) with h | h
  · exact hp v h
  · exact hq v h

theorem IsPolynomialIn.mul {vars : Finset V} {f g : (V → ℝ) → ℝ} (hf : IsPolynomialIn vars f)
    (hg : IsPolynomialIn vars g) : IsPolynomialIn vars fun x => f x * g x := by
  obtain ⟨p, hp, h1⟩ := hf
  obtain ⟨q, hq, h2⟩ := hg
  refine ⟨p * q, fun v hv => ?_, fun x => by simp [h1, h2]⟩
  rcases Finset.mem_union.1 (MvPolynomial.vars_mul p q hv) with h | h
  · exact hp v h
  · exact hq v h

theorem IsPolynomialIn.pow {vars : Finset V} {f : (V → ℝ) → ℝ} (hf : IsPolynomialIn vars f) (n : ℕ) :
    IsPolynomialIn vars fun x => f x ^ n := by
  induction n with
  | zero => simpa using IsPolynomialIn.const vars 1
  | succ n ih =>
    have := ih.mul hf
    simpa only [pow_succ] using this

/-- C37: an expression which is polynomial in some variables is a polynomial function of
them. -/
theorem C37_polynomial {vars : Finset V} {e : Expr V} (h : e.isPolynomialIn vars = true) (b : V → ℝ) :
    ∃ f, GivenBy vars b e f ∧ IsPolynomialIn vars f := by
  have hconst : ∀ {e : Expr V}, e.isConstantIn vars = true → ∃ f, GivenBy vars b e f ∧ IsPolynomialIn vars f := by
    intro e h
    obtain ⟨c, hc⟩ := givenBy_const h b
    exact ⟨_, hc, IsPolynomialIn.const _ _⟩
  induction e with
  | const n c => exact hconst (e := Expr.const n c) rfl
  | var v =>
    by_cases hv : v ∈ vars
    · refine ⟨fun x => x v, fun x _ p hp => ?_, MvPolynomial.X v, fun w hw => ?_, fun x => by simp⟩
      · simp only [eval, Option.some.injEq] at hp; exact hp.symm
      · rw [MvPolynomial.vars_X, Finset.mem_singleton] at hw
        rw [hw]; exact hv
    · exact hconst (e := Expr.var v) (by simp [isConstantIn, hv])
  | un op a ih =>
    have hpoly : a.isPolynomialIn vars = true → (∀ f, IsPolynomialIn vars f →
        ∃ g, IsPolynomialIn vars g ∧ ∀ x, op.eval (f x) = some (g x)) →
        ∃ f, GivenBy vars b (un op a) f ∧ IsPolynomialIn vars f := by
      intro ha hk
      obtain ⟨f, hf, hfa⟩ := ih ha
      obtain ⟨g, hg, hfg⟩ := hk f hfa
      refine ⟨g, fun x hx p hp => ?_, hg⟩
      obtain ⟨q, hq, hp⟩ := bind_eq hp
      rw [hf x hx q hq, hfg] at hp
      simpa using hp.symm
    cases op
    case nul =>
      refine ⟨fun _ => 0, fun x hx p hp => ?_, IsPolynomialIn.const _ _⟩
      obtain ⟨q, hq, hp⟩ := bind_eq hp
      simpa [UnOp.eval] using hp.symm
    case pos => exact hpoly h fun f hf => ⟨f, hf, fun x => rfl⟩
    case neg => exact hpoly h fun f hf => ⟨_, (IsPolynomialIn.const vars (-1)).mul hf, fun x => by simp [UnOp.eval]⟩
    case sqr => exact hpoly h fun f hf => ⟨_, hf.mul hf, fun x => rfl⟩
    case hlf =>
      exact hpoly h fun f hf => ⟨_, (IsPolynomialIn.const vars (1/2)).mul hf, fun x => by simp [UnOp.eval]; ring⟩
    all_goals exact hconst h
  | bin op a c iha ihc =>
    have hpoly : a.isPolynomialIn vars = true → c.isPolynomialIn vars = true → (∀ f g, IsPolynomialIn vars f →
        IsPolynomialIn vars g → ∃ k, IsPolynomialIn vars k ∧ ∀ x, op.eval (f x) (g x) = some (k x)) →
        ∃ f, GivenBy vars b (bin op a c) f ∧ IsPolynomialIn vars f := by
      intro ha hc hk
      obtain ⟨f, hf, hfa⟩ := iha ha
      obtain ⟨g, hg, hga⟩ := ihc hc
      obtain ⟨k, hk, hfg⟩ := hk f g hfa hga
      refine ⟨k, fun x hx p hp => ?_, hk⟩
      obtain ⟨q, hq, hp⟩ := bind_eq hp
      obtain ⟨s, hs, hp⟩ := bind_eq hp
      rw [hf x hx q hq, hg x hx s hs, hfg] at hp
      simpa using hp.symm
    cases op
    case add =>
      simp only [isPolynomialIn, Bool.and_eq_true] at h
      exact hpoly h.1 h.2 fun f g hf hg => ⟨_, hf.add hg, fun x => rfl⟩
    case sub =>
      simp only [isPolynomialIn, Bool.and_eq_true] at h
      exact hpoly h.1 h.2 fun f g hf hg => ⟨_, hf.add ((IsPolynomialIn.const vars (-1)).mul hg),
        fun x => by simp [BinOp.eval]; ring⟩
    case mul =>
      simp only [isPolynomialIn, Bool.and_eq_true] at h
      exact hpoly h.1 h.2 fun f g hf hg => ⟨_, hf.mul hg, fun x => rfl⟩
    case div =>
      simp only [isPolynomialIn, Bool.and_eq_true] at h
      obtain ⟨f, hf, hfa⟩ := iha h.1
      obtain ⟨k, hk⟩ := givenBy_const h.2 b
      refine ⟨fun x => k⁻¹ * f x, fun x hx p hp => ?_, (IsPolynomialIn.const vars k⁻¹).mul hfa⟩
      obtain ⟨q, hq, hp⟩ := bind_eq hp
      obtain ⟨s, hs, hp⟩ := bind_eq hp
      have hs' := hk x hx s hs
      simp only [BinOp.eval] at hp
      by_cases h0 : s = 0
      · simp [h0] at hp
      · rw [if_neg h0] at hp
        simp only [Option.some.injEq] at hp
        rw [← hp, hf x hx q hq, hs', div_eq_inv_mul]
    case max => exact hconst h
    case min => exact hconst h
  | pow a n ih =>
    simp only [isPolynomialIn, Bool.or_eq_true, Bool.and_eq_true, beq_iff_eq, decide_eq_true_eq] at h
    rcases h with h | h
    · exact hconst (e := Expr.pow a n) (by simp [isConstantIn, h])
    · obtain ⟨f, hf, hfa⟩ := ih h.2
      obtain ⟨m, rfl⟩ := Int.eq_ofNat_of_zero_le h.1.le
      refine ⟨fun x => f x ^ m, fun x hx p hp => ?_, hfa.pow m⟩
      obtain ⟨q, hq, hp⟩ := bind_eq hp
      simp only [powEval] at hp
      rw [if_neg (by omega)] at hp
      simp only [zpow_natCast, Option.some.injEq] at hp
      rw [← hp, hf x hx q hq]

/-- C37: an expression which is additive in a variable is the sum of the variable, or nothing,
and a part which does not depend on it. -/
theorem C37_additive {v : V} {e : Expr V} (h : e.isAdditiveIn v = true) (b : V → ℝ) :
    ∃ k c : ℝ, (k = 0 ∨ k = 1) ∧ GivenBy {v} b e fun x => c + k * x v := by
  have hconst : ∀ {e : Expr V}, e.isConstantIn {v} = true → ∃ k c : ℝ, (k = 0 ∨ k = 1) ∧ GivenBy {v} b e fun x => c + k * x v := by
    intro e h
    obtain ⟨c, hc⟩ := givenBy_const h b
    exact ⟨0, c, Or.inl rfl, by simpa using hc⟩
  induction e with
  | const n c => exact hconst (e := Expr.const n c) rfl
  | var w =>
    by_cases hw : w = v
    · subst hw
      refine ⟨1, 0, Or.inr rfl, fun x _ p hp => ?_⟩
      simp only [eval, Option.some.injEq] at hp
      rw [← hp]; ring
    · exact hconst (e := Expr.var w) (by simp [isConstantIn, hw])
  | un op a ih => simp [isAdditiveIn] at h
  | bin op a c iha ihc =>
    cases op <;> simp only [isAdditiveIn, Bool.or_eq_true, Bool.and_eq_true, Bool.false_eq_true] at h
    case add =>
      rcases h with h | h
      · obtain ⟨k, d, hk, hf⟩ := iha h.1
        obtain ⟨m, hm⟩ := givenBy_const h.2 b
        refine ⟨k, d + m, hk, fun x hx p hp => ?_⟩
        obtain ⟨q, hq, hp⟩ := bind_eq hp
        obtain ⟨s, hs, hp⟩ := bind_eq hp
        simp only [BinOp.eval, Option.some.injEq] at hp
        rw [← hp, hf x hx q hq, hm x hx s hs]; ring
      · obtain ⟨k, d, hk, hf⟩ := ihc h.2
        obtain ⟨m, hm⟩ := givenBy_const h.1 b
        refine ⟨k, d + m, hk, fun x hx p hp => ?_⟩
        obtain ⟨q, hq, hp⟩ := bind_eq hp
        obtain ⟨s, hs, hp⟩ := bind_eq hp
        simp only [BinOp.eval, Option.some.injEq] at hp
        rw [← hp, hf x hx s hs, hm x hx q hq]; ring
    case sub =>
      obtain ⟨k, d, hk, hf⟩ := iha h.1
      obtain ⟨m, hm⟩ := givenBy_const h.2 b
      refine ⟨k, d - m, hk, fun x hx p hp => ?_⟩
      obtain ⟨q, hq, hp⟩ := bind_eq hp
      obtain ⟨s, hs, hp⟩ := bind_eq hp
      simp only [BinOp.eval, Option.some.injEq] at hp
      rw [← hp, hf x hx q hq, hm x hx s hs]; ring
  | pow a n ih => simp [isAdditiveIn] at h

/-- Non-vacuity: `y²·x/exp(y)+x` is affine, and polynomial, in `x` but not in `x,y`. -/
example :
    let e : Expr ℕ := bin .add (bin .div (bin .mul (un .sqr (var 1)) (var 0)) (un .exp (var 1))) (var 0)
    e.isAffineIn {0} = true ∧ e.isPolynomialIn {0} = true ∧ e.isAffineIn {0, 1} = false ∧ e.isPolynomialIn {0, 1} = false := by
  simp [isAffineIn, isPolynomialIn, isConstantIn]
example : (bin .add (var 0) (un .exp (var 1)) : Expr ℕ).isAdditiveIn 0 = true := by simp [isAdditiveIn, isConstantIn]

end Ariadne.Symbolic
