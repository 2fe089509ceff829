import Verif.Symbolic.Simplify

/-!
# Logical expressions over the reals: indicator functions and simplification (C35, C50)
-/

noncomputable section

open Classical

namespace Ariadne.Symbolic

open Expr

variable {V : Type*} [DecidableEq V]

/-- Values of `Kleenean` with unlimited effort. -/
inductive K3 | tt | ff | uu
  deriving DecidableEq

/-- Kleene's connectives (see `Verif.Logical`). -/
def K3.not : K3 → K3
  | .tt => .ff
  | .ff => .tt
  | .uu => .uu
@[inherit_doc K3.not]
def K3.and : K3 → K3 → K3
  | .ff, _ => .ff
  | _, .ff => .ff
  | .tt, .tt => .tt
  | _, _ => .uu
@[inherit_doc K3.not]
def K3.or : K3 → K3 → K3
  | .tt, _ => .tt
  | _, .tt => .tt
  | .ff, .ff => .ff
  | _, _ => .uu

/-- `BinaryComparisonOperator` (operators.hpp 474) -/
inductive CmpOp | equal | unequal | leq | geq | less | gtr
  deriving DecidableEq

/-- The truth value of a positive sign: comparison of real numbers is only decided if they are
different. -/
def K3.ofSign (a : ℝ) : K3 := if 0 < a then .tt else if a < 0 then .ff else .uu

/-- Comparison of real numbers -/
def CmpOp.eval : CmpOp → ℝ → ℝ → K3
  | .equal, a, b => if a = b then .uu else .ff
  | .unequal, a, b => if a = b then .uu else .tt
  | .leq, a, b => .ofSign (b - a)
  | .less, a, b => .ofSign (b - a)
  | .geq, a, b => .ofSign (a - b)
  | .gtr, a, b => .ofSign (a - b)

/-- `ExpressionVariantTypedef<Kleenean>` (expression.tpl.hpp 135-139) -/
inductive KExpr (V : Type*)
  | const (k : K3)
  | var (v : V)
  | not (p : KExpr V)
  | and (p q : KExpr V)
  | or (p q : KExpr V)
  | sgn (a : Expr V)
  | cmp (op : CmpOp) (a b : Expr V)

namespace KExpr

/-- `evaluate(Expression<Kleenean>,Valuation<Real>)` (templates.tpl.hpp 144-172): a logical
variable aborts (165). -/
def eval : KExpr V → (V → ℝ) → Option K3
  | const k, _ => some k
  | var _, _ => none
  | not p, x => (eval p x).map K3.not
  | and p q, x => (eval p x).bind fun k => (eval q x).map (k.and ·)
  | or p q, x => (eval p x).bind fun k => (eval q x).map (k.or ·)
  | sgn a, x => (a.eval x).map K3.ofSign
  | cmp op a b, x => (a.eval x).bind fun r => (b.eval x).map (op.eval r ·)

/-- `indicator` (expression.cpp 312-347), with `pos` for `Sign::POSITIVE`.  The failures for
`==`, `!=` and logical variables are `none`. -/
def indicator (pos : Bool) : KExpr V → Option (Expr V)
  | const k => some (Expr.cst (match (if pos then k else k.not) with
      | .tt => 1
      | .ff => -1
      | .uu => 0))
  | var _ => none
  | not p => (indicator pos p).map (un .neg)
  | and p q => (indicator pos p).bind fun a => (indicator pos q).map fun b => bin .min a b
  | or p q => (indicator pos p).bind fun a => (indicator pos q).map fun b => bin .max a b
  | sgn a => some (if pos then a else un .neg a)
  | cmp .geq a b => some (if pos then bin .sub a b else bin .sub b a)
  | cmp .gtr a b => some (if pos then bin .sub a b else bin .sub b a)
  | cmp .leq a b => some (if pos then bin .sub b a else bin .sub a b)
  | cmp .less a b => some (if pos then bin .sub b a else bin .sub a b)
  | cmp .equal _ _ => none
  | cmp .unequal _ _ => none

/-- `is_constant(Expression<Kleenean>,Kleenean)` (expression.tpl.hpp 679-681); `o` is
`decide(c==k)`. -/
def isConst (o : K3 → K3 → Bool) : KExpr V → K3 → Bool
  | const c, k => o c k
  | _, _ => false

/-- `simplify(Expression<Kleenean>)` (expression.tpl.hpp 444-449, 479-481; templates.tpl.hpp
281-288, 300-317).  A double negation is kept since `NotOp` has no `inverse`
(operators.hpp 502-525). -/
def simplify (o : Oracle V) (ok : K3 → K3 → Bool) : KExpr V → KExpr V
  | const k => const k
  | var v => var v
  | not p => match simplify o ok p with
    | const k => const k.not
    | s => not s
  | and p q =>
    let s := simplify o ok p
    let t := simplify o ok q
    if isConst ok s .ff || isConst ok t .tt then s
    else if isConst ok s .tt || isConst ok t .ff then t
    else and s t
  | or p q =>
    let s := simplify o ok p
    let t := simplify o ok q
    if isConst ok s .tt || isConst ok t .ff then s
    else if isConst ok s .ff || isConst ok t .tt then t
    else or s t
  | sgn a => sgn (Expr.simplify o a)
  | cmp op a b => cmp op (Expr.simplify o a) (Expr.simplify o b)

/-- `substitute(Expression<Kleenean>,Variable<Real>,Expression<Real>)` (expression.tpl.hpp
358-382, templates.tpl.hpp 339-350) -/
def subst : KExpr V → V → Expr V → KExpr V
  | const k, _, _ => const k
  | var w, _, _ => var w
  | not p, v, s => not (subst p v s)
  | and p q, v, s => and (subst p v s) (subst q v s)
  | or p q, v, s => or (subst p v s) (subst q v s)
  | sgn a, v, s => sgn (a.subst v s)
  | cmp op a b, v, s => cmp op (a.subst v s) (b.subst v s)

end KExpr

/-! ## C35 -/

theorem map_eq {α β : Type*} {a : Option α} {f : α → β} {r : β} (h : a.map f = some r) : ∃ p, a = some p ∧ f p = r := by
  simpa using h

theorem bind_eq' {α β : Type*} {a : Option α} {f : α → Option β} {r : β} (h : a.bind f = some r) :
    ∃ p, a = some p ∧ f p = some r := by
  cases a with
  | none => simp at h
  | some p => exact ⟨p, rfl, by simpa using h⟩

/-- spec: neither `sqrt` nor `atan` occurs, see `Principal` for the exact condition. -/
def KExpr.Principal (o : Oracle V) (x : V → ℝ) : KExpr V → Prop
  | const _ => True
  | var _ => True
  | not p => p.Principal o x
  | and p q => p.Principal o x ∧ q.Principal o x
  | or p q => p.Principal o x ∧ q.Principal o x
  | sgn a => Symbolic.Principal o x a
  | cmp _ a b => Symbolic.Principal o x a ∧ Symbolic.Principal o x b

/-- C35: identical expressions have equal values. -/
theorem C35_identical {o : Oracle V} (ho : o.Sound) {a b : Expr V} (h : identical o a b = true) (x : V → ℝ) :
    a.eval x = b.eval x := by rw [identical_sound ho h]

theorem kConst {ok : K3 → K3 → Bool} (hok : ∀ a b, ok a b = true → a = b) {e : KExpr V} {c k : K3} {x : V → ℝ}
    (h : KExpr.isConst ok e c = true) (hk : e.eval x = some k) : k = c := by
  cases e <;> simp only [KExpr.isConst, Bool.false_eq_true] at h
  have := hok _ _ h
  simp only [KExpr.eval, Option.some.injEq] at hk
  rw [← hk, this]

/-- C35: simplification of logical expressions preserves the truth value, under the same
proviso on square roots and arctangents. -/
theorem C35_simplify_logical_partial {o : Oracle V} (ho : o.Sound) {ok : K3 → K3 → Bool}
    (hok : ∀ a b, ok a b = true → a = b) {p : KExpr V} {x : V → ℝ} {k : K3} (hp : p.Principal o x)
    (h : p.eval x = some k) : (p.simplify o ok).eval x = some k := by
  induction p generalizing k with
  | const c => exact h
  | var v => exact h
  | not p ih =>
    obtain ⟨l, hl, rfl⟩ := map_eq h
    have := ih hp hl
    simp only [KExpr.simplify]
    cases hs : p.simplify o ok <;> rw [hs] at this <;> simp only [KExpr.eval] at this ⊢
    case const c => simp only [Option.some.injEq] at this; rw [this]
    all_goals rw [this]; rfl
  | and p q ihp ihq =>
    obtain ⟨l, hl, h⟩ := bind_eq' h
    obtain ⟨m, hm, rfl⟩ := map_eq h
    have h1 := ihp hp.1 hl
    have h2 := ihq hp.2 hm
    simp only [KExpr.simplify]
    by_cases c1 : (KExpr.isConst ok (p.simplify o ok) .ff || KExpr.isConst ok (q.simplify o ok) .tt) = true
    · rw [if_pos c1, h1]
      rcases Bool.or_eq_true _ _ ▸ c1 with c | c
      · rw [kConst hok c h1]; rfl
      · rw [kConst hok c h2]; cases l <;> rfl
    rw [if_neg c1]
    by_cases c2 : (KExpr.isConst ok (p.simplify o ok) .tt || KExpr.isConst ok (q.simplify o ok) .ff) = true
    · rw [if_pos c2, h2]
      rcases Bool.or_eq_true _ _ ▸ c2 with c | c
      · rw [kConst hok c h1]; cases m <;> rfl
      · rw [kConst hok c h2]; cases l <;> rfl
    rw [if_neg c2]
    simp only [KExpr.eval, h1, h2, Option.bind_some, Option.map_some]
  | or p q ihp ihq =>
    obtain ⟨l, hl, h⟩ := bind_eq' h
    obtain ⟨m, hm, rfl⟩ := map_eq h
    have h1 := ihp hp.1 hl
    have h2 := ihq hp.2 hm
    simp only [KExpr.simplify]
    by_cases c1 : (KExpr.isConst ok (p.simplify o ok) .tt || KExpr.isConst ok (q.simplify o ok) .ff) = true
    · rw [if_pos c1, h1]
      rcases Bool.or_eq_true _ _ ▸ c1 with c | c
      · rw [kConst hok c h1]; rfl
      · rw [kConst hok c h2]; cases l <;> rfl
    rw [if_neg c1]
    by_cases c2 : (KExpr.isConst ok (p.simplify o ok) .ff || KExpr.isConst ok (q.simplify o ok) .tt) = true
    · rw [if_pos c2, h2]
      rcases Bool.or_eq_true _ _ ▸ c2 with c | c
      · rw [kConst hok c h1]; cases m <;> rfl
      · rw [kConst hok c h2]; cases l <;> rfl
    rw [if_neg c2]
    simp only [KExpr.eval, h1, h2, Option.bind_some, Option.map_some]
  | sgn a =>
    obtain ⟨r, hr, rfl⟩ := map_eq h
    simp only [KExpr.simplify, KExpr.eval, C35_simplify_partial ho hp hr, Option.map_some]
  | cmp op a b =>
    obtain ⟨r, hr, h⟩ := bind_eq' h
    obtain ⟨s, hs, rfl⟩ := map_eq h
    simp only [KExpr.simplify, KExpr.eval, C35_simplify_partial ho hp.1 hr, C35_simplify_partial ho hp.2 hs,
      Option.bind_some, Option.map_some]

/-! ## C38 -/

/-- C38: substitution in a logical expression. -/
theorem C38_substitute_logical (p : KExpr V) (v : V) (s : Expr V) {x : V → ℝ} {c : ℝ} (hs : s.eval x = some c)
    {k : K3} (hk : p.eval (Function.update x v c) = some k) : (p.subst v s).eval x = some k := by
  induction p generalizing k with
  | const l => exact hk
  | var w => exact hk
  | not p ih =>
    obtain ⟨l, hl, rfl⟩ := map_eq hk
    simp only [KExpr.subst, KExpr.eval, ih hl, Option.map_some]
  | and p q ihp ihq =>
    obtain ⟨l, hl, hk⟩ := bind_eq' hk
    obtain ⟨m, hm, rfl⟩ := map_eq hk
    simp only [KExpr.subst, KExpr.eval, ihp hl, ihq hm, Option.map_some, Option.bind_some]
  | or p q ihp ihq =>
    obtain ⟨l, hl, hk⟩ := bind_eq' hk
    obtain ⟨m, hm, rfl⟩ := map_eq hk
    simp only [KExpr.subst, KExpr.eval, ihp hl, ihq hm, Option.map_some, Option.bind_some]
  | sgn a =>
    obtain ⟨r, hr, rfl⟩ := map_eq hk
    simp only [KExpr.subst, KExpr.eval, C38_substitute a v s hs hr, Option.map_some]
  | cmp op a b =>
    obtain ⟨r, hr, hk⟩ := bind_eq' hk
    obtain ⟨t, ht, rfl⟩ := map_eq hk
    simp only [KExpr.subst, KExpr.eval, C38_substitute _ v s hs hr, C38_substitute _ v s hs ht,
      Option.map_some, Option.bind_some]

/-! ## C50: indicator functions -/

/-- C50: the indicator function of a predicate for the positive sign is positive exactly where
the predicate is true, negative exactly where it is false, and zero exactly where it is
indeterminate. -/
theorem C50_indicator_positive {p : KExpr V} {a : Expr V} (h : p.indicator true = some a) {x : V → ℝ} {k : K3}
    (hk : p.eval x = some k) : ∃ r, a.eval x = some r ∧ (0 < r ↔ k = .tt) ∧ (r < 0 ↔ k = .ff) := by
  have hsgn : ∀ r : ℝ, (0 < r ↔ K3.ofSign r = .tt) ∧ (r < 0 ↔ K3.ofSign r = .ff) := by
    intro r
    simp only [K3.ofSign]
    rcases lt_trichotomy r 0 with h | h | h
    · simp [h, not_lt.2 h.le]
    · simp [h]
    · simp [h, not_lt.2 h.le]
  induction p generalizing a k with
  | const c =>
    simp only [KExpr.indicator, Option.some.injEq] at h
    simp only [KExpr.eval, Option.some.injEq] at hk
    subst h hk
    exact ⟨_, rfl, by cases c <;> simp, by cases c <;> simp⟩
  | var v => simp [KExpr.indicator] at h
  | not p ih =>
    obtain ⟨a', ha, rfl⟩ := map_eq h
    obtain ⟨l, hl, rfl⟩ := map_eq hk
    obtain ⟨r, hr, h1, h2⟩ := ih ha hl
    refine ⟨-r, by simp [Expr.eval, hr, UnOp.eval], ?_, ?_⟩
    · rw [neg_pos, h2]; cases l <;> simp [K3.not]
    · rw [neg_lt_zero, h1]; cases l <;> simp [K3.not]
  | and p q ihp ihq =>
    obtain ⟨a', ha, h⟩ := bind_eq' h
    obtain ⟨b', hb, rfl⟩ := map_eq h
    obtain ⟨l, hl, hk⟩ := bind_eq' hk
    obtain ⟨m, hm, rfl⟩ := map_eq hk
    obtain ⟨r, hr, h1, h2⟩ := ihp ha hl
    obtain ⟨s, hs, h3, h4⟩ := ihq hb hm
    refine ⟨min r s, by simp [Expr.eval, hr, hs, BinOp.eval], ?_, ?_⟩
    · rw [lt_min_iff, h1, h3]; cases l <;> cases m <;> simp [K3.and]
    · rw [min_lt_iff, h2, h4]; cases l <;> cases m <;> simp [K3.and]
  | or p q ihp ihq =>
    obtain ⟨a', ha, h⟩ := bind_eq' h
    obtain ⟨b', hb, rfl⟩ := map_eq h
    obtain ⟨l, hl, hk⟩ := bind_eq' hk
    obtain ⟨m, hm, rfl⟩ := map_eq hk
    obtain ⟨r, hr, h1, h2⟩ := ihp ha hl
    obtain ⟨s, hs, h3, h4⟩ := ihq hb hm
    refine ⟨max r s, by simp [Expr.eval, hr, hs, BinOp.eval], ?_, ?_⟩
    · rw [lt_max_iff, h1, h3]; cases l <;> cases m <;> simp [K3.or]
    · rw [max_lt_iff, h2, h4]; cases l <;> cases m <;> simp [K3.or]
  | sgn b =>
    simp only [KExpr.indicator, if_true, Option.some.injEq] at h
    subst h
    obtain ⟨r, hr, rfl⟩ := map_eq hk
    exact ⟨r, hr, hsgn r⟩
  | cmp op b c =>
    obtain ⟨r, hr, hk⟩ := bind_eq' hk
    obtain ⟨s, hs, rfl⟩ := map_eq hk
    cases op <;> simp only [KExpr.indicator, if_true, Option.some.injEq, reduceCtorEq] at h <;> subst h
    all_goals exact ⟨_, by simp only [Expr.eval, hr, hs, Option.bind_some, BinOp.eval], hsgn _⟩

/-- spec: the predicate has no conjunction or disjunction. -/
def KExpr.Atomic : KExpr V → Prop
  | const _ => True
  | var _ => True
  | not p => p.Atomic
  | and _ _ => False
  | or _ _ => False
  | sgn _ => True
  | cmp _ _ _ => True

/-- C50: the indicator function for the negative sign is negative exactly where the predicate is
true and positive exactly where it is false, for predicates without conjunction and
disjunction.  (It is wrong with them: `C50_indicator_and_counterexample`.) -/
theorem C50_indicator_negative_partial {p : KExpr V} (hp : p.Atomic) {a : Expr V} (h : p.indicator false = some a)
    {x : V → ℝ} {k : K3} (hk : p.eval x = some k) :
    ∃ r, a.eval x = some r ∧ (r < 0 ↔ k = .tt) ∧ (0 < r ↔ k = .ff) := by
  have hsgn : ∀ r : ℝ, (-r < 0 ↔ K3.ofSign r = .tt) ∧ (0 < -r ↔ K3.ofSign r = .ff) := by
    intro r
    simp only [K3.ofSign]
    rcases lt_trichotomy r 0 with h | h | h
    · simp [h, not_lt.2 h.le]
    · simp [h]
    · simp [h, not_lt.2 h.le]
  have hsub : ∀ r s : ℝ, (r - s < 0 ↔ K3.ofSign (s - r) = .tt) ∧ (0 < r - s ↔ K3.ofSign (s - r) = .ff) := by
    intro r s
    have := hsgn (s - r)
    rwa [neg_sub] at this
  induction p generalizing a k with
  | const c =>
    simp only [KExpr.indicator, Option.some.injEq] at h
    simp only [KExpr.eval, Option.some.injEq] at hk
    subst h hk
    exact ⟨_, rfl, by cases c <;> simp [K3.not], by cases c <;> simp [K3.not]⟩
  | var v => simp [KExpr.indicator] at h
  | not p ih =>
    obtain ⟨a', ha, rfl⟩ := map_eq h
    obtain ⟨l, hl, rfl⟩ := map_eq hk
    obtain ⟨r, hr, h1, h2⟩ := ih hp ha hl
    refine ⟨-r, by simp [Expr.eval, hr, UnOp.eval], ?_, ?_⟩
    · rw [neg_lt_zero, h2]; cases l <;> simp [K3.not]
    · rw [neg_pos, h1]; cases l <;> simp [K3.not]
  | and p q ihp ihq => exact hp.elim
  | or p q ihp ihq => exact hp.elim
  | sgn b =>
    simp only [KExpr.indicator, Bool.false_eq_true, if_false, Option.some.injEq] at h
    subst h
    obtain ⟨r, hr, rfl⟩ := map_eq hk
    exact ⟨-r, by simp [Expr.eval, hr, UnOp.eval], hsgn r⟩
  | cmp op b c =>
    obtain ⟨r, hr, hk⟩ := bind_eq' hk
    obtain ⟨s, hs, rfl⟩ := map_eq hk
    cases op <;> simp only [KExpr.indicator, Bool.false_eq_true, if_false, Option.some.injEq, reduceCtorEq] at h <;>
      subst h
    all_goals exact ⟨_, by simp only [Expr.eval, hr, hs, Option.bind_some, BinOp.eval], hsub _ _⟩

/-- C50: the negative indicator function of `x>=0 && y>=0` is negative where the predicate is
false. -/
theorem C50_indicator_and_counterexample :
    ∃ (p : KExpr ℕ) (a : Expr ℕ) (x : ℕ → ℝ), p.indicator false = some a ∧ p.eval x = some .ff ∧
      a.eval x = some (-1) := by
  refine ⟨.and (.cmp .geq (.var 0) (.cst 0)) (.cmp .geq (.var 1) (.cst 0)), _, fun i => if i = 0 then 1 else -1,
    rfl, ?_, ?_⟩
  · simp [KExpr.eval, Expr.eval, cst, CmpOp.eval, K3.ofSign, K3.and]
    norm_num
  · simp [Expr.eval, cst, BinOp.eval]

/-- C50: the negative indicator function of `x>=0 || y>=0` is positive where the predicate is
true. -/
theorem C50_indicator_or_counterexample :
    ∃ (p : KExpr ℕ) (a : Expr ℕ) (x : ℕ → ℝ), p.indicator false = some a ∧ p.eval x = some .tt ∧
      a.eval x = some 1 := by
  refine ⟨.or (.cmp .geq (.var 0) (.cst 0)) (.cmp .geq (.var 1) (.cst 0)), _, fun i => if i = 0 then 1 else -1,
    rfl, ?_, ?_⟩
  · simp [KExpr.eval, Expr.eval, cst, CmpOp.eval, K3.ofSign, K3.or]
  · simp [Expr.eval, cst, BinOp.eval]

/-- C50: the indicator function fails exactly for predicates with a logical variable, an
equality or an inequality. -/
def KExpr.NoIndicator : KExpr V → Prop
  | const _ => False
  | var _ => True
  | not p => p.NoIndicator
  | and p q => p.NoIndicator ∨ q.NoIndicator
  | or p q => p.NoIndicator ∨ q.NoIndicator
  | sgn _ => False
  | cmp op _ _ => op = .equal ∨ op = .unequal

theorem C50_indicator_throws (p : KExpr V) (s : Bool) : p.indicator s = none ↔ p.NoIndicator := by
  induction p with
  | const c => simp [KExpr.indicator, KExpr.NoIndicator]
  | var v => simp [KExpr.indicator, KExpr.NoIndicator]
  | not p ih => simpa [KExpr.indicator, KExpr.NoIndicator] using ih
  | and p q ihp ihq =>
    simp only [KExpr.indicator, KExpr.NoIndicator, ← ihp, ← ihq]
    cases p.indicator s <;> cases q.indicator s <;> simp
  | or p q ihp ihq =>
    simp only [KExpr.indicator, KExpr.NoIndicator, ← ihp, ← ihq]
    cases p.indicator s <;> cases q.indicator s <;> simp
  | sgn a => simp [KExpr.indicator, KExpr.NoIndicator]
  | cmp op a b => cases op <;> simp [KExpr.indicator, KExpr.NoIndicator]

/-- Non-vacuity -/
example : ∃ a, (KExpr.and (.cmp .geq (.var 0) (.cst 0)) (.not (.sgn (.var 1))) : KExpr ℕ).indicator true = some a := ⟨_, rfl⟩
example : (KExpr.not (.cmp .less (.var 0) (.cst 0)) : KExpr ℕ).Atomic := trivial

end Ariadne.Symbolic
