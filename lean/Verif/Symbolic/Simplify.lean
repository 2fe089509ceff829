import Verif.Symbolic.Derivative

/-!
# C35: simplification
-/

noncomputable section

open Classical

namespace Ariadne.Symbolic

open Expr

variable {V : Type*} [DecidableEq V]

/-! ## The bound on the recursion is never reached -/

/-- The simplification of a binary node with simplified arguments. -/
def sBin (o : Oracle V) (op : BinOp) (s t : Expr V) : Expr V :=
  match op with
  | .add => if isConst o s 0 then t else if isConst o t 0 then s else bin .add s t
  | .sub => if isConst o s 0 then simplUn .neg t else if isConst o t 0 then s
      else if identical o s t then cst 0 else bin .sub s t
  | .mul => if isConst o s 0 || isConst o t 1 then s else if isConst o t 0 || isConst o s 1 then t
      else bin .mul s t
  | .div => if isConst o s 0 || isConst o t 1 then s else if isConst o s 1 then simplUn .recip t
      else if identical o s t then cst 1 else bin .div s t
  | .max => bin .max s t
  | .min => bin .min s t

/-- The simplification of a power with simplified argument. -/
def sPow (s : Expr V) (n : ℤ) : Expr V :=
  if n = -1 then simplUn .recip s
  else if n = 0 then cst 1
  else if n = 1 then s
  else if n = 2 then simplUn .sqr s
  else pow s n

/-- Simplification by structural recursion. -/
def sExpr (o : Oracle V) : Expr V → Expr V
  | const n c => const n c
  | var v => var v
  | un op a => simplUn op (sExpr o a)
  | bin op a b => sBin o op (sExpr o a) (sExpr o b)
  | pow a n => sPow (sExpr o a) n

/-- Expressions in which nothing can be simplified. -/
def Nf (o : Oracle V) : Expr V → Prop
  | const _ _ => True
  | var _ => True
  | un op a => Nf o a ∧ simplUn op a = un op a
  | bin op a b => Nf o a ∧ Nf o b ∧ sBin o op a b = bin op a b
  | pow a n => Nf o a ∧ sPow a n = pow a n

theorem sExpr_of_nf {o : Oracle V} {e : Expr V} (h : Nf o e) : sExpr o e = e := by
  induction e with
  | const n c => rfl
  | var v => rfl
  | un op a ih => simp only [sExpr, ih h.1, h.2]
  | bin op a b iha ihb => simp only [sExpr, iha h.1, ihb h.2.1, h.2.2]
  | pow a n ih => simp only [sExpr, ih h.1, h.2]

theorem app_ne_nul {op : UnOp} (h : op ≠ .nul) (a : Expr V) : app op a = un op a := by
  cases op <;> first | rfl | exact absurd rfl h

theorem nf_simplUn {o : Oracle V} {s : Expr V} (h : Nf o s) (op : UnOp) : Nf o (simplUn op s) := by
  by_cases hpos : op = .pos
  · subst hpos; simpa [simplUn] using h
  by_cases hnul : op = .nul
  · subst hnul
    cases s <;> simp [simplUn, app, cst, Nf, UnOp.eval, areInverses]
  cases s with
  | const n c =>
    cases hev : op.eval c with
    | none =>
      have e : simplUn op (const n c : Expr V) = un op (const n c) := by
        simp only [simplUn, if_neg hpos, hev, app_ne_nul hnul]
      rw [e]; exact ⟨trivial, e⟩
    | some r =>
      have e : simplUn op (const n c : Expr V) = cst r := by simp only [simplUn, if_neg hpos, hev]
      rw [e]; trivial
  | var v =>
    have e : simplUn op (var v : Expr V) = un op (var v) := by
      simp only [simplUn, if_neg hpos, app_ne_nul hnul]
    rw [e]; exact ⟨trivial, e⟩
  | un op' a =>
    by_cases hi : areInverses op op' = true
    · have e : simplUn op (un op' a) = a := by simp only [simplUn, if_neg hpos, if_pos hi]
      rw [e]; exact h.1
    · have e : simplUn op (un op' a) = un op (un op' a) := by
        simp only [simplUn, if_neg hpos, if_neg hi, app_ne_nul hnul]
      rw [e]; exact ⟨h, e⟩
  | bin op' a b =>
    have e : simplUn op (bin op' a b) = un op (bin op' a b) := by
      simp only [simplUn, if_neg hpos, app_ne_nul hnul]
    rw [e]; exact ⟨h, e⟩
  | pow a n =>
    have e : simplUn op (pow a n) = un op (pow a n) := by
      simp only [simplUn, if_neg hpos, app_ne_nul hnul]
    rw [e]; exact ⟨h, e⟩

theorem nf_sBin {o : Oracle V} {s t : Expr V} (hs : Nf o s) (ht : Nf o t) (op : BinOp) : Nf o (sBin o op s t) := by
  have hc : ∀ c : ℝ, Nf o (cst c) := fun c => trivial
  have hn := nf_simplUn ht .neg
  have hr := nf_simplUn ht .recip
  have key : sBin o op s t = bin op s t → Nf o (sBin o op s t) := fun e => by rw [e]; exact ⟨hs, ht, e⟩
  by_cases h : sBin o op s t = bin op s t
  · exact key h
  cases op with
  | add =>
    simp only [sBin] at h ⊢
    split_ifs <;> first | assumption | simp_all
  | sub =>
    simp only [sBin] at h ⊢
    split_ifs <;> first | assumption | exact hc _ | simp_all
  | mul =>
    simp only [sBin] at h ⊢
    split_ifs <;> first | assumption | simp_all
  | div =>
    simp only [sBin] at h ⊢
    split_ifs <;> first | assumption | exact hc _ | simp_all
  | max => exact absurd rfl h
  | min => exact absurd rfl h

theorem nf_sPow {o : Oracle V} {s : Expr V} (hs : Nf o s) (n : ℤ) : Nf o (sPow s n) := by
  have hr := nf_simplUn hs .recip
  have hq := nf_simplUn hs .sqr
  by_cases h : sPow s n = pow s n
  · rw [h]; exact ⟨hs, h⟩
  simp only [sPow] at h ⊢
  split_ifs <;> first | assumption | trivial | simp_all

theorem nf_sExpr (o : Oracle V) (e : Expr V) : Nf o (sExpr o e) := by
  induction e with
  | const n c => trivial
  | var v => trivial
  | un op a ih => exact nf_simplUn ih op
  | bin op a b iha ihb => exact nf_sBin iha ihb op
  | pow a n ih => exact nf_sPow ih n

theorem weight_pos (e : Expr V) : 1 ≤ weight e := by
  cases e <;> simp [weight]

theorem weight_simplUn (op : UnOp) (s : Expr V) : weight (simplUn op s) ≤ weight s + 1 := by
  by_cases hpos : op = .pos
  · subst hpos; simp [simplUn]
  have happ : ∀ a : Expr V, weight (app op a) ≤ weight a + 1 := by
    intro a
    cases op <;> simp [app, weight, cst]
  cases s with
  | const n c =>
    simp only [simplUn, if_neg hpos]
    cases op.eval c with
    | none => exact happ _
    | some r => simp [cst, weight]
  | var v => simp only [simplUn, if_neg hpos]; exact happ _
  | un op' a =>
    simp only [simplUn, if_neg hpos]
    by_cases hi : areInverses op op' = true
    · rw [if_pos hi]; simp only [weight]; omega
    · rw [if_neg hi]; exact happ _
  | bin op' a b => simp only [simplUn, if_neg hpos]; exact happ _
  | pow a n => simp only [simplUn, if_neg hpos]; exact happ _

theorem weight_sExpr (o : Oracle V) (e : Expr V) : weight (sExpr o e) ≤ weight e := by
  induction e with
  | const n c => exact le_rfl
  | var v => exact le_rfl
  | un op a ih =>
    have := weight_simplUn op (sExpr o a)
    simp only [sExpr, weight] at *; omega
  | bin op a b iha ihb =>
    have h1 := weight_simplUn .neg (sExpr o b)
    have h2 := weight_simplUn .recip (sExpr o b)
    have h3 := weight_pos a
    cases op <;> simp only [sExpr, sBin] <;> (try split_ifs) <;> simp only [weight, cst] <;> omega
  | pow a n ih =>
    have h1 := weight_simplUn .recip (sExpr o a)
    have h2 := weight_simplUn .sqr (sExpr o a)
    simp only [sExpr, sPow]
    split_ifs <;> simp only [weight, cst] <;> omega

/-- `simplifyF` with enough fuel is the structural simplification. -/
theorem simplifyF_eq (o : Oracle V) (n : ℕ) (e : Expr V) (h : weight e ≤ n) : simplifyF o n e = sExpr o e := by
  induction n generalizing e with
  | zero => have := weight_pos e; omega
  | succ k ih =>
    have hun : ∀ op, ∀ b : Expr V, weight b + 1 ≤ k → simplifyF o k (un op (sExpr o b)) = simplUn op (sExpr o b) := by
      intro op b hb
      rw [ih _ (by have := weight_sExpr o b; simp only [weight]; omega)]
      simp only [sExpr, sExpr_of_nf (nf_sExpr o b)]
    cases e with
    | const m c => rfl
    | var v => rfl
    | un op a =>
      simp only [weight] at h
      simp only [simplifyF, sExpr, ih a (by omega)]
    | bin op a b =>
      simp only [weight] at h
      have h3 := weight_pos a
      have h4 := weight_pos b
      simp only [simplifyF, sExpr, ih a (by omega), ih b (by omega), hun _ b (by omega)]
      cases op <;> rfl
    | pow a m =>
      simp only [weight] at h
      simp only [simplifyF, sExpr, ih a (by omega), hun _ a (by omega)]
      rfl

theorem simplify_eq (o : Oracle V) (e : Expr V) : simplify o e = sExpr o e := simplifyF_eq o _ e le_rfl

/-- C35: the recursion of `simplify` is well-founded: with any larger bound the result is the
same. -/
theorem C35_terminates (o : Oracle V) (e : Expr V) (n : ℕ) (h : weight e ≤ n) : simplifyF o n e = simplify o e := by
  rw [simplify_eq, simplifyF_eq o n e h]

/-- C35: simplification is idempotent. -/
theorem C35_idempotent (o : Oracle V) (e : Expr V) : simplify o (simplify o e) = simplify o e := by
  simp only [simplify_eq]
  exact sExpr_of_nf (nf_sExpr o e)

/-- Number of nodes. -/
def size : Expr V → ℕ
  | const _ _ => 1
  | var _ => 1
  | un _ a => size a + 1
  | bin _ a b => size a + size b + 1
  | pow a _ => size a + 1

theorem size_simplUn (op : UnOp) (s : Expr V) : size (simplUn op s) ≤ size s + 1 := by
  by_cases hpos : op = .pos
  · subst hpos; simp [simplUn]
  have happ : ∀ a : Expr V, size (app op a) ≤ size a + 1 := by
    intro a
    cases op <;> simp [app, size, cst]
  cases s with
  | const n c =>
    simp only [simplUn, if_neg hpos]
    cases op.eval c with
    | none => exact happ _
    | some r => simp [cst, size]
  | var v => simp only [simplUn, if_neg hpos]; exact happ _
  | un op' a =>
    simp only [simplUn, if_neg hpos]
    by_cases hi : areInverses op op' = true
    · rw [if_pos hi]; simp only [size]; omega
    · rw [if_neg hi]; exact happ _
  | bin op' a b => simp only [simplUn, if_neg hpos]; exact happ _
  | pow a n => simp only [simplUn, if_neg hpos]; exact happ _

/-- C35: the simplified expression has no more nodes than the original. -/
theorem C35_size (o : Oracle V) (e : Expr V) : size (simplify o e) ≤ size e := by
  rw [simplify_eq]
  induction e with
  | const n c => exact le_rfl
  | var v => exact le_rfl
  | un op a ih =>
    have := size_simplUn op (sExpr o a)
    simp only [sExpr, size] at *; omega
  | bin op a b iha ihb =>
    have h1 := size_simplUn .neg (sExpr o b)
    have h2 := size_simplUn .recip (sExpr o b)
    have h3 : 1 ≤ size a := by cases a <;> simp [size]
    cases op <;> simp only [sExpr, sBin] <;> (try split_ifs) <;> simp only [size, cst] <;> omega
  | pow a n ih =>
    have h1 := size_simplUn .recip (sExpr o a)
    have h2 := size_simplUn .sqr (sExpr o a)
    simp only [sExpr, sPow]
    split_ifs <;> simp only [size, cst] <;> omega

/-! ## Values -/

theorem isConst_sound {o : Oracle V} (ho : o.Sound) {e : Expr V} {c : ℝ} (h : isConst o e c = true) (x : V → ℝ) :
    e.eval x = some c := by
  cases e <;> simp only [isConst, Bool.false_eq_true] at h
  simp only [eval, ho.isEq _ _ h]

theorem identical_sound {o : Oracle V} (ho : o.Sound) {a b : Expr V} (h : identical o a b = true) : a = b := by
  induction a generalizing b with
  | const n c =>
    cases b <;> simp only [identical, Bool.false_eq_true, Bool.or_eq_true, Bool.and_eq_true, beq_iff_eq] at h
    rcases h with h | ⟨h, h'⟩
    · exact ho.ptrEq _ _ h
    · rw [h, ho.same _ _ h']
  | var v =>
    cases b <;> simp only [identical, Bool.false_eq_true, beq_iff_eq] at h
    rw [h]
  | un op a ih =>
    cases b <;> simp only [identical, Bool.false_eq_true, Bool.or_eq_true, Bool.and_eq_true, beq_iff_eq] at h
    rcases h with h | ⟨h, h'⟩
    · exact ho.ptrEq _ _ h
    · rw [h, ih h']
  | bin op a1 a2 iha ihb =>
    cases b <;> simp only [identical, Bool.false_eq_true, Bool.or_eq_true, Bool.and_eq_true, beq_iff_eq] at h
    rcases h with h | ⟨⟨h, h'⟩, h''⟩
    · exact ho.ptrEq _ _ h
    · rw [h, iha h', ihb h'']
  | pow a n ih =>
    cases b <;> simp only [identical, Bool.false_eq_true, Bool.or_eq_true, Bool.and_eq_true, beq_iff_eq] at h
    rcases h with h | ⟨h, h'⟩
    · exact ho.ptrEq _ _ h
    · rw [ih h, h']

/-- spec: `sqrt` of a square and `atan` of a tangent only cancel for some values -/
def Cancels (x : V → ℝ) (op : UnOp) (s : Expr V) : Prop :=
  ∀ b p, b.eval x = some p → (op = .sqrt → s = un .sqr b → 0 ≤ p) ∧
    (op = .atan → s = un .tan b → -(Real.pi / 2) < p ∧ p < Real.pi / 2)

theorem app_eval {op : UnOp} {a : Expr V} {x : V → ℝ} {r : ℝ} (h : (un op a).eval x = some r) :
    (app op a).eval x = some r := by
  by_cases hn : op = .nul
  · subst hn
    obtain ⟨p, -, h⟩ := bind_eq h
    simpa [app, cst, eval, UnOp.eval] using h
  · rw [app_ne_nul hn]; exact h

theorem simplUn_eval {op : UnOp} {s : Expr V} {x : V → ℝ} {r : ℝ} (h : (un op s).eval x = some r)
    (hc : Cancels x op s) : (simplUn op s).eval x = some r := by
  by_cases hpos : op = .pos
  · subst hpos
    simp only [simplUn, if_pos]
    obtain ⟨p, hp, h⟩ := bind_eq h
    simp only [UnOp.eval] at h
    rw [hp, h]
  cases s with
  | const n c =>
    simp only [simplUn, if_neg hpos]
    simp only [eval, Option.bind_some] at h
    rw [h]
    rfl
  | var v => simp only [simplUn, if_neg hpos]; exact app_eval h
  | un op' a =>
    by_cases hi : areInverses op op' = true
    · simp only [simplUn, if_neg hpos, if_pos hi]
      obtain ⟨q, hq, h⟩ := bind_eq h
      obtain ⟨p, hp, hq⟩ := bind_eq hq
      rw [hp, ← h]
      have hc := hc a p hp
      cases op <;> cases op' <;> simp only [areInverses, Bool.false_eq_true] at hi <;>
        simp only [UnOp.eval, Option.some.injEq] at hq ⊢
      case pos.pos => rw [hq]
      case neg.neg => rw [← hq]; simp
      case sqr.sqrt =>
        by_cases hp0 : p < 0
        · simp [hp0] at hq
        · simp only [if_neg hp0, Option.some.injEq] at hq
          rw [← hq, Real.mul_self_sqrt (not_lt.1 hp0)]
      case recip.recip =>
        by_cases hp0 : p = 0
        · simp [hp0] at hq
        · simp only [if_neg hp0, Option.some.injEq] at hq
          rw [← hq]; simp [hp0]
      case sqrt.sqr =>
        rw [← hq, if_neg (not_lt.2 (mul_self_nonneg p)), Real.sqrt_mul_self (hc.1 rfl rfl)]
      case exp.log =>
        by_cases hp0 : p ≤ 0
        · simp [hp0] at hq
        · simp only [if_neg hp0, Option.some.injEq] at hq
          rw [← hq, Real.exp_log (not_le.1 hp0)]
      case log.exp =>
        rw [← hq, if_neg (not_le.2 (Real.exp_pos p)), Real.log_exp]
      case tan.atan =>
        rw [← hq, if_neg (Real.cos_arctan_pos p).ne', Real.tan_arctan]
      case atan.tan =>
        by_cases hp0 : Real.cos p = 0
        · simp [hp0] at hq
        · simp only [if_neg hp0, Option.some.injEq] at hq
          rw [← hq, Real.arctan_tan (hc.2 rfl rfl).1 (hc.2 rfl rfl).2]
    · simp only [simplUn, if_neg hpos, if_neg hi]; exact app_eval h
  | bin op' a b => simp only [simplUn, if_neg hpos]; exact app_eval h
  | pow a n => simp only [simplUn, if_neg hpos]; exact app_eval h

theorem cancels_other {op : UnOp} (h1 : op ≠ .sqrt) (h2 : op ≠ .atan) (x : V → ℝ) (s : Expr V) : Cancels x op s :=
  fun _ _ _ => ⟨fun h => absurd h h1, fun h => absurd h h2⟩

/-- spec: wherever `sqrt` is applied to an expression which simplifies to the square of `b`,
the value of `b` is not negative, and wherever `atan` is applied to an expression which
simplifies to the tangent of `b`, the value of `b` is between `-π/2` and `π/2`. -/
def Principal (o : Oracle V) (x : V → ℝ) : Expr V → Prop
  | const _ _ => True
  | var _ => True
  | un op a => Cancels x op (simplify o a) ∧ Principal o x a
  | bin _ a b => Principal o x a ∧ Principal o x b
  | pow a _ => Principal o x a

/-- C35: the value of the simplified expression is that of the expression, wherever this is
defined, provided that the roots and arctangents are principal.  The proviso cannot be
dropped (`C35_sqrt_counterexample`, `C35_atan_counterexample`). -/
theorem C35_simplify_partial {o : Oracle V} (ho : o.Sound) {e : Expr V} {x : V → ℝ} {r : ℝ} (hg : Principal o x e)
    (h : e.eval x = some r) : (simplify o e).eval x = some r := by
  rw [simplify_eq]
  induction e generalizing r with
  | const n c => exact h
  | var v => exact h
  | un op a ih =>
    obtain ⟨p, hp, h⟩ := bind_eq h
    refine simplUn_eval ?_ (by rw [← simplify_eq]; exact hg.1)
    simp only [eval, ih hg.2 hp, Option.bind_some, h]
  | bin op a b iha ihb =>
    obtain ⟨p, hp, h⟩ := bind_eq h
    obtain ⟨q, hq, h⟩ := bind_eq h
    have ha := iha hg.1 hp
    have hb := ihb hg.2 hq
    have hbin : ∀ op, BinOp.eval op p q = some r → (bin op (sExpr o a) (sExpr o b)).eval x = some r := by
      intro op h
      simp only [eval, ha, hb, Option.bind_some, h]
    have hc : ∀ {u : Expr V} {w : ℝ} {c : ℝ}, u.eval x = some w → isConst o u c = true → w = c := by
      intro u w c hu hcu
      exact some_inj hu (isConst_sound ho hcu x)
    cases op with
    | add =>
      have hr : p + q = r := by simpa [BinOp.eval] using h
      simp only [sExpr, sBin]
      by_cases h1 : isConst o (sExpr o a) 0 = true
      · rw [if_pos h1, hb, ← hr, hc ha h1, zero_add]
      rw [if_neg h1]
      by_cases h2 : isConst o (sExpr o b) 0 = true
      · rw [if_pos h2, ha, ← hr, hc hb h2, add_zero]
      rw [if_neg h2]
      exact hbin _ h
    | sub =>
      have hr : p - q = r := by simpa [BinOp.eval] using h
      simp only [sExpr, sBin]
      by_cases h1 : isConst o (sExpr o a) 0 = true
      · rw [if_pos h1]
        refine simplUn_eval ?_ (cancels_other (by simp) (by simp) x _)
        simp only [eval, hb, Option.bind_some, UnOp.eval, ← hr, hc ha h1, zero_sub]
      rw [if_neg h1]
      by_cases h2 : isConst o (sExpr o b) 0 = true
      · rw [if_pos h2, ha, ← hr, hc hb h2, sub_zero]
      rw [if_neg h2]
      by_cases h3 : identical o (sExpr o a) (sExpr o b) = true
      · have := identical_sound ho h3
        rw [← this] at hb
        have := some_inj ha hb
        rw [if_pos h3]
        simp only [cst, eval, ← hr, this, sub_self]
      rw [if_neg h3]
      exact hbin _ h
    | mul =>
      have hr : p * q = r := by simpa [BinOp.eval] using h
      simp only [sExpr, sBin]
      by_cases h1 : (isConst o (sExpr o a) 0 || isConst o (sExpr o b) 1) = true
      · rw [if_pos h1, ha, ← hr]
        rcases Bool.or_eq_true _ _ ▸ h1 with h1 | h1
        · rw [hc ha h1, zero_mul]
        · rw [hc hb h1, mul_one]
      rw [if_neg h1]
      by_cases h2 : (isConst o (sExpr o b) 0 || isConst o (sExpr o a) 1) = true
      · rw [if_pos h2, hb, ← hr]
        rcases Bool.or_eq_true _ _ ▸ h2 with h2 | h2
        · rw [hc hb h2, mul_zero]
        · rw [hc ha h2, one_mul]
      rw [if_neg h2]
      exact hbin _ h
    | div =>
      have hq0 : q ≠ 0 := by
        rintro rfl
        simp [BinOp.eval] at h
      have hr : p / q = r := by simpa [BinOp.eval, hq0] using h
      simp only [sExpr, sBin]
      by_cases h1 : (isConst o (sExpr o a) 0 || isConst o (sExpr o b) 1) = true
      · rw [if_pos h1, ha, ← hr]
        rcases Bool.or_eq_true _ _ ▸ h1 with h1 | h1
        · rw [hc ha h1, zero_div]
        · rw [hc hb h1, div_one]
      rw [if_neg h1]
      by_cases h2 : isConst o (sExpr o a) 1 = true
      · rw [if_pos h2]
        refine simplUn_eval ?_ (cancels_other (by simp) (by simp) x _)
        simp only [eval, hb, Option.bind_some, UnOp.eval, if_neg hq0, ← hr, hc ha h2, one_div]
      rw [if_neg h2]
      by_cases h3 : identical o (sExpr o a) (sExpr o b) = true
      · have := identical_sound ho h3
        rw [← this] at hb
        have := some_inj ha hb
        rw [if_pos h3]
        simp only [cst, eval, ← hr, this, div_self hq0]
      rw [if_neg h3]
      exact hbin _ h
    | max => exact hbin _ h
    | min => exact hbin _ h
  | pow a n ih =>
    obtain ⟨p, hp, h⟩ := bind_eq h
    have ha := ih hg hp
    simp only [sExpr, sPow]
    simp only [powEval] at h
    by_cases hn : p = 0 ∧ n < 0
    · rw [if_pos hn] at h; simp at h
    rw [if_neg hn] at h
    have hr : p ^ n = r := by simpa using h
    by_cases h1 : n = -1
    · rw [if_pos h1]
      have hp0 : p ≠ 0 := fun h0 => hn ⟨h0, by omega⟩
      refine simplUn_eval ?_ (cancels_other (by simp) (by simp) x _)
      simp only [eval, ha, Option.bind_some, UnOp.eval, if_neg hp0, ← hr, h1, zpow_neg_one]
    rw [if_neg h1]
    by_cases h2 : n = 0
    · rw [if_pos h2, ← hr, h2, zpow_zero]; rfl
    rw [if_neg h2]
    by_cases h3 : n = 1
    · rw [if_pos h3, ha, ← hr, h3, zpow_one]
    rw [if_neg h3]
    by_cases h4 : n = 2
    · rw [if_pos h4]
      refine simplUn_eval ?_ (cancels_other (by simp) (by simp) x _)
      simp only [eval, ha, Option.bind_some, UnOp.eval, ← hr, h4]
      congr 1
      rw [show (2:ℤ) = ((2:ℕ):ℤ) from rfl, zpow_natCast, sq]
    rw [if_neg h4]
    simp only [eval, ha, Option.bind_some, powEval, if_neg hn, hr]

/-- spec: neither `sqrt` nor `atan` occurs. -/
def NoRoot : Expr V → Prop
  | const _ _ => True
  | var _ => True
  | un op a => op ≠ .sqrt ∧ op ≠ .atan ∧ NoRoot a
  | bin _ a b => NoRoot a ∧ NoRoot b
  | pow a _ => NoRoot a

theorem NoRoot.principal {o : Oracle V} {x : V → ℝ} {e : Expr V} (h : NoRoot e) : Principal o x e := by
  induction e with
  | const n c => trivial
  | var v => trivial
  | un op a ih => exact ⟨cancels_other h.1 h.2.1 x _, ih h.2.2⟩
  | bin op a b iha ihb => exact ⟨iha h.1, ihb h.2⟩
  | pow a n ih => exact ih h

/-- C35: simplification preserves the value of every expression without `sqrt` and `atan`. -/
theorem C35_simplify {o : Oracle V} (ho : o.Sound) {e : Expr V} {x : V → ℝ} {r : ℝ} (hg : NoRoot e)
    (h : e.eval x = some r) : (simplify o e).eval x = some r :=
  C35_simplify_partial ho hg.principal h

/-- C35: simplification introduces no variables. -/
theorem C35_arguments (o : Oracle V) (e : Expr V) : (simplify o e).arguments ⊆ e.arguments := by
  rw [simplify_eq]
  have hun : ∀ op, ∀ s : Expr V, (simplUn op s).arguments ⊆ s.arguments := by
    intro op s
    have happ : ∀ a : Expr V, (app op a).arguments ⊆ a.arguments := by
      intro a; cases op <;> simp [app, arguments, cst]
    by_cases hpos : op = .pos
    · subst hpos; simp [simplUn]
    cases s with
    | const n c =>
      simp only [simplUn, if_neg hpos]
      cases op.eval c with
      | none => exact happ _
      | some r => simp [cst, arguments]
    | var v => simp only [simplUn, if_neg hpos]; exact happ _
    | un op' a =>
      simp only [simplUn, if_neg hpos]
      by_cases hi : areInverses op op' = true
      · rw [if_pos hi]; simp [arguments]
      · rw [if_neg hi]; exact happ _
    | bin op' a b => simp only [simplUn, if_neg hpos]; exact happ _
    | pow a n => simp only [simplUn, if_neg hpos]; exact happ _
  have hcst : ∀ c : ℝ, (cst c : Expr V).arguments = ∅ := fun c => rfl
  induction e with
  | const n c => exact Finset.Subset.refl _
  | var v => exact Finset.Subset.refl _
  | un op a ih => exact (hun op _).trans ih
  | bin op a b iha ihb =>
    have h1 := (hun .neg (sExpr o b)).trans ihb
    have h2 := (hun .recip (sExpr o b)).trans ihb
    have ha := iha.trans (Finset.subset_union_left (s₂ := b.arguments))
    have hb := ihb.trans (Finset.subset_union_right (s₁ := a.arguments))
    have h1 := h1.trans (Finset.subset_union_right (s₁ := a.arguments))
    have h2 := h2.trans (Finset.subset_union_right (s₁ := a.arguments))
    have hb2 : ∀ op, (bin op (sExpr o a) (sExpr o b)).arguments ⊆ a.arguments ∪ b.arguments :=
      fun op => Finset.union_subset_union iha ihb
    have h0 : ∀ c : ℝ, (cst c : Expr V).arguments ⊆ a.arguments ∪ b.arguments := fun c => by rw [hcst]; simp
    cases op <;> simp only [sExpr, sBin, arguments] <;> (try split_ifs) <;>
      first | assumption | exact hb2 .add | exact h0 _
  | pow a n ih =>
    have h1 := (hun .recip (sExpr o a)).trans ih
    have h2 := (hun .sqr (sExpr o a)).trans ih
    have h0 : ∀ c : ℝ, (cst c : Expr V).arguments ⊆ a.arguments := fun c => by rw [hcst]; simp
    simp only [sExpr, sPow, arguments]
    split_ifs <;> first | assumption | exact h0 _

/-- An oracle which decides nothing. -/
def noOracle : Oracle V := ⟨fun _ _ => false, fun _ _ => false, fun _ _ => false⟩
/-- An oracle which decides everything. -/
def exactOracle : Oracle V := ⟨fun a b => decide (a = b), fun a b => decide (a = b), fun a b => decide (a = b)⟩

theorem exactOracle_sound : (exactOracle (V := V)).Sound := ⟨by simp [exactOracle], by simp [exactOracle], by simp [exactOracle]⟩
theorem noOracle_sound : (noOracle (V := V)).Sound := ⟨by simp [noOracle], by simp [noOracle], by simp [noOracle]⟩

/-- C35: `sqrt(sqr(x))` is simplified to `x`, which has another value for negative `x`. -/
theorem C35_sqrt_counterexample (o : Oracle ℕ) :
    let e : Expr ℕ := un .sqrt (un .sqr (var 0))
    simplify o e = var 0 ∧ e.eval (fun _ => -1) = some 1 ∧ (simplify o e).eval (fun _ => -1) = some (-1) := by
  intro e
  have : simplify o e = var 0 := by
    rw [simplify_eq]
    simp [e, sExpr, simplUn, app, areInverses]
  refine ⟨this, ?_, by rw [this]; rfl⟩
  simp [e, eval, UnOp.eval]

/-- C35: `atan(tan(x))` is simplified to `x`, which has another value for `x=π`. -/
theorem C35_atan_counterexample (o : Oracle ℕ) :
    let e : Expr ℕ := un .atan (un .tan (var 0))
    simplify o e = var 0 ∧ e.eval (fun _ => Real.pi) = some 0 ∧
      (simplify o e).eval (fun _ => Real.pi) = some Real.pi := by
  intro e
  have : simplify o e = var 0 := by
    rw [simplify_eq]
    simp [e, sExpr, simplUn, app, areInverses]
  refine ⟨this, ?_, by rw [this]; rfl⟩
  simp [e, eval, UnOp.eval]

/-- Non-vacuity: the norm of a vector satisfies the proviso, and `0*x+y` is simplified. -/
example (x : ℕ → ℝ) : Principal noOracle x
    (un .sqrt (bin .add (un .sqr (var 0)) (un .sqr (var 1))) : Expr ℕ) := by
  refine ⟨fun b p hb => ⟨fun _ h => ?_, fun h => by cases h⟩, ⟨cancels_other (by simp) (by simp) _ _, trivial⟩,
    cancels_other (by simp) (by simp) _ _, trivial⟩
  rw [simplify_eq] at h
  simp [sExpr, sBin, isConst, simplUn, app] at h

example : simplify exactOracle (bin .add (bin .mul (cst 0) (var 0)) (var 1) : Expr ℕ) = var 1 := by
  rw [simplify_eq]
  simp [sExpr, sBin, isConst, exactOracle, cst]

end Ariadne.Symbolic
