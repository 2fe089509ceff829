import Verif.Printing.Model
import Mathlib.Tactic.Ring

/-!
# C103: a printed expression reads as an expression with the same value

The specification is the usual grammar of arithmetic, with operators of equal precedence read from the left.
-/

namespace Verif.Printing

open Ariadne.Symbolic

variable {V : Type*}

/-! ### The grammar -/

/-- spec: what a name denotes -/
inductive Fn
  | un (op : UnOp) | bin (op : BinOp) | pow

/-- spec: the names of the operations -/
def meaning : String → Option Fn
  | "pos" => some (.un .pos) | "neg" => some (.un .neg) | "sqr" => some (.un .sqr) | "hlf" => some (.un .hlf)
  | "rec" => some (.un .recip) | "sqrt" => some (.un .sqrt) | "exp" => some (.un .exp) | "log" => some (.un .log)
  | "sin" => some (.un .sin) | "cos" => some (.un .cos) | "tan" => some (.un .tan) | "asin" => some (.un .asin)
  | "acos" => some (.un .acos) | "atan" => some (.un .atan) | "abs" => some (.un .abs)
  | "add" => some (.bin .add) | "sub" => some (.bin .sub) | "mul" => some (.bin .mul) | "div" => some (.bin .div)
  | "max" => some (.bin .max) | "min" => some (.bin .min) | "pow" => some .pow
  | _ => none

/-- spec: the parts of an expression; the rest of a sum or of a product has what was read before. -/
inductive Part (V : Type*)
  | factor
  | term
  | termRest (a : Expr V)
  | expr
  | exprRest (a : Expr V)

/-- spec: the next token is not `*` or `/`. -/
def NoTimes : List (Tok V) → Prop
  | .times :: _ => False
  | .divides :: _ => False
  | _ => True

/-- spec: the next token is not `+` or `-`. -/
def NoPlus : List (Tok V) → Prop
  | .plus :: _ => False
  | .minus :: _ => False
  | _ => True

/-- spec: `Reads p ts e r`: the longest part of kind `p` at the start of the tokens `ts` reads as the expression `e`, and the tokens
`r` remain. -/
inductive Reads : Part V → List (Tok V) → Expr V → List (Tok V) → Prop
  | num {c r} : Reads .factor (.num c :: r) (.cst c) r
  | named {n : V} {c r} : Reads .factor (.named n c :: r) (.const n c) r
  | var {v r} : Reads .factor (.var v :: r) (.var v) r
  | paren {ts a r} : Reads .expr ts a (.rp :: r) → Reads .factor (.lp :: ts) a r
  | plus {ts a r} : Reads .factor ts a r → Reads .factor (.plus :: ts) (.un .pos a) r
  | minus {ts a r} : Reads .factor ts a r → Reads .factor (.minus :: ts) (.un .neg a) r
  | un {s op ts a r} : meaning s = some (.un op) → Reads .expr ts a (.rp :: r) →
      Reads .factor (.ident s :: .lp :: ts) (.un op a) r
  | bin {s op ts a us b r} : meaning s = some (.bin op) → Reads .expr ts a (.comma :: us) → Reads .expr us b (.rp :: r) →
      Reads .factor (.ident s :: .lp :: ts) (.bin op a b) r
  | pow {s ts a n r} : meaning s = some .pow → Reads .expr ts a (.comma :: .int n :: .rp :: r) →
      Reads .factor (.ident s :: .lp :: ts) (.pow a n) r
  | term {ts a us b r} : Reads .factor ts a us → Reads (.termRest a) us b r → Reads .term ts b r
  | times {a ts b us c r} : Reads .factor ts b us → Reads (.termRest (.bin .mul a b)) us c r →
      Reads (.termRest a) (.times :: ts) c r
  | divides {a ts b us c r} : Reads .factor ts b us → Reads (.termRest (.bin .div a b)) us c r →
      Reads (.termRest a) (.divides :: ts) c r
  | termEnd {a r} : NoTimes r → Reads (.termRest a) r a r
  | expr {ts a us b r} : Reads .term ts a us → Reads (.exprRest a) us b r → Reads .expr ts b r
  | add {a ts b us c r} : Reads .term ts b us → Reads (.exprRest (.bin .add a b)) us c r →
      Reads (.exprRest a) (.plus :: ts) c r
  | sub {a ts b us c r} : Reads .term ts b us → Reads (.exprRest (.bin .sub a b)) us c r →
      Reads (.exprRest a) (.minus :: ts) c r
  | exprEnd {a r} : NoPlus r → Reads (.exprRest a) r a r

/-- The grammar is unambiguous: a list of tokens reads as at most one expression. -/
theorem C103_unambiguous {p : Part V} {ts : List (Tok V)} {a b : Expr V} {r s : List (Tok V)} (ha : Reads p ts a r)
    (hb : Reads p ts b s) : a = b ∧ r = s := by
  induction ha generalizing b s with
  | num => cases hb; exact ⟨rfl, rfl⟩
  | named => cases hb; exact ⟨rfl, rfl⟩
  | var => cases hb; exact ⟨rfl, rfl⟩
  | paren _ ih =>
    cases hb with
    | paren h =>
      obtain ⟨h1, h2⟩ := ih h
      exact ⟨h1, (List.cons.inj h2).2⟩
  | plus _ ih =>
    cases hb with
    | plus h =>
      obtain ⟨h1, h2⟩ := ih h
      exact ⟨by rw [h1], h2⟩
  | minus _ ih =>
    cases hb with
    | minus h =>
      obtain ⟨h1, h2⟩ := ih h
      exact ⟨by rw [h1], h2⟩
  | un hm _ ih =>
    cases hb with
    | un hm' h =>
      rw [hm] at hm'
      cases hm'
      obtain ⟨h1, h2⟩ := ih h
      exact ⟨by rw [h1], (List.cons.inj h2).2⟩
    | bin hm' => rw [hm] at hm'; cases hm'
    | pow hm' => rw [hm] at hm'; cases hm'
  | bin hm _ _ ih1 ih2 =>
    cases hb with
    | un hm' h => rw [hm] at hm'; cases hm'
    | bin hm' h h' =>
      rw [hm] at hm'
      cases hm'
      obtain ⟨h1, h2⟩ := ih1 h
      obtain rfl := (List.cons.inj h2).2
      obtain ⟨h3, h4⟩ := ih2 h'
      exact ⟨by rw [h1, h3], (List.cons.inj h4).2⟩
    | pow hm' => rw [hm] at hm'; cases hm'
  | pow hm _ ih =>
    cases hb with
    | un hm' h => rw [hm] at hm'; cases hm'
    | bin hm' => rw [hm] at hm'; cases hm'
    | pow hm' h =>
      obtain ⟨h1, h2⟩ := ih h
      simp only [List.cons.injEq, Tok.int.injEq, true_and] at h2
      exact ⟨by rw [h1, h2.1], h2.2⟩
  | term _ _ ih1 ih2 =>
    cases hb with
    | term h h' =>
      obtain ⟨rfl, rfl⟩ := ih1 h
      exact ih2 h'
  | times _ _ ih1 ih2 =>
    cases hb with
    | times h h' =>
      obtain ⟨rfl, rfl⟩ := ih1 h
      exact ih2 h'
    | termEnd h => exact h.elim
  | divides _ _ ih1 ih2 =>
    cases hb with
    | divides h h' =>
      obtain ⟨rfl, rfl⟩ := ih1 h
      exact ih2 h'
    | termEnd h => exact h.elim
  | termEnd hn =>
    cases hb with
    | times => exact hn.elim
    | divides => exact hn.elim
    | termEnd => exact ⟨rfl, rfl⟩
  | expr _ _ ih1 ih2 =>
    cases hb with
    | expr h h' =>
      obtain ⟨rfl, rfl⟩ := ih1 h
      exact ih2 h'
  | add _ _ ih1 ih2 =>
    cases hb with
    | add h h' =>
      obtain ⟨rfl, rfl⟩ := ih1 h
      exact ih2 h'
    | exprEnd h => exact h.elim
  | sub _ _ ih1 ih2 =>
    cases hb with
    | sub h h' =>
      obtain ⟨rfl, rfl⟩ := ih1 h
      exact ih2 h'
    | exprEnd h => exact h.elim
  | exprEnd hn =>
    cases hb with
    | add => exact hn.elim
    | sub => exact hn.elim
    | exprEnd => exact ⟨rfl, rfl⟩

/-! ### Names -/

theorem meaning_un {op : UnOp} (h : op ≠ .nul) : meaning (unName op) = some (.un op) := by
  cases op <;> first | exact absurd rfl h | rfl

theorem meaning_bin (op : BinOp) : meaning (binName op) = some (.bin op) := by cases op <;> rfl

/-- spec: without the operator `nul`, which the constructors of expressions replace by zero -/
def NoNul : Expr V → Prop
  | .const _ _ => True
  | .var _ => True
  | .un op a => op ≠ .nul ∧ NoNul a
  | .bin _ a b => NoNul a ∧ NoNul b
  | .pow a _ => NoNul a

open Classical in
/-- spec: the expression with negative numbers replaced by negated positive ones -/
noncomputable def signed : Expr V → Expr V
  | .const ⊥ c => if c < 0 then .un .neg (.cst (-c)) else .cst c
  | .const (n : V) c => .const n c
  | .var v => .var v
  | .un op a => .un op (signed a)
  | .bin op a b => .bin op (signed a) (signed b)
  | .pow a n => .pow (signed a) n

theorem Reads.ofFactor {ts : List (Tok V)} {a : Expr V} {r : List (Tok V)} (h : Reads .factor ts a r) (h1 : NoTimes r) (h2 : NoPlus r) :
    Reads .expr ts a r := .expr (.term h (.termEnd h1)) (.exprEnd h2)

theorem reads_const (n : WithBot V) (c : ℝ) (r : List (Tok V)) : Reads .factor (printConst n c ++ r) (signed (.const n c)) r := by
  cases n with
  | bot =>
    by_cases h : c < 0
    · have h1 : printConst (V := V) ⊥ c = [.minus, .num (-c)] := if_pos h
      have h2 : signed (V := V) (.const ⊥ c) = .un .neg (.cst (-c)) := if_pos h
      rw [h1, h2]
      exact .minus .num
    · have h1 : printConst (V := V) ⊥ c = [.num c] := if_neg h
      have h2 : signed (V := V) (.const ⊥ c) = .cst c := if_neg h
      rw [h1, h2]
      exact .num
  | coe n => exact .named

theorem signed_eval (e : Expr V) (y : V → ℝ) : (signed e).eval y = e.eval y := by
  induction e with
  | const n c =>
    cases n with
    | bot =>
      by_cases h : c < 0
      · have h2 : signed (V := V) (.const ⊥ c) = .un .neg (.cst (-c)) := if_pos h
        rw [h2]
        simp [Expr.eval, Expr.cst, UnOp.eval]
      · have h2 : signed (V := V) (.const ⊥ c) = .cst c := if_neg h
        rw [h2]
        rfl
    | coe n => rfl
  | var v => rfl
  | un op a ih => simp only [signed, Expr.eval, ih]
  | bin op a b iha ihb => simp only [signed, Expr.eval, iha, ihb]
  | pow a n ih => simp only [signed, Expr.eval, ih]

/-- An expression printed with names reads as the same expression, with the sign of negative numbers as an operator; this has the
same values. -/
theorem C103_names (e : Expr V) (he : NoNul e) :
    Reads .expr (printNames e) (signed e) [] ∧ ∀ y, (signed e).eval y = e.eval y := by
  have h : ∀ r, Reads .factor (printNames e ++ r) (signed e) r := by
    induction e with
    | const n c => exact reads_const n c
    | var v => exact fun r => .var
    | un op a ih =>
      intro r
      have := ih he.2 (.rp :: r)
      have h1 : printNames (.un op a) ++ r = .ident (unName op) :: .lp :: (printNames a ++ .rp :: r) := by simp [printNames]
      rw [h1]
      exact .un (meaning_un he.1) (this.ofFactor trivial trivial)
    | bin op a b iha ihb =>
      intro r
      have h1 : printNames (.bin op a b) ++ r =
          .ident (binName op) :: .lp :: (printNames a ++ .comma :: (printNames b ++ .rp :: r)) := by simp [printNames]
      rw [h1]
      exact .bin (meaning_bin op) ((iha he.1 _).ofFactor trivial trivial) ((ihb he.2 _).ofFactor trivial trivial)
    | pow a n ih =>
      intro r
      have h1 : printNames (.pow a n) ++ r = .ident "pow" :: .lp :: (printNames a ++ .comma :: .int n :: .rp :: r) := by
        simp [printNames]
      rw [h1]
      exact .pow rfl ((ih he _).ofFactor trivial trivial)
  refine ⟨?_, signed_eval e⟩
  have := h []
  rw [List.append_nil] at this
  exact this.ofFactor trivial trivial

/-! ### Operators -/

/-- The expressions have the same values. -/
def Eqv (a b : Expr V) : Prop := ∀ y, a.eval y = b.eval y

theorem Eqv.bin {op : BinOp} {a a' b b' : Expr V} (ha : Eqv a a') (hb : Eqv b b') : Eqv (.bin op a b) (.bin op a' b') := by
  intro y
  simp only [Expr.eval, ha y, hb y]

theorem Eqv.un {op : UnOp} {a a' : Expr V} (ha : Eqv a a') : Eqv (.un op a) (.un op a') := by
  intro y
  simp only [Expr.eval, ha y]

theorem Eqv.refl (a : Expr V) : Eqv a a := fun _ => rfl

theorem Eqv.trans {a b c : Expr V} (h : Eqv a b) (h' : Eqv b c) : Eqv a c := fun y => (h y).trans (h' y)

theorem eqv_add_add (a b c : Expr V) : Eqv (.bin .add (.bin .add a b) c) (.bin .add a (.bin .add b c)) := by
  intro y
  simp only [Expr.eval, BinOp.eval]
  cases a.eval y <;> cases b.eval y <;> cases c.eval y <;> simp [add_assoc]

theorem eqv_add_sub (a b c : Expr V) : Eqv (.bin .sub (.bin .add a b) c) (.bin .add a (.bin .sub b c)) := by
  intro y
  simp only [Expr.eval, BinOp.eval]
  cases a.eval y <;> cases b.eval y <;> cases c.eval y <;> simp [add_sub_assoc]

theorem eqv_mul_mul (a b c : Expr V) : Eqv (.bin .mul (.bin .mul a b) c) (.bin .mul a (.bin .mul b c)) := by
  intro y
  simp only [Expr.eval, BinOp.eval]
  cases a.eval y <;> cases b.eval y <;> cases c.eval y <;> simp [mul_assoc]

theorem eqv_mul_div (a b c : Expr V) : Eqv (.bin .div (.bin .mul a b) c) (.bin .mul a (.bin .div b c)) := by
  intro y
  simp only [Expr.eval, BinOp.eval]
  cases a.eval y <;> cases b.eval y <;> cases hc : c.eval y <;> simp
  rename_i p q r
  by_cases h : r = 0 <;> simp [h, mul_div_assoc]

/-- spec: no operator `nul`, and no sign `+` before a sum, difference, product or quotient -/
def Printable : Expr V → Prop
  | .const _ _ => True
  | .var _ => True
  | .un .nul _ => False
  | .un .pos a => isASMD a = false ∧ Printable a
  | .un _ a => Printable a
  | .bin _ a b => Printable a ∧ Printable b
  | .pow a _ => Printable a

/-- How the output for an expression reads as a factor, as the start of a term, after `*`, as the start of a sum and after `+` -/
structure Good (e : Expr V) : Prop where
  factor : isASMD e = false → ∃ e', Eqv e' e ∧ ∀ r, Reads .factor (print e ++ r) e' r
  termFirst : isAS e = false → ∃ e', Eqv e' e ∧ ∀ r c s, Reads (.termRest e') r c s → Reads .term (print e ++ r) c s
  termMore : isAS e = false → ∀ a, ∃ e', Eqv e' (.bin .mul a e) ∧ ∀ r c s, Reads (.termRest e') r c s →
    Reads (.termRest a) (.times :: (print e ++ r)) c s
  exprFirst : ∃ e', Eqv e' e ∧ ∀ r c s, NoTimes r → Reads (.exprRest e') r c s → Reads .expr (print e ++ r) c s
  exprMore : ∀ a, ∃ e', Eqv e' (.bin .add a e) ∧ ∀ r c s, NoTimes r → Reads (.exprRest e') r c s →
    Reads (.exprRest a) (.plus :: (print e ++ r)) c s

theorem Good.ofTerm {e : Expr V} (hf : isASMD e = false → ∃ e', Eqv e' e ∧ ∀ r, Reads .factor (print e ++ r) e' r)
    (h1 : ∃ e', Eqv e' e ∧ ∀ r c s, Reads (.termRest e') r c s → Reads .term (print e ++ r) c s)
    (h2 : ∀ a, ∃ e', Eqv e' (.bin .mul a e) ∧ ∀ r c s, Reads (.termRest e') r c s →
      Reads (.termRest a) (.times :: (print e ++ r)) c s) : Good e := by
  refine ⟨hf, fun _ => h1, fun _ => h2, ?_, fun a => ?_⟩
  · obtain ⟨e', he, h⟩ := h1
    exact ⟨e', he, fun r c s hr hc => .expr (h r e' r (.termEnd hr)) hc⟩
  · obtain ⟨e', he, h⟩ := h1
    exact ⟨.bin .add a e', (Eqv.refl a).bin he, fun r c s hr hc => .add (h r e' r (.termEnd hr)) hc⟩

theorem Good.ofFactor {e : Expr V} (h : ∃ e', Eqv e' e ∧ ∀ r, Reads .factor (print e ++ r) e' r) : Good e := by
  obtain ⟨e', he, h⟩ := h
  exact .ofTerm (fun _ => ⟨e', he, h⟩) ⟨e', he, fun r c s hc => .term (h r) hc⟩
    fun a => ⟨.bin .mul a e', (Eqv.refl a).bin he, fun r c s hc => .times (h r) hc⟩

theorem Good.expr {e : Expr V} (g : Good e) : ∃ e', Eqv e' e ∧ ∀ r, NoTimes r → NoPlus r → Reads .expr (print e ++ r) e' r := by
  obtain ⟨e', he, h⟩ := g.exprFirst
  exact ⟨e', he, fun r h1 h2 => h r e' r h1 (.exprEnd h2)⟩

theorem Good.paren {e : Expr V} (g : Good e) : ∃ e', Eqv e' e ∧ ∀ r, Reads .factor (paren true (print e) ++ r) e' r := by
  obtain ⟨e', he, h⟩ := g.expr
  refine ⟨e', he, fun r => ?_⟩
  have : Verif.Printing.paren true (print e) ++ r = .lp :: (print e ++ .rp :: r) := by simp [Verif.Printing.paren]
  rw [this]
  exact .paren (h _ trivial trivial)

theorem Good.factorIn {e : Expr V} (g : Good e) {b : Bool} (hb : b = false → isASMD e = false) :
    ∃ e', Eqv e' e ∧ ∀ r, Reads .factor (Verif.Printing.paren b (print e) ++ r) e' r := by
  cases b with
  | true => exact g.paren
  | false => exact g.factor (hb rfl)

theorem Good.firstIn {e : Expr V} (g : Good e) {b : Bool} (hb : b = false → isAS e = false) :
    ∃ e', Eqv e' e ∧ ∀ r c s, Reads (.termRest e') r c s → Reads .term (Verif.Printing.paren b (print e) ++ r) c s := by
  cases b with
  | true =>
    obtain ⟨e', he, h⟩ := g.paren
    exact ⟨e', he, fun r c s hc => .term (h r) hc⟩
  | false => exact g.termFirst (hb rfl)

theorem Good.moreIn {e : Expr V} (g : Good e) {b : Bool} (hb : b = false → isAS e = false) (a : Expr V) :
    ∃ e', Eqv e' (.bin .mul a e) ∧ ∀ r c s, Reads (.termRest e') r c s →
      Reads (.termRest a) (.times :: (Verif.Printing.paren b (print e) ++ r)) c s := by
  cases b with
  | true =>
    obtain ⟨e', he, h⟩ := g.paren
    exact ⟨.bin .mul a e', (Eqv.refl a).bin he, fun r c s hc => .times (h r) hc⟩
  | false => exact g.termMore (hb rfl) a

theorem Good.termIn {e : Expr V} (g : Good e) {b : Bool} (hb : b = false → isAS e = false) :
    ∃ e', Eqv e' e ∧ ∀ r, NoTimes r → Reads .term (Verif.Printing.paren b (print e) ++ r) e' r := by
  obtain ⟨e', he, h⟩ := g.firstIn hb
  exact ⟨e', he, fun r hr => h r e' r (.termEnd hr)⟩

theorem good_add {a b : Expr V} (ga : Good a) (gb : Good b) : Good (.bin .add a b) := by
  have hp : ∀ r, print (.bin .add a b) ++ r = print a ++ .plus :: (print b ++ r) := fun r => by simp [print]
  refine ⟨fun h => by simp [isASMD] at h, fun h => by simp [isAS] at h, fun h => by simp [isAS] at h, ?_, fun d => ?_⟩
  · obtain ⟨a', ha, h1⟩ := ga.exprFirst
    obtain ⟨e', he, h2⟩ := gb.exprMore a'
    refine ⟨e', he.trans (ha.bin (Eqv.refl b)), fun r c s hr hc => ?_⟩
    rw [hp]
    exact h1 _ c s trivial (h2 r c s hr hc)
  · obtain ⟨a', ha, h1⟩ := ga.exprMore d
    obtain ⟨e', he, h2⟩ := gb.exprMore a'
    refine ⟨e', he.trans ((ha.bin (Eqv.refl b)).trans (eqv_add_add d a b)), fun r c s hr hc => ?_⟩
    rw [hp]
    exact h1 _ c s trivial (h2 r c s hr hc)

theorem good_sub {a b : Expr V} (ga : Good a) (gb : Good b) : Good (.bin .sub a b) := by
  have hp : ∀ r, print (.bin .sub a b) ++ r = print a ++ .minus :: (paren (isAS b) (print b) ++ r) := fun r => by simp [print]
  obtain ⟨b', hb, h2⟩ := gb.termIn (b := isAS b) id
  refine ⟨fun h => by simp [isASMD] at h, fun h => by simp [isAS] at h, fun h => by simp [isAS] at h, ?_, fun d => ?_⟩
  · obtain ⟨a', ha, h1⟩ := ga.exprFirst
    refine ⟨.bin .sub a' b', ha.bin hb, fun r c s hr hc => ?_⟩
    rw [hp]
    exact h1 _ c s trivial (.sub (h2 r hr) hc)
  · obtain ⟨a', ha, h1⟩ := ga.exprMore d
    refine ⟨.bin .sub a' b', (ha.bin hb).trans (eqv_add_sub d a b), fun r c s hr hc => ?_⟩
    rw [hp]
    exact h1 _ c s trivial (.sub (h2 r hr) hc)

theorem isAS_of_isASD {e : Expr V} (h : isASD e = false) : isAS e = false := by
  unfold isAS
  split <;> first | rfl | (simp [isASD] at h)

theorem good_mul {a b : Expr V} (ga : Good a) (gb : Good b) : Good (.bin .mul a b) := by
  have hp : ∀ r, print (.bin .mul a b) ++ r = paren (isASD a) (print a) ++ .times :: (paren (isAS b) (print b) ++ r) :=
    fun r => by simp [print]
  refine .ofTerm (fun h => by simp [isASMD] at h) ?_ fun d => ?_
  · obtain ⟨a', ha, h1⟩ := ga.firstIn (b := isASD a) isAS_of_isASD
    obtain ⟨e', he, h2⟩ := gb.moreIn (b := isAS b) id a'
    refine ⟨e', he.trans (ha.bin (Eqv.refl b)), fun r c s hc => ?_⟩
    rw [hp]
    exact h1 _ c s (h2 r c s hc)
  · obtain ⟨a', ha, h1⟩ := ga.moreIn (b := isASD a) isAS_of_isASD d
    obtain ⟨e', he, h2⟩ := gb.moreIn (b := isAS b) id a'
    refine ⟨e', he.trans ((ha.bin (Eqv.refl b)).trans (eqv_mul_mul d a b)), fun r c s hc => ?_⟩
    rw [hp]
    exact h1 _ c s (h2 r c s hc)

theorem good_div {a b : Expr V} (ga : Good a) (gb : Good b) : Good (.bin .div a b) := by
  have hp : ∀ r, print (.bin .div a b) ++ r = paren (isAS a) (print a) ++ .divides :: (paren (isASMD b) (print b) ++ r) :=
    fun r => by simp [print]
  obtain ⟨b', hb, h2⟩ := gb.factorIn (b := isASMD b) id
  refine .ofTerm (fun h => by simp [isASMD] at h) ?_ fun d => ?_
  · obtain ⟨a', ha, h1⟩ := ga.firstIn (b := isAS a) id
    refine ⟨.bin .div a' b', ha.bin hb, fun r c s hc => ?_⟩
    rw [hp]
    exact h1 _ c s (.divides (h2 r) hc)
  · obtain ⟨a', ha, h1⟩ := ga.moreIn (b := isAS a) id d
    refine ⟨.bin .div a' b', (ha.bin hb).trans (eqv_mul_div d a b), fun r c s hc => ?_⟩
    rw [hp]
    exact h1 _ c s (.divides (h2 r) hc)

theorem good_call2 {a b : Expr V} {op : BinOp} {s : String} (hs : meaning s = some (.bin op))
    (hp : print (.bin op a b) = .ident s :: .lp :: print a ++ .comma :: print b ++ [.rp]) (ga : Good a) (gb : Good b) :
    Good (.bin op a b) := by
  obtain ⟨a', ha, h1⟩ := ga.expr
  obtain ⟨b', hb, h2⟩ := gb.expr
  refine .ofFactor ⟨.bin op a' b', ha.bin hb, fun r => ?_⟩
  have : print (.bin op a b) ++ r = .ident s :: .lp :: (print a ++ .comma :: (print b ++ .rp :: r)) := by simp [hp]
  rw [this]
  exact .bin hs (h1 _ trivial trivial) (h2 _ trivial trivial)

theorem good_call1 {a : Expr V} {op : UnOp} (hn : op ≠ .nul)
    (hp : print (.un op a) = .ident (unName op) :: .lp :: print a ++ [.rp]) (ga : Good a) : Good (.un op a) := by
  obtain ⟨a', ha, h1⟩ := ga.expr
  refine .ofFactor ⟨.un op a', ha.un, fun r => ?_⟩
  have : print (.un op a) ++ r = .ident (unName op) :: .lp :: (print a ++ .rp :: r) := by simp [hp]
  rw [this]
  exact .un (meaning_un hn) (h1 _ trivial trivial)

theorem isASMD_of_isCV {e : Expr V} (h : (!isCV e) = false) : isASMD e = false := by
  cases e <;> first | rfl | (simp [isCV] at h)

theorem good {e : Expr V} (he : Printable e) : Good e := by
  induction e with
  | const n c => exact .ofFactor ⟨_, signed_eval _, reads_const n c⟩
  | var v => exact .ofFactor ⟨_, Eqv.refl _, fun r => .var⟩
  | bin op a b iha ihb =>
    have ga := iha he.1
    have gb := ihb he.2
    cases op with
    | add => exact good_add ga gb
    | sub => exact good_sub ga gb
    | mul => exact good_mul ga gb
    | div => exact good_div ga gb
    | max => exact good_call2 rfl (by rw [print]) ga gb
    | min => exact good_call2 rfl (by rw [print]) ga gb
  | pow a n ih =>
    obtain ⟨a', ha, h1⟩ := (ih he).expr
    refine .ofFactor ⟨.pow a' n, fun y => by simp only [Expr.eval, ha y], fun r => ?_⟩
    have : print (.pow a n) ++ r = .ident "pow" :: .lp :: (print a ++ .comma :: .int n :: .rp :: r) := by simp [print]
    rw [this]
    exact .pow rfl (h1 _ trivial trivial)
  | un op a ih =>
    cases op with
    | nul => exact he.elim
    | pos =>
      obtain ⟨a', ha, h1⟩ := (ih he.2).factor he.1
      exact .ofFactor ⟨.un .pos a', ha.un, fun r => .plus (h1 r)⟩
    | neg =>
      obtain ⟨a', ha, h1⟩ := (ih he).factorIn (b := !isCV a) isASMD_of_isCV
      exact .ofFactor ⟨.un .neg a', ha.un, fun r => .minus (h1 r)⟩
    | _ => exact good_call1 (by decide) (by rw [print]; all_goals simp) (ih he)

/-- An expression printed with operator symbols reads as an expression with the same values (and as no other), if there is no sign
`+` before an operation with a symbol. -/
theorem C103_operators_partial (e : Expr V) (he : Printable e) :
    ∃ e', Reads .expr (print e) e' [] ∧ ∀ y, e'.eval y = e.eval y := by
  obtain ⟨e', h, hr⟩ := (good he).expr
  have := hr [] trivial trivial
  rw [List.append_nil] at this
  exact ⟨e', this, h⟩

end Verif.Printing
