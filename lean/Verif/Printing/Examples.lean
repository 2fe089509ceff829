import Verif.Printing.Props
import Mathlib.Tactic.NormNum

/-!
# C103: counterexamples and examples
-/

namespace Verif.Printing

open Ariadne.Symbolic

/-- `(+(x+y))*z` is printed as `+x+y*z`, which reads as `x+(y*z)` only; its value is different where x is one, y is zero and
z is two. -/
theorem C103_plus_sign_fails :
    ∃ e : Expr ℕ, NoNul e ∧ (∃ e', Reads .expr (print e) e' []) ∧
      ∀ e', Reads .expr (print e) e' [] → ∃ y, e.eval y = some 2 ∧ e'.eval y = some 1 := by
  have h : Reads .expr (print (.bin .mul (.un .pos (.bin .add (.var 0) (.var 1))) (.var 2)))
      (.bin .add (.un .pos (.var 0)) (.bin .mul (.var 1) (.var 2)) : Expr ℕ) [] := by
    have hp : print (.bin .mul (.un .pos (.bin .add (.var 0) (.var 1))) (.var 2) : Expr ℕ) =
        [.plus, .var 0, .plus, .var 1, .times, .var 2] := by simp [print, paren, isASD, isAS]
    rw [hp]
    exact .expr (.term (.plus .var) (.termEnd trivial))
      (.add (.term .var (.times .var (.termEnd trivial))) (.exprEnd trivial))
  refine ⟨.bin .mul (.un .pos (.bin .add (.var 0) (.var 1))) (.var 2), by simp [NoNul], ⟨_, h⟩, fun e' he => ?_⟩
  obtain ⟨rfl, _⟩ := C103_unambiguous h he
  refine ⟨fun i => if i = 0 then 1 else if i = 1 then 0 else 2, ?_, ?_⟩ <;> simp [Expr.eval, UnOp.eval, BinOp.eval]

/-- `x-(+(y+z))` is printed as `x-+y+z`, which reads as `(x-y)+z` only. -/
theorem C103_plus_sign_difference_fails :
    ∃ e : Expr ℕ, NoNul e ∧ (∃ e', Reads .expr (print e) e' []) ∧
      ∀ e', Reads .expr (print e) e' [] → ∃ y, e.eval y = some (-1) ∧ e'.eval y = some 1 := by
  have h : Reads .expr (print (.bin .sub (.var 0) (.un .pos (.bin .add (.var 1) (.var 2)))))
      (.bin .add (.bin .sub (.var 0) (.un .pos (.var 1))) (.var 2) : Expr ℕ) [] := by
    have hp : print (.bin .sub (.var 0) (.un .pos (.bin .add (.var 1) (.var 2))) : Expr ℕ) =
        [.var 0, .minus, .plus, .var 1, .plus, .var 2] := by simp [print, paren, isAS]
    rw [hp]
    exact .expr (.term .var (.termEnd trivial)) (.sub (.term (.plus .var) (.termEnd trivial))
      (.add (.term .var (.termEnd trivial)) (.exprEnd trivial)))
  refine ⟨.bin .sub (.var 0) (.un .pos (.bin .add (.var 1) (.var 2))), by simp [NoNul], ⟨_, h⟩, fun e' he => ?_⟩
  obtain ⟨rfl, _⟩ := C103_unambiguous h he
  refine ⟨fun i => if i = 2 then 1 else 0, ?_, ?_⟩ <;> simp [Expr.eval, UnOp.eval, BinOp.eval]

/-- The operator `nul` has no name. -/
theorem C103_nul_fails (a : Expr ℕ) (e' : Expr ℕ) (r : List (Tok ℕ)) : ¬ Reads .expr (printNames (.un .nul a)) e' r := by
  intro h
  have hn : meaning (unName .nul) = none := rfl
  cases h with
  | expr h _ =>
    cases h with
    | term h _ =>
      cases h with
      | un hm _ => rw [hn] at hm; cases hm
      | bin hm _ _ => rw [hn] at hm; cases hm
      | pow hm _ => rw [hn] at hm; cases hm

/-- `x*(y/z) - (u - -1)/(v*w)` is printed with the symbols only where needed, and reads back. -/
example : Printable (.bin .sub (.bin .mul (.var 0) (.bin .div (.var 1) (.var 2)))
      (.bin .div (.bin .sub (.var 3) (.cst (-1))) (.bin .mul (.var 4) (.un .neg (.var 5)))) : Expr ℕ) ∧
    print (.bin .sub (.bin .mul (.var 0) (.bin .div (.var 1) (.var 2)))
      (.bin .div (.bin .sub (.var 3) (.cst (-1))) (.bin .mul (.var 4) (.un .neg (.var 5)))) : Expr ℕ) =
      [.var 0, .times, .var 1, .divides, .var 2, .minus, .lp, .var 3, .minus, .minus, .num (- -1), .rp, .divides, .lp, .var 4,
        .times, .minus, .var 5, .rp] := by
  refine ⟨by simp [Printable, Expr.cst], ?_⟩
  have h : printConst (⊥ : WithBot ℕ) (-1) = [.minus, .num (- -1)] := if_pos (by norm_num)
  simp [print, paren, isAS, isASD, isASMD, isCV, Expr.cst, h]

/-- The same with names -/
example : NoNul (.bin .sub (.var 0) (.un .recip (.pow (.var 1) 3)) : Expr ℕ) ∧
    printNames (.bin .sub (.var 0) (.un .recip (.pow (.var 1) 3)) : Expr ℕ) =
      [.ident "sub", .lp, .var 0, .comma, .ident "rec", .lp, .ident "pow", .lp, .var 1, .comma, .int 3, .rp, .rp, .rp] := by
  simp [NoNul, printNames, binName, unName]

end Verif.Printing
