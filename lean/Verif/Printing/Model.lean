import Verif.Symbolic.Model
import Mathlib.Data.Real.Archimedean

/-!
# Printing of expressions

Model of the writers of `source/symbolic/templates.tpl.hpp` lines 38-138, which print expressions (`symbolic/expression.tpl.hpp`
lines 224-234) and formulae (`function/formula.cpp` lines 89-103).  The output is a list of tokens; the characters of numbers and
of variables are not modelled, and neither are the vector operations, logical expressions and the operations with scalars of
formulae.
-/

namespace Verif.Printing

open Ariadne.Symbolic

variable {V : Type*}

/-- The tokens of the output -/
inductive Tok (V : Type*)
  | num (c : ℝ)
  | int (n : ℤ)
  | named (n : V) (c : ℝ)
  | var (v : V)
  | ident (s : String)
  | plus | minus | times | divides | lp | rp | comma

/-- `name(OperatorCode)`, numeric/operators.cpp lines 85-135, for the unary operators -/
def unName : UnOp → String
  | .pos => "pos"
  | .neg => "neg"
  | .recip => "rec"
  | .abs => "abs"
  | .sqr => "sqr"
  | .sqrt => "sqrt"
  | .exp => "exp"
  | .log => "log"
  | .sin => "sin"
  | .cos => "cos"
  | .tan => "tan"
  | .asin => "asin"
  | .acos => "acos"
  | .atan => "atan"
  | .hlf => "hlf"
  | .nul => "UNKNOWN"

/-- `name(OperatorCode)`, numeric/operators.cpp lines 93-96 and 109-110, for the binary operators -/
def binName : BinOp → String
  | .add => "add"
  | .sub => "sub"
  | .mul => "mul"
  | .div => "div"
  | .max => "max"
  | .min => "min"

open Classical in
/-- `operator<<` of `Constant`, constant.hpp lines 57-58: a negative number begins with a minus sign. -/
noncomputable def printConst : WithBot V → ℝ → List (Tok V)
  | ⊥, c => if c < 0 then [.minus, .num (-c)] else [.num c]
  | (n : V), c => [.named n c]

/-- The operators of the `switch` in `Sub` (line 81), and of the first ones in `Mul` (84) and `Div` (86) -/
def isAS : Expr V → Bool
  | .bin .add _ _ => true
  | .bin .sub _ _ => true
  | _ => false

/-- The operators of the `switch` for the first argument of `Mul`, line 83 -/
def isASD : Expr V → Bool
  | .bin .add _ _ => true
  | .bin .sub _ _ => true
  | .bin .div _ _ => true
  | _ => false

/-- The operators of the `switch` for the second argument of `Div`, line 87 -/
def isASMD : Expr V → Bool
  | .bin .add _ _ => true
  | .bin .sub _ _ => true
  | .bin .mul _ _ => true
  | .bin .div _ _ => true
  | _ => false

/-- The operators of the `switch` in `Neg`, line 95 -/
def isCV : Expr V → Bool
  | .const _ _ => true
  | .var _ => true
  | _ => false

/-- `'(' << e << ')'` or `e` -/
def paren (b : Bool) (ts : List (Tok V)) : List (Tok V) := if b then .lp :: ts ++ [.rp] else ts

/-- `OperatorSymbolicWriter`, templates.tpl.hpp lines 73-138: operators as symbols.  The order of the lines is that of the code:
`Add` 78-79, `Sub` 80-81, `Mul` 82-84, `Div` 85-87, `Max` and `Min` 88-89, `Pos` 92-93, `Neg` 94-95, other unary operators 96-97,
`Pow` 129-130. -/
noncomputable def print : Expr V → List (Tok V)
  | .const n c => printConst n c
  | .var v => [.var v]
  | .bin .add a b => print a ++ .plus :: print b
  | .bin .sub a b => print a ++ .minus :: paren (isAS b) (print b)
  | .bin .mul a b => paren (isASD a) (print a) ++ .times :: paren (isAS b) (print b)
  | .bin .div a b => paren (isAS a) (print a) ++ .divides :: paren (isASMD b) (print b)
  | .bin .max a b => .ident "max" :: .lp :: print a ++ .comma :: print b ++ [.rp]
  | .bin .min a b => .ident "min" :: .lp :: print a ++ .comma :: print b ++ [.rp]
  | .un .pos a => .plus :: print a
  | .un .neg a => .minus :: paren (!isCV a) (print a)
  | .un op a => .ident (unName op) :: .lp :: print a ++ [.rp]
  | .pow a n => .ident "pow" :: .lp :: print a ++ [.comma, .int n, .rp]

/-- `OperationSymbolicWriter`, templates.tpl.hpp lines 38-69: operators as names. -/
noncomputable def printNames : Expr V → List (Tok V)
  | .const n c => printConst n c
  | .var v => [.var v]
  | .bin op a b => .ident (binName op) :: .lp :: printNames a ++ .comma :: printNames b ++ [.rp]
  | .un op a => .ident (unName op) :: .lp :: printNames a ++ [.rp]
  | .pow a n => .ident "pow" :: .lp :: printNames a ++ [.comma, .int n, .rp]

end Verif.Printing
