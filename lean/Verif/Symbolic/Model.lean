import Mathlib.Analysis.SpecialFunctions.Log.Basic
import Mathlib.Analysis.SpecialFunctions.Pow.Real
import Mathlib.Analysis.SpecialFunctions.Trigonometric.Arctan
import Mathlib.Analysis.SpecialFunctions.Trigonometric.Inverse
import Mathlib.Analysis.SpecialFunctions.Sqrt
import Mathlib.Order.WithBot

/-!
# Real-valued expressions

Model of `Expression<Real>` (source/symbolic/expression.hpp, expression.tpl.hpp,
expression.cpp, templates.tpl.hpp and source/numeric/operators.hpp): evaluation,
substitution, simplification, differentiation, classification.

Expressions are trees; the sharing of nodes in the code is not modelled, since nodes are
immutable.  Vector-valued expressions and `Get` nodes are not modelled.  Constants are real
numbers.  Variables and names of constants are elements of a linearly ordered type `V`.
Operations which are undefined for their arguments (division by zero, logarithm of a
nonpositive number, ...) have the value `none`.
-/

noncomputable section

open Classical

namespace Ariadne.Symbolic

/-- `UnaryElementaryOperator` (operators.hpp 471); `recip` is `Rec` -/
inductive UnOp
  | nul | pos | neg | sqr | hlf | recip | sqrt | exp | log | sin | cos | tan | asin | acos | atan | abs
  deriving DecidableEq

/-- `BinaryElementaryOperator` (operators.hpp 486) -/
inductive BinOp
  | add | sub | mul | div | max | min
  deriving DecidableEq

/-- `ExpressionVariantTypedef<Real>` (expression.tpl.hpp 112-119), without `Get`.
A constant has a name, `⊥` if it is unnamed (constant.hpp 48-50). -/
inductive Expr (V : Type*)
  | const (name : WithBot V) (c : ℝ)
  | var (v : V)
  | un (op : UnOp) (a : Expr V)
  | bin (op : BinOp) (a b : Expr V)
  | pow (a : Expr V) (n : ℤ)

/-- The operations of operators.hpp 313-420 on real numbers. -/
def UnOp.eval : UnOp → ℝ → Option ℝ
  | .nul, _ => some 0
  | .pos, a => some a
  | .neg, a => some (-a)
  | .sqr, a => some (a * a)
  | .hlf, a => some (a / 2)
  | .recip, a => if a = 0 then none else some a⁻¹
  | .sqrt, a => if a < 0 then none else some (Real.sqrt a)
  | .exp, a => some (Real.exp a)
  | .log, a => if a ≤ 0 then none else some (Real.log a)
  | .sin, a => some (Real.sin a)
  | .cos, a => some (Real.cos a)
  | .tan, a => if Real.cos a = 0 then none else some (Real.tan a)
  | .asin, a => if -1 ≤ a ∧ a ≤ 1 then some (Real.arcsin a) else none
  | .acos, a => if -1 ≤ a ∧ a ≤ 1 then some (Real.arccos a) else none
  | .atan, a => some (Real.arctan a)
  | .abs, a => some |a|

/-- operators.hpp 263-290, 404-414 -/
def BinOp.eval : BinOp → ℝ → ℝ → Option ℝ
  | .add, a, b => some (a + b)
  | .sub, a, b => some (a - b)
  | .mul, a, b => some (a * b)
  | .div, a, b => if b = 0 then none else some (a / b)
  | .max, a, b => some (Max.max a b)
  | .min, a, b => some (Min.min a b)

/-- `Pow` (operators.hpp 292-297) -/
def powEval (a : ℝ) (n : ℤ) : Option ℝ := if a = 0 ∧ n < 0 then none else some (a ^ n)

namespace Expr

variable {V : Type*}

/-- `evaluate` (expression.tpl.hpp 292-294, templates.tpl.hpp 144-172) -/
def eval : Expr V → (V → ℝ) → Option ℝ
  | const _ c, _ => some c
  | var v, x => some (x v)
  | un op a, x => (eval a x).bind op.eval
  | bin op a b, x => (eval a x).bind fun p => (eval b x).bind fun q => op.eval p q
  | pow a n, x => (eval a x).bind fun p => powEval p n

/-- `arguments` (expression.tpl.hpp 220-222, templates.tpl.hpp 421-428) -/
def arguments [DecidableEq V] : Expr V → Finset V
  | const _ _ => ∅
  | var v => {v}
  | un _ a => arguments a
  | bin _ a b => arguments a ∪ arguments b
  | pow a _ => arguments a

/-- An unnamed constant. -/
def cst (c : ℝ) : Expr V := const ⊥ c

/-- `op(e)` for an operator and an expression (expression.cpp 170-206): all build a node,
except `nul`, which is the constant zero (170-171). -/
def app : UnOp → Expr V → Expr V
  | .nul, _ => cst 0
  | op, a => un op a

/-! ## Substitution -/

/-- `substitute` (expression.tpl.hpp 358-382) -/
def subst [DecidableEq V] : Expr V → V → Expr V → Expr V
  | const n c, _, _ => const n c
  | var w, v, s => if w = v then s else var w
  | un op a, v, s => app op (subst a v s)
  | bin op a b, v, s => bin op (subst a v s) (subst b v s)
  | pow a n, v, s => pow (subst a v s) n

/-- `substitute` with a list of assignments (expression.tpl.hpp 392-398): one after another. -/
def substList [DecidableEq V] (e : Expr V) (as : List (V × Expr V)) : Expr V :=
  as.foldl (fun r a => subst r a.1 a.2) e

/-! ## Classification -/

/-- `is_constant_in` (templates.tpl.hpp 444-475) -/
def isConstantIn [DecidableEq V] (vars : Finset V) : Expr V → Bool
  | const _ _ => true
  | var v => decide (v ∉ vars)
  | un _ a => isConstantIn vars a
  | bin _ a b => isConstantIn vars a && isConstantIn vars b
  | pow a n => n == 0 || isConstantIn vars a

/-- `is_affine_in` (templates.tpl.hpp 479-536) -/
def isAffineIn [DecidableEq V] (vars : Finset V) : Expr V → Bool
  | const _ _ => true
  | var _ => true
  | un .hlf a => isAffineIn vars a
  | un .pos a => isAffineIn vars a
  | un .neg a => isAffineIn vars a
  | un .nul _ => true
  | un _ a => isConstantIn vars a
  | bin .add a b => isAffineIn vars a && isAffineIn vars b
  | bin .sub a b => isAffineIn vars a && isAffineIn vars b
  | bin .mul a b => (isAffineIn vars a && isConstantIn vars b) || (isConstantIn vars a && isAffineIn vars b)
  | bin .div a b => isAffineIn vars a && isConstantIn vars b
  | bin _ a b => isConstantIn vars a && isConstantIn vars b
  | pow a n => n == 0 || (n == 1 && isAffineIn vars a) || isConstantIn vars a

/-- `is_polynomial_in` (templates.tpl.hpp 541-594) -/
def isPolynomialIn [DecidableEq V] (vars : Finset V) : Expr V → Bool
  | const _ _ => true
  | var _ => true
  | un .sqr a => isPolynomialIn vars a
  | un .hlf a => isPolynomialIn vars a
  | un .pos a => isPolynomialIn vars a
  | un .neg a => isPolynomialIn vars a
  | un .nul _ => true
  | un _ a => isConstantIn vars a
  | bin .add a b => isPolynomialIn vars a && isPolynomialIn vars b
  | bin .sub a b => isPolynomialIn vars a && isPolynomialIn vars b
  | bin .mul a b => isPolynomialIn vars a && isPolynomialIn vars b
  | bin .div a b => isPolynomialIn vars a && isConstantIn vars b
  | bin _ a b => isConstantIn vars a && isConstantIn vars b
  | pow a n => n == 0 || (decide (0 < n) && isPolynomialIn vars a)

/-- `is_additive_in(e,var)` (expression.cpp 393-412) -/
def isAdditiveIn [DecidableEq V] (v : V) : Expr V → Bool
  | const _ _ => true
  | var _ => true
  | un _ _ => false
  | bin .add a b => (isAdditiveIn v a && isConstantIn {v} b) || (isConstantIn {v} a && isAdditiveIn v b)
  | bin .sub a b => isAdditiveIn v a && isConstantIn {v} b
  | bin _ _ _ => false
  | pow _ _ => false

/-! ## Differentiation -/

/-- `OP::derivative(a,d)` (operators.hpp 313-420) as used by `_derivative_impl`
(templates.tpl.hpp 184-187); `none` is the exception thrown for `Abs` (186-187).
The derivatives of `asin` and `acos` are those of the code (388, 394). -/
def unDeriv : UnOp → Expr V → Expr V → Option (Expr V)
  | .nul, _, _ => some (cst 0)
  | .pos, _, d => some d
  | .neg, _, d => some (un .neg d)
  | .hlf, _, d => some (un .hlf d)
  | .recip, a, d => some (bin .div d (un .neg (un .sqr a)))
  | .sqr, a, d => some (bin .mul (bin .mul (cst 2) a) d)
  | .sqrt, a, d => some (bin .div d (bin .mul (cst 2) (un .sqrt a)))
  | .exp, a, d => some (bin .mul (un .exp a) d)
  | .log, a, d => some (bin .div d a)
  | .sin, a, d => some (bin .mul (un .cos a) d)
  | .cos, a, d => some (bin .mul (un .neg (un .sin a)) d)
  | .tan, a, d => some (bin .mul (un .recip (un .sqr (un .cos a))) d)
  | .asin, a, d => some (bin .mul (un .recip (bin .sub (cst 1) (un .sqrt a))) d)
  | .acos, a, d => some (bin .mul (un .recip (bin .sub (cst 1) (un .sqrt a))) d)
  | .atan, a, d => some (bin .mul (un .recip (bin .add (cst 1) (un .sqr a))) d)
  | .abs, _, _ => none

/-- `_derivative_impl` for binary operators (templates.tpl.hpp 189-200); `none` is the
exception for `Max` and `Min`. -/
def binDeriv : BinOp → Expr V → Expr V → Expr V → Expr V → Option (Expr V)
  | .add, _, _, da, db => some (bin .add da db)
  | .sub, _, _, da, db => some (bin .sub da db)
  | .mul, a, b, da, db => some (bin .add (bin .mul da b) (bin .mul a db))
  | .div, a, b, da, db => some (bin .div (bin .sub da (bin .mul db (bin .div a b))) b)
  | .max, _, _, _, _ => none
  | .min, _, _, _, _ => none

/-- `derivative` (expression.cpp 483-491, templates.tpl.hpp 225-241, `Pow` operators.hpp
295-296) -/
def derivative [DecidableEq V] : Expr V → V → Option (Expr V)
  | const _ _, _ => some (cst 0)
  | var w, v => some (cst (if w = v then 1 else 0))
  | un op a, v => (derivative a v).bind fun d => unDeriv op a d
  | bin op a b, v => (derivative a v).bind fun da => (derivative b v).bind fun db => binDeriv op a b da db
  | pow a n, v => (derivative a v).map fun d => bin .mul (bin .mul (cst n) (pow a (n - 1))) d

/-! ## Simplification -/

/-- The decision procedures for constants and nodes: `isEq c d` is `decide(c==d)` in
`is_constant` (expression.tpl.hpp 679-681), `same` is `same(c1.value(),c2.value())`
(templates.tpl.hpp 391-392), `ptrEq` the comparison of node pointers (expression.tpl.hpp
415).  Equality of real numbers is undecidable, so these need not hold for equal arguments. -/
structure Oracle (V : Type*) where
  isEq : ℝ → ℝ → Bool
  same : ℝ → ℝ → Bool
  ptrEq : Expr V → Expr V → Bool

/-- An oracle is sound if it only identifies equal objects. -/
structure Oracle.Sound (o : Oracle V) : Prop where
  isEq : ∀ a b, o.isEq a b = true → a = b
  same : ∀ a b, o.same a b = true → a = b
  ptrEq : ∀ a b, o.ptrEq a b = true → a = b

/-- `is_constant(e,c)` (expression.tpl.hpp 679-681) -/
def isConst (o : Oracle V) : Expr V → ℝ → Bool
  | const _ c, d => o.isEq c d
  | _, _ => false

/-- `identical` (expression.tpl.hpp 413-418, templates.tpl.hpp 370-384) -/
def identical [DecidableEq V] (o : Oracle V) : Expr V → Expr V → Bool
  | const n c, const m d => o.ptrEq (const n c) (const m d) || (n == m && o.same c d)
  | var v, var w => v == w
  | un op a, un op' a' => o.ptrEq (un op a) (un op' a') || (op == op' && identical o a a')
  | bin op a b, bin op' a' b' =>
    o.ptrEq (bin op a b) (bin op' a' b') || (op == op' && identical o a a' && identical o b b')
  | pow a n, pow a' n' => o.ptrEq (pow a n) (pow a' n') || (identical o a a' && n == n')
  | _, _ => false

/-- `are_inverses(op1,op2)` (operators.hpp 502-525): `inverse(op1)` exists and is `op2`. -/
def areInverses : UnOp → UnOp → Bool
  | .pos, .pos => true
  | .neg, .neg => true
  | .recip, .recip => true
  | .sqr, .sqrt => true
  | .sqrt, .sqr => true
  | .exp, .log => true
  | .log, .exp => true
  | .tan, .atan => true
  | .atan, .tan => true
  | _, _ => false

/-- `_simplify_node` for unary nodes (templates.tpl.hpp 300-312), on the simplified argument.
A constant is replaced by the value of the operation; an operation which is undefined for the
constant is kept. -/
def simplUn (op : UnOp) (s : Expr V) : Expr V :=
  if op = .pos then s
  else match s with
    | const n c => match op.eval c with
      | some r => cst r
      | none => app op (const n c)
    | un op' a => if areInverses op op' then a else app op (un op' a)
    | s => app op s

/-- `simplify` (expression.tpl.hpp 474-477, 485-487; templates.tpl.hpp 250-325).  The
simplification of a quotient, difference or power calls `simplify` again on a new
expression (255, 265, 273, 276), so that the recursion is bounded by a number: see
`simplifyF_eq` for the proof that `simplify` never reaches the bound. -/
def simplifyF [DecidableEq V] (o : Oracle V) : ℕ → Expr V → Expr V
  | 0, e => e
  | _ + 1, const n c => const n c
  | _ + 1, var v => var v
  | k + 1, un op a => simplUn op (simplifyF o k a)
  | k + 1, bin op a b =>
    let s := simplifyF o k a
    let t := simplifyF o k b
    match op with
    | .add => if isConst o s 0 then t else if isConst o t 0 then s else bin .add s t
    | .sub => if isConst o s 0 then simplifyF o k (un .neg t) else if isConst o t 0 then s
        else if identical o s t then cst 0 else bin .sub s t
    | .mul => if isConst o s 0 || isConst o t 1 then s else if isConst o t 0 || isConst o s 1 then t
        else bin .mul s t
    | .div => if isConst o s 0 || isConst o t 1 then s else if isConst o s 1 then simplifyF o k (un .recip t)
        else if identical o s t then cst 1 else bin .div s t
    | .max => bin .max s t
    | .min => bin .min s t
  | k + 1, pow a n =>
    let s := simplifyF o k a
    if n = -1 then simplifyF o k (un .recip s)
    else if n = 0 then cst 1
    else if n = 1 then s
    else if n = 2 then simplifyF o k (un .sqr s)
    else pow s n

/-- Bound for the recursion of `simplify`. -/
def weight : Expr V → ℕ
  | const _ _ => 1
  | var _ => 1
  | un _ a => weight a + 1
  | bin _ a b => weight a + weight b + 1
  | pow a _ => weight a + 2

/-- `simplify` -/
def simplify [DecidableEq V] (o : Oracle V) (e : Expr V) : Expr V := simplifyF o (weight e) e

end Expr

end Ariadne.Symbolic
