import Verif.Procedure.Model
import Mathlib.Data.Fin.Basic

/-!
# First and second differentials

Model of `source/algebra/fixed_differential.hpp` and `source/algebra/fixed_univariate_differential.hpp`:
the value, the gradient and half the Hessian of a quantity depending on one or several variables, and of
`hessian(Procedure,x,s)`, `source/function/procedure.tpl.hpp` lines 404-409.

Simplifications: covectors and matrices are functions on `Fin n`, so sizes always agree; the assertions
on sizes are not modelled.  Precisions are left out.  Operations which throw give `none`.
-/

namespace Verif.FixedDifferential

open Ariadne.Symbolic (UnOp BinOp)
open Verif.Procedure (Alg Proc evaluate)

/-- The operations on the numbers `X` used by the differentials (`source/numeric`): constants from
integers, arithmetic, elementary functions, integer powers, and the decisions made from comparisons. -/
structure Num (X : Type*) where
  ofInt : ℤ → X
  add : X → X → X
  sub : X → X → X
  mul : X → X → X
  div : X → X → X
  neg : X → X
  hlf : X → X
  sqr : X → X
  recip : X → X
  sqrt : X → X
  exp : X → X
  log : X → X
  sin : X → X
  cos : X → X
  tan : X → X
  asin : X → X
  acos : X → X
  atan : X → X
  pow : X → ℤ → X
  eq : X → X → Bool
  lt : X → X → Bool

/-- `FirstDifferential`, `fixed_differential.hpp` lines 142-243. -/
structure First (n : ℕ) (X : Type*) where
  value : X
  gradient : Fin n → X

/-- `SecondDifferential`, `fixed_differential.hpp` lines 421-538. -/
structure Second (n : ℕ) (X : Type*) where
  value : X
  gradient : Fin n → X
  half : Fin n → Fin n → X

/-- `UnivariateFirstDifferential`, `fixed_univariate_differential.hpp` lines 41-140. -/
structure UFirst (X : Type*) where
  value : X
  gradient : X

/-- `UnivariateSecondDifferential`, `fixed_univariate_differential.hpp` lines 228-347. -/
structure USecond (X : Type*) where
  value : X
  gradient : X
  half : X

variable {X : Type*} (o : Num X) {n : ℕ}

/-! ## Power series coefficients used by the generic operators -/

/-- `UnivariateFirstDifferential(op,c)`, `fixed_univariate_differential.hpp` lines 73-74, with
`next_series_coefficient`, `source/algebra/series.hpp` lines 59-66, for the two operators which have no
formula of their own in `FirstDifferential`: `nul` and `hlf`. -/
def UFirst.series : UnOp → X → Option (UFirst X)
  | .nul, _ => some ⟨o.ofInt 0, o.ofInt 0⟩
  | .hlf, c => some ⟨o.hlf c, o.hlf (o.add (o.ofInt 0) (o.ofInt 1))⟩
  | _, _ => none

/-- `UnivariateSecondDifferential(op,c)`, `fixed_univariate_differential.hpp` lines 260-261, for the
operators without a formula of their own in `UnivariateSecondDifferential`: `nul`, `hlf` (`series.hpp`
lines 59-66); `asin` and `acos` throw (lines 93-97). -/
def USecond.series : UnOp → X → Option (USecond X)
  | .nul, _ => some ⟨o.ofInt 0, o.ofInt 0, o.ofInt 0⟩
  | .hlf, c => some ⟨o.hlf c, o.hlf (o.add (o.ofInt 0) (o.ofInt 1)), o.ofInt 0⟩
  | _, _ => none

/-! ## First differentials -/

namespace First

/-- `constant`, `fixed_differential.hpp` lines 177-178. -/
def constant (c : X) : First n X := ⟨c, fun _ => o.ofInt 0⟩

/-- `variable`, lines 180-181, and the elements of `variables`, lines 183-186. -/
def var (v : X) (j : Fin n) : First n X := ⟨v, fun i => if i = j then o.ofInt 1 else o.ofInt 0⟩

/-- `_compose`, lines 245-252: `_gradient *= x.gradient()`. -/
def compose (x : UFirst X) (y : First n X) : First n X := ⟨x.value, fun j => o.mul (y.gradient j) x.gradient⟩

/-- `apply(Add/Sub/Mul/Div/Max/Min,x,y)`, lines 272-279 and 291-298. -/
def bin : BinOp → First n X → First n X → Option (First n X)
  | .add, x, y => some ⟨o.add x.value y.value, fun j => o.add (x.gradient j) (y.gradient j)⟩
  | .sub, x, y => some ⟨o.sub x.value y.value, fun j => o.sub (x.gradient j) (y.gradient j)⟩
  | .mul, x, y => some ⟨o.mul x.value y.value,
      fun j => o.add (o.mul x.value (y.gradient j)) (o.mul y.value (x.gradient j))⟩
  | .div, x, y => some ⟨o.div x.value y.value,
      fun j => o.div (o.add (o.mul (o.div x.value y.value) (y.gradient j)) (x.gradient j)) y.value⟩
  | .max, x, y => if o.eq x.value y.value then none else some (if o.lt y.value x.value then x else y)
  | .min, x, y => if o.eq x.value y.value then none else some (if o.lt x.value y.value then x else y)

/-- `apply(Add/Sub/Mul/Div,x,c)`, lines 281-288. -/
def scalar : BinOp → First n X → X → Option (First n X)
  | .add, x, c => some ⟨o.add x.value c, x.gradient⟩
  | .sub, x, c => some ⟨o.sub x.value c, x.gradient⟩
  | .mul, x, c => some ⟨o.mul x.value c, fun j => o.mul (x.gradient j) c⟩
  | .div, x, c => some ⟨o.div x.value c, fun j => o.div (x.gradient j) c⟩
  | _, _, _ => none

/-- `apply(op,x)`, lines 267-270, 299-342; `nul` and `hlf` by the generic operator, lines 304-305. -/
def un : UnOp → First n X → Option (First n X)
  | .pos, x => some x
  | .neg, x => some ⟨o.neg x.value, fun j => o.neg (x.gradient j)⟩
  | .abs, x =>
    if o.eq x.value (o.ofInt 0) then none
    else if o.lt (o.ofInt 0) x.value then some x
    else some ⟨o.neg x.value, fun j => o.neg (x.gradient j)⟩
  | .recip, x =>
    some ⟨o.recip x.value, fun j => o.mul (x.gradient j) (o.neg (o.sqr (o.recip x.value)))⟩
  | .sqr, x => some ⟨o.sqr x.value, fun j => o.mul (o.mul (o.ofInt 2) x.value) (x.gradient j)⟩
  | .sqrt, x =>
    let s := o.sqrt x.value
    some ⟨s, fun j => o.mul (o.recip (o.mul (o.ofInt 2) s)) (x.gradient j)⟩
  | .exp, x => let e := o.exp x.value; some ⟨e, fun j => o.mul e (x.gradient j)⟩
  | .log, x => some ⟨o.log x.value, fun j => o.mul (o.recip x.value) (x.gradient j)⟩
  | .sin, x => some ⟨o.sin x.value, fun j => o.mul (o.cos x.value) (x.gradient j)⟩
  | .cos, x => some ⟨o.cos x.value, fun j => o.mul (o.neg (o.sin x.value)) (x.gradient j)⟩
  | .tan, x => some ⟨o.tan x.value, fun j => o.mul (o.sqr (o.recip (o.cos x.value))) (x.gradient j)⟩
  | .asin, x => some ⟨o.asin x.value,
      fun j => o.mul (o.recip (o.sqrt (o.sub (o.ofInt 1) (o.sqr x.value)))) (x.gradient j)⟩
  | .acos, x => some ⟨o.acos x.value,
      fun j => o.mul (o.neg (o.recip (o.sqrt (o.sub (o.ofInt 1) (o.sqr x.value))))) (x.gradient j)⟩
  | .atan, x => some ⟨o.atan x.value,
      fun j => o.mul (o.recip (o.add (o.ofInt 1) (o.sqr x.value))) (x.gradient j)⟩
  | op, x => (UFirst.series o op x.value).map fun s => compose o s x

/-- `apply(Pow,x,n)`, lines 314-315. -/
def pow (x : First n X) (m : ℤ) : First n X :=
  ⟨o.pow x.value m, fun j => o.mul (o.mul (o.ofInt m) (o.pow x.value (m - 1))) (x.gradient j)⟩

end First

/-! ## Second differentials -/

namespace Second

/-- `constant`, `fixed_differential.hpp` lines 464-465. -/
def constant (c : X) : Second n X := ⟨c, fun _ => o.ofInt 0, fun _ _ => o.ofInt 0⟩

/-- `variable`, lines 467-468, and the elements of `variables`, lines 470-473. -/
def var (v : X) (j : Fin n) : Second n X :=
  ⟨v, fun i => if i = j then o.ofInt 1 else o.ofInt 0, fun _ _ => o.ofInt 0⟩

/-- `hessian`, line 496. -/
def hessian (x : Second n X) (j k : Fin n) : X := o.mul (x.half j k) (o.ofInt 2)

/-- `operator[](MultiIndex)` for an index of degree two, lines 510-513: the index has entries one at
`j<k`, or two at `j=k`. -/
def coefficient (x : Second n X) (j k : Fin n) : X := x.half j k

/-- `outer(g)`, `fixed_differential.hpp` lines 102-116. -/
def outer (g : Fin n → X) (j k : Fin n) : X := o.mul (g j) (g k)

/-- `_compose`, lines 540-549. -/
def compose (x : USecond X) (y : Second n X) : Second n X :=
  ⟨x.value, fun j => o.mul (y.gradient j) x.gradient,
    fun j k => o.add (o.mul (y.half j k) x.gradient) (o.mul x.half (outer o y.gradient j k))⟩

/-- `apply(Mul,x,y)`, lines 578-587. -/
def mul (x y : Second n X) : Second n X :=
  ⟨o.mul x.value y.value,
    fun j => o.add (o.mul (x.gradient j) y.value) (o.mul x.value (y.gradient j)),
    fun j k => o.add (o.add (o.mul (x.half j k) y.value) (o.mul x.value (y.half j k)))
      (o.div (o.add (o.mul (x.gradient j) (y.gradient k)) (o.mul (x.gradient k) (y.gradient j)))
        (o.ofInt 2))⟩

/-- The result of a unary operator with value `v`, first derivative `d` and coefficient `c` of the
product of the gradients: `(v, d*x', d*x'' + c*outer(x'))`. -/
def chain (v d c : X) (x : Second n X) : Second n X :=
  ⟨v, fun j => o.mul d (x.gradient j),
    fun j k => o.add (o.mul d (x.half j k)) (o.mul c (outer o x.gradient j k))⟩

/-- `apply(Rec,x)`, lines 624-629. -/
def recip (x : Second n X) : Second n X :=
  let r := o.recip x.value
  let q := o.neg (o.sqr r)
  chain o r q (o.mul (o.neg r) q) x

/-- `apply(Add/Sub/Mul/Div/Max/Min,x,y)`, lines 574-589 and 600-613. -/
def bin : BinOp → Second n X → Second n X → Option (Second n X)
  | .add, x, y => some ⟨o.add x.value y.value, fun j => o.add (x.gradient j) (y.gradient j),
      fun j k => o.add (x.half j k) (y.half j k)⟩
  | .sub, x, y => some ⟨o.sub x.value y.value, fun j => o.sub (x.gradient j) (y.gradient j),
      fun j k => o.sub (x.half j k) (y.half j k)⟩
  | .mul, x, y => some (mul o x y)
  | .div, x, y => some (mul o x (recip o y))
  | .max, x, y => if o.eq x.value y.value then none else some (if o.lt y.value x.value then x else y)
  | .min, x, y => if o.eq x.value y.value then none else some (if o.lt x.value y.value then x else y)

/-- `apply(Add/Sub/Mul/Div,x,c)`, lines 591-598. -/
def scalar : BinOp → Second n X → X → Option (Second n X)
  | .add, x, c => some ⟨o.add x.value c, x.gradient, x.half⟩
  | .sub, x, c => some ⟨o.sub x.value c, x.gradient, x.half⟩
  | .mul, x, c => some ⟨o.mul x.value c, fun j => o.mul (x.gradient j) c, fun j k => o.mul (x.half j k) c⟩
  | .div, x, c => some ⟨o.div x.value c, fun j => o.div (x.gradient j) c, fun j k => o.div (x.half j k) c⟩
  | _, _, _ => none

/-- `-x`, lines 571-572. -/
def neg (x : Second n X) : Second n X :=
  ⟨o.neg x.value, fun j => o.neg (x.gradient j), fun j k => o.neg (x.half j k)⟩

/-- `apply(op,x)`, lines 569-572, 614-619 and 624-677.  The generic operator, lines 621-622, is
ill-formed if it is instantiated, so the other operators are not available. -/
def un : UnOp → Second n X → Option (Second n X)
  | .pos, x => some x
  | .neg, x => some (neg o x)
  | .abs, x =>
    if o.eq x.value (o.ofInt 0) then none
    else if o.lt (o.ofInt 0) x.value then some x
    else some (neg o x)
  | .recip, x => some (recip o x)
  | .sqr, x => some ⟨o.sqr x.value, fun j => o.mul (o.mul (o.ofInt 2) x.value) (x.gradient j),
      fun j k => o.add (o.mul (o.mul (o.ofInt 2) x.value) (x.half j k))
        (o.div (outer o x.gradient j k) (o.ofInt 2))⟩
  | .sqrt, x =>
    let s := o.sqrt x.value
    some (chain o s (o.recip (o.mul (o.ofInt 2) s))
      (o.neg (o.recip (o.mul (o.mul (o.ofInt 4) s) x.value))) x)
  | .exp, x => let e := o.exp x.value; some (chain o e e e x)
  | .log, x =>
    let r := o.recip x.value
    some (chain o (o.log x.value) r (o.neg (o.sqr r)) x)
  | .sin, x => let s := o.sin x.value; some (chain o s (o.cos x.value) (o.neg s) x)
  | .cos, x => let c := o.cos x.value; some (chain o c (o.neg (o.sin x.value)) (o.neg c) x)
  | .tan, x =>
    let t := o.tan x.value
    let q := o.sqr (o.recip (o.cos x.value))
    some (chain o t q (o.mul (o.mul (o.ofInt 2) t) q) x)
  | _, _ => none

/-- `apply(Pow,x,n)`, lines 635-637: `n*(n-1)/2` is computed with integers. -/
def pow (x : Second n X) (m : ℤ) : Second n X :=
  ⟨o.pow x.value m, fun j => o.mul (o.mul (o.ofInt m) (o.pow x.value (m - 1))) (x.gradient j),
    fun j k => o.mul (o.mul (o.ofInt (m * (m - 1) / 2)) (o.pow x.value (m - 2))) (x.half j k)⟩

end Second

/-! ## Univariate differentials -/

namespace UFirst

/-- `apply(Add/Sub/Mul/Div,x,y)`, `fixed_univariate_differential.hpp` lines 155-162. -/
def bin : BinOp → UFirst X → UFirst X → Option (UFirst X)
  | .add, x, y => some ⟨o.add x.value y.value, o.add x.gradient y.gradient⟩
  | .sub, x, y => some ⟨o.sub x.value y.value, o.sub x.gradient y.gradient⟩
  | .mul, x, y => some ⟨o.mul x.value y.value, o.add (o.mul x.gradient y.value) (o.mul x.value y.gradient)⟩
  | .div, x, y =>
    let q := o.div x.value y.value
    some ⟨q, o.div (o.sub x.gradient (o.mul q y.gradient)) y.value⟩
  | _, _, _ => none

end UFirst

namespace USecond

/-- `constant`, `fixed_univariate_differential.hpp` lines 274-275. -/
def constant (c : X) : USecond X := ⟨c, o.ofInt 0, o.ofInt 0⟩

/-- `variable`, lines 277-278. -/
def var (v : X) : USecond X := ⟨v, o.ofInt 1, o.ofInt 0⟩

/-- `hessian`, line 300. -/
def hessian (x : USecond X) : X := o.mul x.half (o.ofInt 2)

/-- `compose`, lines 314-320. -/
def compose (x y : USecond X) : USecond X :=
  ⟨x.value, o.mul y.gradient x.gradient,
    o.add (o.mul y.half x.gradient) (o.mul x.half (o.sqr y.gradient))⟩

/-- `-x`, lines 374-375. -/
def neg (x : USecond X) : USecond X := ⟨o.neg x.value, o.neg x.gradient, o.neg x.half⟩

/-- `apply(Add/Sub/Mul/Div/Max/Min,x,y)`, lines 359-370 and 377-384. -/
def bin : BinOp → USecond X → USecond X → Option (USecond X)
  | .add, x, y => some ⟨o.add x.value y.value, o.add x.gradient y.gradient, o.add x.half y.half⟩
  | .sub, x, y => some ⟨o.sub x.value y.value, o.sub x.gradient y.gradient, o.sub x.half y.half⟩
  | .mul, x, y => some ⟨o.mul x.value y.value, o.add (o.mul x.gradient y.value) (o.mul x.value y.gradient),
      o.add (o.add (o.mul x.half y.value) (o.mul x.gradient y.gradient)) (o.mul x.value y.half)⟩
  | .div, x, y =>
    let q := o.div x.value y.value
    let g := o.div y.gradient y.value
    some ⟨q, o.div (o.sub x.gradient (o.mul q y.gradient)) y.value,
      o.add (o.sub (o.sub (o.div x.half y.value) (o.mul q (o.div y.half y.value)))
        (o.mul (o.div x.gradient y.value) g)) (o.mul q (o.sqr g))⟩
  | .max, x, y => if o.eq x.value y.value then none else some (if o.lt y.value x.value then x else y)
  | .min, x, y => if o.eq x.value y.value then none else some (if o.lt x.value y.value then x else y)

/-- `apply(Add/Sub/Mul/Div,x,c)`, lines 350-357. -/
def scalar : BinOp → USecond X → X → Option (USecond X)
  | .add, x, c => some ⟨o.add x.value c, x.gradient, x.half⟩
  | .sub, x, c => some ⟨o.sub x.value c, x.gradient, x.half⟩
  | .mul, x, c => some ⟨o.mul x.value c, o.mul x.gradient c, o.mul x.half c⟩
  | .div, x, c => some ⟨o.div x.value c, o.div x.gradient c, o.div x.half c⟩
  | _, _, _ => none

/-- `(v, d*x', d*x'' + c*sqr(x'))`, as in `Second.chain`. -/
def chain (v d c : X) (x : USecond X) : USecond X :=
  ⟨v, o.mul d x.gradient, o.add (o.mul d x.half) (o.mul c (o.sqr x.gradient))⟩

/-- `apply(op,x)`, lines 372-375, 385-398 and 405-430; `nul`, `hlf`, `asin` and `acos` by the generic
operator, lines 394-395. -/
def un : UnOp → USecond X → Option (USecond X)
  | .pos, x => some x
  | .neg, x => some (neg o x)
  | .abs, x =>
    if o.eq x.value (o.ofInt 0) then none
    else if o.lt (o.ofInt 0) x.value then some x
    else some (neg o x)
  | .recip, x =>
    let r := o.recip x.value
    let q := o.neg (o.sqr r)
    some (chain o r q (o.mul (o.neg r) q) x)
  | .sqr, x => some ⟨o.sqr x.value, o.mul (o.mul (o.ofInt 2) x.value) x.gradient,
      o.add (o.mul x.value x.half) (o.sqr x.gradient)⟩
  | .sqrt, x =>
    let s := o.sqrt x.value
    some (chain o s (o.recip (o.mul (o.ofInt 2) s))
      (o.hlf (o.neg (o.recip (o.mul (o.mul (o.ofInt 4) s) x.value)))) x)
  | .exp, x => let e := o.exp x.value; some (chain o e e (o.hlf e) x)
  | .log, x =>
    let r := o.recip x.value
    some (chain o (o.log x.value) r (o.hlf (o.neg (o.sqr r))) x)
  | .sin, x => let s := o.sin x.value; some (chain o s (o.cos x.value) (o.hlf (o.neg s)) x)
  | .cos, x => let c := o.cos x.value; some (chain o c (o.neg (o.sin x.value)) (o.hlf (o.neg c)) x)
  | .tan, x =>
    let t := o.tan x.value
    let q := o.sqr (o.recip (o.cos x.value))
    some (chain o t q (o.hlf (o.mul (o.mul (o.ofInt 2) t) q)) x)
  | .atan, x =>
    let d := o.recip (o.add (o.ofInt 1) (o.sqr x.value))
    some (chain o (o.atan x.value) d (o.hlf (o.mul (o.mul (o.ofInt (-2)) x.value) (o.sqr d))) x)
  | op, x => (USecond.series o op x.value).map fun s => compose o s x

/-- `apply(Pow,x,n)`, lines 400-401. -/
def pow (x : USecond X) (m : ℤ) : USecond X :=
  ⟨o.pow x.value m, o.mul (o.mul (o.ofInt m) (o.pow x.value (m - 1))) x.gradient,
    o.mul (o.hlf (o.mul (o.ofInt (m * (m - 1))) (o.pow x.value (m - 2)))) x.half⟩

/-- The univariate second differentials as an algebra for evaluating procedures; `none` is an exception.
Mixed operators with a constant on the left convert the constant (`ProvideConcreteGenericArithmeticOperations`,
`source/numeric/arithmetic.hpp`). -/
def alg {Y : Type*} (cst : Y → X) : Alg Y (Option (USecond X)) where
  cst c := some (constant o (cst c))
  un op a := a.bind (un o op)
  bin op a b := a.bind fun x => b.bind fun y => bin o op x y
  pow a m := a.map fun x => pow o x m
  mix op c a := a.bind fun x => bin o op (constant o (cst c)) x
  zero := some (constant o (o.ofInt 0))

end USecond

/-- The arguments `x+da*s` of `hessian(Procedure,x,s)`, `procedure.tpl.hpp` lines 405-406. -/
def line (x s : ℕ → X) (i : ℕ) : Option (USecond X) :=
  (USecond.scalar o .mul (USecond.var o (o.ofInt 0)) (s i)).bind fun d => USecond.scalar o .add d (x i)

/-- `hessian(Procedure,x,s)`, `procedure.tpl.hpp` lines 404-409. -/
def procHessian {Y : Type*} (cst : Y → X) (P : Proc Y) (x s : ℕ → X) : Option X :=
  (evaluate (USecond.alg o cst) P (line o x s)).bind fun d => d.map (USecond.hessian o)

end Verif.FixedDifferential
