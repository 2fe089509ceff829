import Verif.Procedure.Model

/-!
# Graded series

Model of `source/algebra/graded.hpp`: the coefficients `a[0],…,a[d]` of a power series in time, where
each evaluation of `r=op(a,…)` appends *one* coefficient to `r`; of the evaluation of a procedure on
graded series (`source/function/procedure.tpl.hpp` lines 220-241); and of the functions
`graded_flow_init` and `graded_flow_iterate` (`source/solvers/integrator.cpp` lines 520-579), which
compute the Taylor coefficients in time of the flow of a differential equation.

The coefficients belong to an algebra `X` (numbers, bounds, or differentials in the initial state)
given by its operations.

Simplifications: a failed assertion, a thrown exception and a function which is not implemented are
all `none`.  `compatible` (lines 74-75) is not modelled.  Reading a coefficient within a loop is by
`getD`; the preceding assertions put the index in range.  A series has fewer than `65536`
coefficients, so that `degree()` is the number of coefficients less one, except in the assertions of
`nul`, `pos` and `hlf`, where the degree of the empty series matters (`degree16`).
-/

namespace Verif.Graded

open Ariadne.Symbolic (UnOp BinOp)
open Verif.Procedure (Instr Proc)

/-- The operations on coefficients used by `graded.hpp`; `Y` is the type of constants of a procedure.
`smul k a` is `k*a` and `a*k` for an integer `k`, `divInt a k` is `a/k`, `plusOne a` is `a+1`, and
`cst` is the conversion of a constant by `(*this)[0]=x` (lines 97-98). -/
structure GOps (Y X : Type*) where
  zero : X
  plusOne : X → X
  add : X → X → X
  sub : X → X → X
  mul : X → X → X
  div : X → X → X
  neg : X → X
  hlf : X → X
  smul : ℤ → X → X
  divInt : X → ℤ → X
  recip : X → X
  sqrt : X → X
  exp : X → X
  log : X → X
  sin : X → X
  cos : X → X
  pow : X → ℤ → X
  cst : Y → X

/-- A graded series: its coefficients, `graded.hpp` line 83. -/
abbrev Series (X : Type*) := List X

/-- `degree()`, `graded.hpp` line 109, as a 16-bit number: that of the empty series is `65535`. -/
def degree16 {X : Type*} (a : Series X) : ℕ := (a.length + 65535) % 65536

section Ops

variable {Y X : Type*} (o : GOps Y X)

/-- The coefficient `a[i]`. -/
def co (a : Series X) (i : ℕ) : X := a.getD i o.zero

/-- `for(i=0; i!=n; ++i) { r += t(i); }` -/
def addLoop (r : X) (t : ℕ → X) (n : ℕ) : X := (List.range n).foldl (fun r i => o.add r (t i)) r

/-- `for(i=0; i!=n; ++i) { r -= t(i); }` -/
def subLoop (r : X) (t : ℕ → X) (n : ℕ) : X := (List.range n).foldl (fun r i => o.sub r (t i)) r

/-- `nul`, `graded.hpp` lines 261-264. -/
def nul (r a : Series X) : Option (Series X) :=
  if degree16 r + 1 = degree16 a then some (r ++ [o.zero]) else none

/-- `pos`, `graded.hpp` lines 266-269. -/
def pos (r a : Series X) : Option (Series X) :=
  if degree16 r + 1 = degree16 a then some (r ++ [a.getLastD o.zero]) else none

/-- `neg`, `graded.hpp` lines 271-274. -/
def neg (r a : Series X) : Option (Series X) :=
  if r.length + 1 ≤ a.length then some (r ++ [o.neg (a.getLastD o.zero)]) else none

/-- `hlf`, `graded.hpp` lines 276-279. -/
def hlf (r a : Series X) : Option (Series X) :=
  if degree16 r + 1 = degree16 a then some (r ++ [o.hlf (a.getLastD o.zero)]) else none

/-- `add`, `graded.hpp` lines 281-285. -/
def add (r a1 a2 : Series X) : Option (Series X) :=
  if r.length + 1 = a1.length ∧ r.length + 1 = a2.length then
    some (r ++ [o.add (a1.getLastD o.zero) (a2.getLastD o.zero)])
  else none

/-- `sub`, `graded.hpp` lines 287-291. -/
def sub (r a1 a2 : Series X) : Option (Series X) :=
  if r.length + 1 = a1.length ∧ r.length + 1 = a2.length then
    some (r ++ [o.sub (a1.getLastD o.zero) (a2.getLastD o.zero)])
  else none

/-- `mul`, `graded.hpp` lines 293-302. -/
def mul (r a1 a2 : Series X) : Option (Series X) :=
  if r.length + 1 = a1.length ∧ r.length + 1 = a2.length then
    some (r ++ [addLoop o o.zero (fun i => o.mul (co o a1 i) (co o a2 (r.length - i))) (r.length + 1)])
  else none

/-- `div`, `graded.hpp` lines 304-315. -/
def div (r a1 a2 : Series X) : Option (Series X) :=
  if r.length + 1 = a1.length ∧ r.length + 1 = a2.length then
    some (r ++ [o.div (subLoop o (o.add o.zero (co o a1 r.length))
      (fun i => o.mul (co o a2 (r.length - i)) (co o r i)) r.length) (co o a2 0)])
  else none

/-- `sqr`, `graded.hpp` lines 317-324. -/
def sqr (r a : Series X) : Option (Series X) :=
  if r.length + 1 ≤ a.length then
    some (r ++ [addLoop o o.zero (fun i => o.mul (co o a i) (co o a (r.length - i))) (r.length + 1)])
  else none

/-- `rec`, `graded.hpp` lines 326-335. -/
def recip (r a : Series X) : Option (Series X) :=
  if r.length + 1 ≤ a.length then
    if r.length = 0 then some (r ++ [o.recip (co o a 0)])
    else some (r ++ [o.mul (subLoop o o.zero
      (fun i => o.mul (co o a (r.length - i)) (co o r i)) r.length) (co o r 0)])
  else none

/-- `pow`, `graded.hpp` lines 338-347. -/
def pow (r a : Series X) (n : ℤ) : Option (Series X) :=
  if r.length + 1 ≤ a.length then
    if r.length = 0 then some (r ++ [o.pow (co o a 0) n])
    else some (r ++ [o.div (o.divInt (addLoop o o.zero
      (fun i => o.mul (o.smul (((r.length - i : ℕ) : ℤ) * n - i) (co o a (r.length - i))) (co o r i))
      r.length) r.length) (co o a 0)])
  else none

/-- `sqrt`, `graded.hpp` lines 349-359; the loop starts at `1`. -/
def sqrt (r a : Series X) : Option (Series X) :=
  if r.length + 1 ≤ a.length then
    if r.length = 0 then some (r ++ [o.sqrt (co o a 0)])
    else some (r ++ [o.div (subLoop o (co o a r.length)
      (fun i => o.mul (co o r (r.length - (i + 1))) (co o r (i + 1))) (r.length - 1))
      (o.smul 2 (co o r 0))])
  else none

/-- `exp`, `graded.hpp` lines 361-370. -/
def exp (r a : Series X) : Option (Series X) :=
  if r.length + 1 ≤ a.length then
    if r.length = 0 then some (r ++ [o.add o.zero (o.exp (co o a 0))])
    else some (r ++ [o.divInt (addLoop o o.zero
      (fun i => o.mul (o.smul ((r.length - i : ℕ) : ℤ) (co o a (r.length - i))) (co o r i)) r.length)
      r.length])
  else none

/-- `log`, `graded.hpp` lines 372-385; the loop starts at `1`. -/
def log (r a : Series X) : Option (Series X) :=
  if r.length + 1 ≤ a.length then
    if r.length = 0 then some (r ++ [o.log (co o a 0)])
    else if r.length = 1 then some (r ++ [o.div (co o a 1) (co o a 0)])
    else some (r ++ [o.divInt (o.div (subLoop o (o.add o.zero (o.smul r.length (co o a r.length)))
      (fun i => o.smul ((i + 1 : ℕ) : ℤ) (o.mul (co o a (r.length - (i + 1))) (co o r (i + 1))))
      (r.length - 1)) (co o a 0)) r.length])
  else none

/-- One pass of the outer loop of `sincos`, `graded.hpp` lines 426-433, with `i` the number of
coefficients computed so far.  The code fills the two series with zeros first and overwrites them. -/
def sincosStep (a : Series X) (sc : Series X × Series X) : Series X × Series X :=
  let i := sc.1.length
  (sc.1 ++ [o.divInt (addLoop o o.zero
      (fun j => o.mul (o.smul ((j + 1 : ℕ) : ℤ) (co o a (j + 1))) (co o sc.2 (i - (j + 1)))) i) i],
   sc.2 ++ [o.divInt (addLoop o o.zero
      (fun j => o.mul (o.smul ((j + 1 : ℕ) : ℤ) (co o a (j + 1))) (co o sc.1 (i - (j + 1)))) i) (-i)])

/-- `sincos`, `graded.hpp` lines 415-434. -/
def sincos (a : Series X) : Series X × Series X :=
  (sincosStep o a)^[a.length - 1] ([o.sin (co o a 0)], [o.cos (co o a 0)])

/-- `sin`, `graded.hpp` lines 436-442: all the coefficients are computed again. -/
def sin (r a : Series X) : Option (Series X) :=
  if r.length + 1 ≤ a.length then some (sincos o a).1 else none

/-- `cos`, `graded.hpp` lines 444-450. -/
def cos (r a : Series X) : Option (Series X) :=
  if r.length + 1 ≤ a.length then some (sincos o a).2 else none

/-- `antidifferentiate`, `graded.hpp` lines 504-507; `back()` of an empty series is undefined. -/
def antidifferentiate (r a : Series X) : Option (Series X) :=
  if r.length = a.length ∧ a ≠ [] then some (r ++ [o.divInt (a.getLastD o.zero) r.length]) else none

/-- `mul(c,a)`, `graded.hpp` lines 215-216; `m` multiplies a coefficient by the number. -/
def mulNumLeft (m : X → X) (a : Series X) : Option (Series X) :=
  match a with
  | [] => none
  | x :: l => some (m x :: l)

/-- `mul(a,c)`, `graded.hpp` lines 207-208 and 187-188. -/
def mulNumRight (m : X → X) (a : Series X) : Option (Series X) :=
  match a.getLast? with
  | none => none
  | some x => some (a.dropLast ++ [m x])

/-- `r=op(a)` for a unary operator, `graded.hpp` lines 164-183, 452-466 and 483-485. -/
def unary : UnOp → Series X → Series X → Option (Series X)
  | .nul, r, a => nul o r a
  | .pos, r, a => pos o r a
  | .neg, r, a => neg o r a
  | .sqr, r, a => sqr o r a
  | .hlf, r, a => hlf o r a
  | .recip, r, a => recip o r a
  | .sqrt, r, a => sqrt o r a
  | .exp, r, a => exp o r a
  | .log, r, a => log o r a
  | .sin, r, a => sin o r a
  | .cos, r, a => cos o r a
  | .tan, _, _ => none
  | .asin, _, _ => none
  | .acos, _, _ => none
  | .atan, _, _ => none
  | .abs, _, _ => none

/-- `r=op(a1,a2)` for a binary operator, `graded.hpp` lines 168-171 and 477-482. -/
def binary : BinOp → Series X → Series X → Series X → Option (Series X)
  | .add, r, a, b => add o r a b
  | .sub, r, a, b => sub o r a b
  | .mul, r, a, b => mul o r a b
  | .div, r, a, b => div o r a b
  | .max, _, _, _ => none
  | .min, _, _, _ => none

/-- `make_constant(c,x.zero_element())`, `source/function/formula.hpp` lines 219-220,
`source/algebra/vector.hpp` lines 280-282 and `graded.hpp` lines 97-98 and 108: the zero series with
as many coefficients as the first argument, with the constant as coefficient `0`. -/
def makeConstant (c : Y) (x : List (Series X)) : Option (Series X) :=
  match x with
  | [] => none
  | [] :: _ => none
  | (_ :: l) :: _ => some (o.cst c :: List.replicate l.length o.zero)

/-- `_execute_impl` for graded series, `procedure.tpl.hpp` lines 220-231; `r` is the series with the
result of the instruction so far.  Scalar instructions, which are not produced by the compiler
(`Verif.Procedure.convert`), are not modelled. -/
def execInstr (c : List Y) (x v : List (Series X)) (r : Series X) : Instr → Option (Series X)
  | .const k => (c[k]?).bind fun y => makeConstant o y x
  | .ind i => x[i]?
  | .un op a => (v[a]?).bind fun a => unary o op r a
  | .bin op a b => (v[a]?).bind fun a => (v[b]?).bind fun b => binary o op r a b
  | .graded a n => (v[a]?).bind fun a => pow o r a n
  | .scalar _ _ _ => none

/-- `_execute`, `procedure.tpl.hpp` lines 236-241, from position `r`. -/
def execFrom (c : List Y) (x : List (Series X)) :
    List Instr → ℕ → List (Series X) → Option (List (Series X))
  | [], _, v => some v
  | i :: p, r, v =>
    (v[r]?).bind fun old => (execInstr o c x v old i).bind fun y => execFrom c x p (r + 1) (v.set r y)

/-- The temporaries and the arguments of the procedure: the states, then (unless the equation is
autonomous) time, then the parameters. -/
structure State (X : Type*) where
  tmp : List (Series X)
  yta : List (Series X)

/-- `graded_flow_init`, `integrator.cpp` lines 520-554, given the initial coefficients. -/
def flowInit (P : Proc Y) (init : List X) : State X :=
  ⟨List.replicate P.p.length [], init.map fun a => [a]⟩

/-- The end of `graded_flow_iterate`, `integrator.cpp` lines 568-578. -/
def advance (aut : Bool) : List (Series X) → List (Series X) → Option (List (Series X))
  | f :: fs, y :: ys =>
    (antidifferentiate o y f).bind fun y' => (advance aut fs ys).map (y' :: ·)
  | _ :: _, [] => none
  | [], ys =>
    if aut then some (ys.map fun a => a ++ [o.zero])
    else match ys with
      | [] => none
      | t :: as =>
        some ((t ++ [if t.length = 1 then o.plusOne o.zero else o.zero]) ::
          as.map fun a => a ++ [o.zero])

/-- `graded_flow_iterate`, `integrator.cpp` lines 557-579, with `compute`, `graded.hpp` lines
527-530: evaluate the procedure, which appends a coefficient to every temporary, and integrate. -/
def flowIterate (aut : Bool) (P : Proc Y) (res : List ℕ) (s : State X) : Option (State X) :=
  (execFrom o P.c s.yta P.p 0 s.tmp).bind fun tmp =>
    (res.mapM fun k => tmp[k]?).bind fun fy =>
      (advance o aut fy s.yta).map fun yta => ⟨tmp, yta⟩

/-- The initialisation and the loop of `graded_series_flow_step`, `integrator.cpp` lines 730-736. -/
def flowRun (aut : Bool) (P : Proc Y) (res : List ℕ) (init : List X) : ℕ → Option (State X)
  | 0 => some (flowInit P init)
  | n + 1 => (flowRun aut P res init n).bind fun s => flowIterate o aut P res s

end Ops

end Verif.Graded
