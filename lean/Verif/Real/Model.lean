import Verif.Bounds.Props
import Mathlib.Data.Real.Archimedean

/-!
# Computable real numbers

Model of `source/numeric/real.cpp` (line numbers without a file name refer to it) and `real.hpp`,
`upper_real.hpp`, `lower_real.hpp`, `sequence.hpp`, `accuracy.hpp`.  A real number is an expression,
which can be evaluated with bounds in double precision, in multiple precision, or with dyadic bounds, at a
given effort.

Simplifications: efforts, numbers of bits and indices of sequences are unbounded natural numbers; the
sharing of the double precision bounds computed by the constructors is not modelled (they are computed
again); the operators are arbitrary functions on bounds, which take the rounding of the precision.
`none` is an exception.
-/

namespace Verif.RealNumber

open Ariadne (Ext Bounds XRounding)
open Ariadne.Logical (LV)
open Ariadne.Ext (fin)

/-- `DoublePrecision` and `MultiplePrecision`. -/
inductive Prec
  | dp
  | mp (bits : ℕ)

/-- The roundings of the two formats. -/
abbrev Floats := Prec → XRounding ℝ

/-- An operator object with one argument (`source/numeric/operators.hpp`): the mathematical operation, as a
relation, and the operation on bounds. -/
structure Op1 where
  val : ℝ → ℝ → Prop
  ev : XRounding ℝ → Bounds ℝ → Bounds ℝ

/-- An operator object with two arguments. -/
structure Op2 where
  val : ℝ → ℝ → ℝ → Prop
  ev : XRounding ℝ → Bounds ℝ → Bounds ℝ → Bounds ℝ

/-- An `UpperKleenean`: a proposition, and the results of `check(eff)`. -/
structure Cond where
  truth : Prop
  check : ℕ → LV

/-- The classes implementing `RealInterface`: `RealWrapper<Cnst,X>` (lines 153-160), `RealWrapper<O,A>` (129-135),
`RealWrapper<O,A1,A2>` (137-143), `RealWrapper<Pow,A,N>` (145-151), `RealLimit<Real>` (185-197),
`RealLimit<Dyadic>` (199-211), `RealLimit<DyadicBounds>` (213-225), `WhenRealExpression` (303-315). -/
inductive Re
  | cnst (c : ℝ)
  | un (o : Op1) (a : Re)
  | bin (o : Op2) (a b : Re)
  | power (o : Op1) (a : Re)
  | limR (s : ℕ → Re)
  | limD (s : ℕ → ℝ)
  | limB (s : ℕ → Bounds ℝ)
  | when_ (p q : Cond) (a b : Re)

/-- Rounding an endpoint which may be infinite. -/
noncomputable def roundExt (rnd : ℝ → Ext ℝ) : Ext ℝ → Ext ℝ
  | .fin x => rnd x
  | x => x

/-- `Bounds<F>(Bounds<Dyadic>,pr)` and `Bounds<Dyadic>::get(pr)` (lines 66-67, 81-82; `float_bounds.hpp` lines
117-118): rounded outwards. -/
noncomputable def roundB (R : XRounding ℝ) (b : Bounds ℝ) : Bounds ℝ := ⟨roundExt R.down b.l, roundExt R.up b.u⟩

/-- `Bounds<F>(Dyadic,Dyadic,pr)` (`float_bounds.hpp` line 112). -/
noncomputable def ofEnds (R : XRounding ℝ) (l u : ℝ) : Bounds ℝ := ⟨R.down l, R.up u⟩

/-- `Bounds<Dyadic>::pm` (`dyadic.hpp` line 280), exact. -/
noncomputable def pmD (b : Bounds ℝ) (e : ℝ) : Bounds ℝ := ⟨Ext.sub fin b.l (fin e), Ext.add fin b.u (fin e)⟩

/-- `Dyadic(two^(-n))`: `-n` is an unsigned integer which `operator^` converts back to the negative number
(`twoexp.hpp` line 78). -/
noncomputable def twoNeg (n : ℕ) : ℝ := (2 : ℝ) ^ (-(n : ℤ))

/-- `+two^(-n)` (lines 192, 194).  Unary plus binds more tightly than `^`; `Two` is derived from
`std::integral_constant<uint,2u>` (`twoexp.hpp` lines 70-72) and has no unary plus of its own, so that `+two` is the
`unsigned int` 2 and `^` the bitwise exclusive or of 32-bit numbers. -/
def xorTerm (n : ℕ) : ℕ := Nat.xor 2 ((2 ^ 32 - n % 2 ^ 32) % 2 ^ 32)

/-- Whether an endpoint is NaN. -/
def hasNaN (b : Bounds ℝ) : Bool :=
  match b.l, b.u with
  | .nan, _ => true
  | _, .nan => true
  | _, _ => false

/-- With `st = false` nothing is tested, as in the code.  With `st = true` bounds with a NaN are refused, so
that a result means that no NaN arose; this is used to state the theorems. -/
def chk (st : Bool) (b : Bounds ℝ) : Option (Bounds ℝ) := if st && hasNaN b then none else some b

/-- `RealInterface` (`real_interface.hpp` lines 52-62): `_compute_get(eff,pr)` and `_compute_get(eff)`. -/
structure Ev where
  flt : Prec → ℕ → Option (Bounds ℝ)
  dy : ℕ → Option (Bounds ℝ)

/-- `Real::get(pr)` (lines 453-454): the effort is zero in double precision, and the number of bits otherwise. -/
def Ev.get (A : Ev) : Prec → Option (Bounds ℝ)
  | .dp => A.flt .dp 0
  | .mp p => A.flt (.mp p) p

/-- `RealExpressionBase::_compute_get(Effort)` (lines 119-122): double precision for small efforts, otherwise 16 bits
for each unit of effort. -/
def exprDy (f : Prec → ℕ → Option (Bounds ℝ)) (e : ℕ) : Option (Bounds ℝ) :=
  if e * 16 ≤ 52 then f .dp e else f (.mp (e * 16)) e

/-- The evaluation of the arguments of `WhenRealExpression::_compute_get` (lines 319-337); the loop returns in its
first iteration. -/
noncomputable def whenDy (st : Bool) (p q : Cond) (A B : Ev) (e : ℕ) : Option (Bounds ℝ) :=
  if !((p.check e).possibly) && !((q.check e).possibly) then none
  else if !((p.check e).possibly) then B.dy e
  else if !((q.check e).possibly) then A.dy e
  else (A.dy e).bind fun w1 => (B.dy e).bind fun w2 => chk st (Bounds.coarsening w1 w2)

/-- The virtual functions of the classes (lines 129-160, 185-225, 303-337).  With `st = true` a limit is also refused for
the one effort (modulo `2^32`) at which the wrongly computed upper bound of the error is zero. -/
noncomputable def Re.ev (fl : Floats) (st : Bool) : Re → Ev
  | .cnst c =>
    let f := fun (pr : Prec) (_ : ℕ) => chk st (Bounds.ofExact (fl pr) c)
    ⟨f, exprDy f⟩
  | .un o a =>
    let A := a.ev fl st
    let f := fun (pr : Prec) (_ : ℕ) => (A.get pr).bind fun x => chk st (o.ev (fl pr) x)
    ⟨f, exprDy f⟩
  | .bin o a b =>
    let A := a.ev fl st
    let B := b.ev fl st
    let f := fun (pr : Prec) (e : ℕ) =>
      match pr with
      | .dp => (A.get pr).bind fun x => (B.get pr).bind fun y => chk st (o.ev (fl pr) x y)
      | .mp _ => (A.flt pr e).bind fun x => (B.flt pr e).bind fun y => chk st (o.ev (fl pr) x y)
    ⟨f, exprDy f⟩
  | .power o a =>
    let A := a.ev fl st
    let f := fun (pr : Prec) (e : ℕ) =>
      match pr with
      | .dp => (A.get pr).bind fun x => chk st (o.ev (fl pr) x)
      | .mp _ => (A.flt pr e).bind fun x => chk st (o.ev (fl pr) x)
    ⟨f, exprDy f⟩
  | .limR s =>
    ⟨fun pr e => (((s (e + 1)).ev fl st).flt pr e).bind fun x =>
        if st && xorTerm (e + 1) == 0 then none
        else chk st (Bounds.add (fl pr) x (ofEnds (fl pr) (-twoNeg (e + 1)) (xorTerm (e + 1)))),
      fun e => (((s (e + 1)).ev fl st).dy e).bind fun x => chk st (pmD x (twoNeg (e + 1)))⟩
  | .limD s =>
    let d := fun e : ℕ => (⟨fin (s (e + 1) - twoNeg (e + 1)), fin (s (e + 1) + twoNeg (e + 1))⟩ : Bounds ℝ)
    ⟨fun pr e => chk st (roundB (fl pr) (d e)), fun e => some (d e)⟩
  | .limB s => ⟨fun pr e => chk st (roundB (fl pr) (s e)), fun e => chk st (s e)⟩
  | .when_ p q a b =>
    let d := whenDy st p q (a.ev fl st) (b.ev fl st)
    ⟨fun pr _ => match pr with
      | .dp => (d 0).bind fun x => chk st (roundB (fl pr) x)
      | .mp bits => (d bits).bind fun x => chk st (roundB (fl pr) x), d⟩

/-! ## Accuracy -/

/-- `hlf(res.upper_raw()-res.lower_raw())` (line 102), exact; infinite for infinite bounds. -/
noncomputable def halfWidth (b : Bounds ℝ) : Ext ℝ := Ext.hlf (Ext.sub fin b.u b.l)

/-- The loop of `RealBase::_compute(Accuracy)` (lines 95-106) with effort `e`, as far as `fuel` iterations; `none`
means that it still runs (or an exception). -/
noncomputable def accLoop (d : ℕ → Option (Bounds ℝ)) (err : ℝ) : ℕ → ℕ → Option (Bounds ℝ)
  | 0, _ => none
  | k + 1, e => (d e).bind fun b => if Ext.lt (halfWidth b) (fin err) then some b else accLoop d err k (e + 1)

/-- `compute(Accuracy)` returns `b`.  The test before the first iteration, `2*err < err`, fails for `err ≥ 0`. -/
def ComputesTo (d : ℕ → Option (Bounds ℝ)) (err : ℝ) (b : Bounds ℝ) : Prop := ∃ k, accLoop d err k 1 = some b

/-! ## Comparisons (`dyadic.hpp` lines 319-332), `check_sgn` (lines 502-507) -/

/-- `sgn(DyadicBounds)` (`dyadic.hpp` lines 319-320) and `check_sgn` (lines 502-507). -/
noncomputable def sgnD (x : Bounds ℝ) : LV :=
  if Ext.lt (fin 0) x.l then .true_ else if Ext.lt x.u (fin 0) then .false_ else .indeterminate

/-- `operator==(DyadicBounds,DyadicBounds)` (`dyadic.hpp` lines 321-322). -/
noncomputable def eqD (x y : Bounds ℝ) : LV :=
  if Ext.le y.u x.l && Ext.le x.u y.l then .true_
  else if Ext.lt x.u y.l || Ext.lt y.u x.l then .false_ else .indeterminate

/-- `operator!=(DyadicBounds,DyadicBounds)` (`dyadic.hpp` lines 323-324). -/
noncomputable def neD (x y : Bounds ℝ) : LV :=
  if Ext.lt x.u y.l || Ext.lt y.u x.l then .true_
  else if Ext.le y.u x.l && Ext.le x.u y.l then .false_ else .indeterminate

/-- `operator<=(DyadicBounds,DyadicBounds)` (`dyadic.hpp` lines 325-326). -/
noncomputable def leD (x y : Bounds ℝ) : LV :=
  if Ext.le x.u y.l then .true_ else if Ext.lt y.u x.l then .false_ else .indeterminate

/-- `operator>=(DyadicBounds,DyadicBounds)` (`dyadic.hpp` lines 327-328). -/
noncomputable def geD (x y : Bounds ℝ) : LV :=
  if Ext.le y.u x.l then .true_ else if Ext.lt x.u y.l then .false_ else .indeterminate

/-- `operator<(DyadicBounds,DyadicBounds)` (`dyadic.hpp` lines 329-330). -/
noncomputable def ltD (x y : Bounds ℝ) : LV :=
  if Ext.lt x.u y.l then .true_ else if Ext.le y.u x.l then .false_ else .indeterminate

/-- `operator>(DyadicBounds,DyadicBounds)` (`dyadic.hpp` lines 331-332). -/
noncomputable def gtD (x y : Bounds ℝ) : LV :=
  if Ext.lt y.u x.l then .true_ else if Ext.le x.u y.l then .false_ else .indeterminate

/-- `LogicalWrapper<O,Real,Real>::_check` (lines 415-416). -/
noncomputable def compare (op : Bounds ℝ → Bounds ℝ → LV) (A B : Ev) (e : ℕ) : Option LV :=
  (A.dy e).bind fun x => (B.dy e).map fun y => op x y

/-- `LogicalWrapper<O,Real>::_check` (lines 398-399) for `sgn`, and `check_sgn` (lines 502-507). -/
noncomputable def checkSgn (A : Ev) (e : ℕ) : Option LV := (A.dy e).map sgnD

/-- `nondeterministic_greater` (lines 346-353; the precondition `a<b` is a hypothesis of the theorems): the loop with effort `e`, as far as `fuel` iterations. -/
noncomputable def greaterLoop (d : ℕ → Option (Bounds ℝ)) (a b : ℝ) : ℕ → ℕ → Option Bool
  | 0, _ => none
  | k + 1, e => (d e).bind fun x =>
    if Ext.lt (fin a) x.l then some true else if Ext.lt x.u (fin b) then some false else greaterLoop d a b k (e + 1)

/-- `nondeterministic_greater(r,a,b)` returns `v`. -/
def Greater (d : ℕ → Option (Bounds ℝ)) (a b : ℝ) (v : Bool) : Prop := ∃ k, greaterLoop d a b k 0 = some v

/-- `same` (lines 374-380); `FloatDPBounds(r,pr)` computes with effort 53 (line 70). -/
noncomputable def same (A B : Ev) : Option Bool :=
  (A.flt .dp 53).bind fun x => (B.flt .dp 53).map fun y => Ext.eq x.l y.u && Ext.eq x.u y.l

/-- `round(Real)` (lines 447-450) rounds the midpoint of bounds of accuracy 1/2; `near` is `round(Dyadic)`. -/
def RoundsTo (d : ℕ → Option (Bounds ℝ)) (near : ℝ → ℤ) (z : ℤ) : Prop :=
  ∃ l u : ℝ, ComputesTo d (1 / 2) ⟨fin l, fin u⟩ ∧ z = near ((l + u) / 2)

/-- `LowerReal::compute_get(eff)` (lines 521-523). -/
noncomputable def lowerGet (A : Ev) (e : ℕ) : Option (Ext ℝ) := (A.dy e).map Bounds.l

/-- `UpperReal::compute_get(eff)` (lines 548-550). -/
noncomputable def upperGet (A : Ev) (e : ℕ) : Option (Ext ℝ) := (A.dy e).map Bounds.u

/-! ## Operators -/

/-- `Pos`, `Neg`, `Hlf`, `Sqr`, `Rec`, `Abs` on bounds (lines 278-282, 293; the models of `Bounds` cite the code). -/
noncomputable def opPos : Op1 := ⟨fun x y => y = x, fun _ X => Bounds.pos X⟩
noncomputable def opNeg : Op1 := ⟨fun x y => y = -x, fun _ X => Bounds.neg X⟩
noncomputable def opHlf : Op1 := ⟨fun x y => y = x / 2, fun _ X => Bounds.hlf X⟩
noncomputable def opSqr : Op1 := ⟨fun x y => y = x ^ 2, fun R X => Bounds.sqr R X⟩
noncomputable def opRec : Op1 := ⟨fun x y => x ≠ 0 ∧ y = 1 / x, fun R X => Bounds.recip R X⟩
noncomputable def opAbs : Op1 := ⟨fun x y => y = |x|, fun _ X => Bounds.abs X⟩
/-- `Pow` with an integer exponent (lines 275-276). -/
noncomputable def opPow (n : ℤ) : Op1 := ⟨fun x y => (n < 0 → x ≠ 0) ∧ y = x ^ n, fun R X => Bounds.powInt R X n⟩
/-- `Add`, `Sub`, `Mul`, `Div`, `Max`, `Min` on bounds (lines 271-274, 294-295). -/
noncomputable def opAdd : Op2 := ⟨fun x y z => z = x + y, fun R X Y => Bounds.add R X Y⟩
noncomputable def opSub : Op2 := ⟨fun x y z => z = x - y, fun R X Y => Bounds.sub R X Y⟩
noncomputable def opMul : Op2 := ⟨fun x y z => z = x * y, fun R X Y => Bounds.mul R X Y⟩
noncomputable def opDiv : Op2 := ⟨fun x y z => y ≠ 0 ∧ z = x / y, fun R X Y => Bounds.div R X Y⟩
noncomputable def opMax : Op2 := ⟨fun x y z => z = max x y, fun _ X Y => Bounds.max X Y⟩
noncomputable def opMin : Op2 := ⟨fun x y z => z = min x y, fun _ X Y => Bounds.min X Y⟩

end Verif.RealNumber
