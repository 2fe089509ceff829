import Verif.Bounds.Model
import Mathlib.Algebra.Order.Floor.Defs

/-!
# Upper bounds, lower bounds and errors

Model of `UpperBound<F>`, `LowerBound<F>`, their positive versions and `Error<F>` (source/numeric/float_upper_bound.hpp,
float_lower_bound.hpp, float_error.hpp).  Each of them has one datum, so it is an `Ext K` here; the role is in the names of
the operations.  Not modelled: square roots, exponentials and logarithms, which call the rounded functions of C85 and
C86, conversions to approximations, input and output.
-/

namespace Ariadne.Directed

open Ext (fin)
open Logical (LV)

variable {K : Type*} [Field K] [LinearOrder K] [IsStrictOrderedRing K]

/-- `pow_rnd(double,Int)` (source/numeric/double.cpp 116-122); `none`: the assertion fails -/
def powInt (rnd : K → Ext K) (x : Ext K) (n : ℤ) : Option (Ext K) :=
  if 0 ≤ n then some (Ext.pow rnd x n.toNat)
  else if Ext.eq x (fin 0) then none
  else if Ext.lt (fin 0) x || n.tmod 2 == -1 then some (Ext.pow rnd (Ext.div rnd (fin 1) x) (-n).toNat)
  else some (Ext.pow rnd (Ext.div rnd (fin (-1)) x) (-n).toNat)

/-- `static_cast<Int>(m)` for a `Nat` of 32 bits -/
def toInt (m : ℕ) : ℤ := if m % 2 ^ 32 < 2 ^ 31 then (m % 2 ^ 32 : ℕ) else (m % 2 ^ 32 : ℕ) - 2 ^ 32

/-- `fma(rnd,x,y,z)` (floatdp.hpp 392): rounded once for finite arguments -/
def fmaExt (rnd : K → Ext K) : Ext K → Ext K → Ext K → Ext K
  | fin x, fin y, fin z => rnd (x * y + z)
  | x, y, z => Ext.add rnd (Ext.mul rnd x y) z

variable (R : XRounding K)

namespace Upper

/-- `UpperBound(Y,PR)` for exact numbers (float_upper_bound.hpp 75-78) -/
def ofExact (y : K) : Ext K := R.up y
/-- `UpperBound(Bounds)` (float_upper_bound.hpp 89) -/
def ofBounds (x : Bounds K) : Ext K := x.u
/-- float_upper_bound.hpp 154-155 -/
def nul (_ : Ext K) : Ext K := fin 0
/-- float_upper_bound.hpp 156-157 -/
def pos (x : Ext K) : Ext K := x
/-- `neg(UpperBound)`, a lower bound (float_upper_bound.hpp 158-159) -/
def neg (x : Ext K) : Ext K := x.neg
/-- float_upper_bound.hpp 160-161 -/
def hlf (x : Ext K) : Ext K := x.hlf
/-- float_upper_bound.hpp 163-164 -/
def add (x1 x2 : Ext K) : Ext K := Ext.add R.up x1 x2
/-- `sub(UpperBound,LowerBound)` (float_upper_bound.hpp 165-166) -/
def sub (x1 x2 : Ext K) : Ext K := Ext.sub R.up x1 x2
/-- float_upper_bound.hpp 180-181 -/
def max (x1 x2 : Ext K) : Ext K := Ext.max x1 x2
/-- float_upper_bound.hpp 182-183 -/
def min (x1 x2 : Ext K) : Ext K := Ext.min x1 x2
/-- `eq(UpperBound,LowerBound)` (float_upper_bound.hpp 190-192) -/
def eq (x1 x2 : Ext K) : LV := if Ext.lt x1 x2 then .false_ else .indeterminate
/-- `lt(UpperBound,LowerBound)` (float_upper_bound.hpp 193-195) -/
def lt (x1 x2 : Ext K) : LV := if Ext.lt x1 x2 then .true_ else .unlikely
/-- `operator!=` (arithmetic.hpp 699) -/
def ne (x1 x2 : Ext K) : LV := (eq x1 x2).not_
/-- `UpperBound >= LowerBound` and `LowerBound <= UpperBound` (arithmetic.hpp 702-703) -/
def ge (x1 x2 : Ext K) : LV := (lt x1 x2).not_
/-- `cast_integer` (float_upper_bound.hpp 200-201); `none`: infinities and NaN are not converted -/
def castInteger [FloorRing K] : Ext K → Option ℤ
  | fin x => some ⌈x⌉
  | _ => none
/-- float_upper_bound.hpp 211-212 -/
def same (x1 x2 : Ext K) : Bool := Ext.eq x1 x2
/-- float_upper_bound.hpp 213-214 -/
def refines (x1 x2 : Ext K) : Bool := Ext.le x1 x2
/-- float_upper_bound.hpp 215-216 -/
def refinement (x1 x2 : Ext K) : Ext K := Ext.min x1 x2
/-- `PositiveBounds * UpperBound` (float_upper_bound.hpp 230-233) -/
def mulBounds (x1 : Bounds K) (x2 : Ext K) : Ext K :=
  Ext.mul R.up (if Ext.le (fin 0) x2 then x1.u else x1.l) x2
/-- `UpperBound / PositiveBounds` (float_upper_bound.hpp 234-235) -/
def divBounds (x1 : Ext K) (x2 : Bounds K) : Ext K :=
  Ext.div R.up x1 (if Ext.le (fin 0) x1 then x2.l else x2.u)
/-- `Positive<F> * UpperBound` (float_upper_bound.hpp 237-240) -/
def mulPos (x1 : K) (x2 : Ext K) : Ext K := Ext.mul R.up (fin x1) x2
/-- `UpperBound / Positive<F>` (float_upper_bound.hpp 241-242) -/
def divPos (x1 : Ext K) (x2 : K) : Ext K := Ext.div R.up x1 (fin x2)

end Upper

namespace Lower

/-- `LowerBound(Y,PR)` for exact numbers (float_lower_bound.hpp 75-78) -/
def ofExact (y : K) : Ext K := R.down y
/-- `LowerBound(Bounds)` (float_lower_bound.hpp 89) -/
def ofBounds (x : Bounds K) : Ext K := x.l
/-- float_lower_bound.hpp 154-155 -/
def nul (_ : Ext K) : Ext K := fin 0
/-- float_lower_bound.hpp 156-157 -/
def pos (x : Ext K) : Ext K := x
/-- `neg(LowerBound)`, an upper bound (float_lower_bound.hpp 158-159) -/
def neg (x : Ext K) : Ext K := x.neg
/-- float_lower_bound.hpp 160-161 -/
def hlf (x : Ext K) : Ext K := x.hlf
/-- float_lower_bound.hpp 163-164 -/
def add (x1 x2 : Ext K) : Ext K := Ext.add R.down x1 x2
/-- `sub(LowerBound,UpperBound)` (float_lower_bound.hpp 167-168) -/
def sub (x1 x2 : Ext K) : Ext K := Ext.sub R.down x1 x2
/-- float_lower_bound.hpp 187-188 -/
def max (x1 x2 : Ext K) : Ext K := Ext.max x1 x2
/-- float_lower_bound.hpp 189-190 -/
def min (x1 x2 : Ext K) : Ext K := Ext.min x1 x2
/-- `eq(LowerBound,UpperBound)` (float_lower_bound.hpp 195-197) -/
def eq (x1 x2 : Ext K) : LV := if Ext.lt x2 x1 then .false_ else .indeterminate
/-- `lt(LowerBound,UpperBound)` (float_lower_bound.hpp 198-200) -/
def lt (x1 x2 : Ext K) : LV := if Ext.le x2 x1 then .false_ else .likely
/-- `LowerBound >= UpperBound` and `UpperBound <= LowerBound` (arithmetic.hpp 702-703) -/
def ge (x1 x2 : Ext K) : LV := (lt x1 x2).not_
/-- `cast_integer` (float_lower_bound.hpp 205-206) -/
def castInteger [FloorRing K] : Ext K → Option ℤ
  | fin x => some ⌊x⌋
  | _ => none
/-- float_lower_bound.hpp 217-218 -/
def same (x1 x2 : Ext K) : Bool := Ext.eq x1 x2
/-- float_lower_bound.hpp 219-220 -/
def refines (x1 x2 : Ext K) : Bool := Ext.le x2 x1
/-- float_lower_bound.hpp 221-222 -/
def refinement (x1 x2 : Ext K) : Ext K := Ext.max x1 x2
/-- `PositiveBounds * LowerBound` (float_lower_bound.hpp 236-239) -/
def mulBounds (x1 : Bounds K) (x2 : Ext K) : Ext K :=
  Ext.mul R.down (if Ext.le (fin 0) x2 then x1.l else x1.u) x2
/-- `LowerBound / PositiveBounds` (float_lower_bound.hpp 240-241) -/
def divBounds (x1 : Ext K) (x2 : Bounds K) : Ext K :=
  Ext.div R.down x1 (if Ext.le (fin 0) x1 then x2.u else x2.l)
/-- `Positive<F> * LowerBound` (float_lower_bound.hpp 243-246) -/
def mulPos (x1 : K) (x2 : Ext K) : Ext K := Ext.mul R.down (fin x1) x2
/-- `LowerBound / Positive<F>` (float_lower_bound.hpp 247-248) -/
def divPos (x1 : Ext K) (x2 : K) : Ext K := Ext.div R.down x1 (fin x2)

end Lower

namespace PUpper

/-- `Positive(UpperBound)` and `cast_positive` (float_upper_bound.hpp 267, 351-352); `none`: the precondition fails -/
def cast (x : Ext K) : Option (Ext K) := if Ext.lt x (fin 0) then none else some x
/-- float_upper_bound.hpp 276-277 -/
def sqr (x : Ext K) : Ext K := Ext.mul R.up x x
/-- `rec(PositiveLowerBound)` (float_upper_bound.hpp 278-279) -/
def recip (x : Ext K) : Ext K := Ext.recip R.up x
/-- float_upper_bound.hpp 280-281, 318-319 -/
def add (x1 x2 : Ext K) : Ext K := Ext.add R.up x1 x2
/-- float_upper_bound.hpp 282-283, 320-321 -/
def mul (x1 x2 : Ext K) : Ext K := Ext.mul R.up x1 x2
/-- `PositiveUpperBound / PositiveLowerBound` (float_upper_bound.hpp 284-285, 322-323) -/
def div (x1 x2 : Ext K) : Ext K := Ext.div R.up x1 x2
/-- float_upper_bound.hpp 286-291 -/
def max (x1 x2 : Ext K) : Ext K := Ext.max x1 x2
/-- float_upper_bound.hpp 292-293 -/
def min (x1 x2 : Ext K) : Ext K := Ext.min x1 x2
/-- `pow(PositiveUpperBound,Nat)` (float_upper_bound.hpp 298-299) -/
def pow (x : Ext K) (m : ℕ) : Option (Ext K) := powInt R.up x (toInt m)
/-- `PositiveBounds * PositiveUpperBound` (float_upper_bound.hpp 332-335) -/
def mulBounds (x1 : Bounds K) (x2 : Ext K) : Ext K := Ext.mul R.up x1.u x2
/-- `PositiveUpperBound / PositiveBounds` (float_upper_bound.hpp 336-337) -/
def divBounds (x1 : Ext K) (x2 : Bounds K) : Ext K := Ext.div R.up x1 x2.l
/-- `Positive<F> / PositiveLowerBound` (float_upper_bound.hpp 344-345), transcribed as written: rounded down -/
def exactDiv (x1 : K) (x2 : Ext K) : Ext K := Ext.div R.down (fin x1) x2
/-- `PositiveUpperBound / Nat` (float_upper_bound.hpp 346-347); the number of 32 bits is stored exactly -/
def divNat (x1 : Ext K) (m2 : ℕ) : Ext K := Ext.div R.up x1 (fin m2)

end PUpper

namespace PLower

/-- `Positive(LowerBound)` and `cast_positive` (float_lower_bound.hpp 273, 342-343): nothing is checked -/
def cast (x : Ext K) : Ext K := x
/-- float_lower_bound.hpp 282-283 -/
def sqr (x : Ext K) : Ext K := Ext.mul R.down x x
/-- `rec(PositiveUpperBound)` (float_lower_bound.hpp 284-285) -/
def recip (x : Ext K) : Ext K := Ext.recip R.down x
/-- float_lower_bound.hpp 286-287, 309-310 -/
def add (x1 x2 : Ext K) : Ext K := Ext.add R.down x1 x2
/-- float_lower_bound.hpp 288-289, 311-312 -/
def mul (x1 x2 : Ext K) : Ext K := Ext.mul R.down x1 x2
/-- `div(PositiveLowerBound,PositiveUpperBound)` (float_lower_bound.hpp 290-291) -/
def div (x1 x2 : Ext K) : Ext K := Ext.div R.down x1 x2
/-- `operator/(PositiveLowerBound,PositiveUpperBound)` (float_lower_bound.hpp 313-314), transcribed as written: it multiplies -/
def opDiv (x1 x2 : Ext K) : Ext K := Ext.mul R.down x1 x2
/-- float_lower_bound.hpp 292-297 -/
def max (x1 x2 : Ext K) : Ext K := Ext.max x1 x2
/-- float_lower_bound.hpp 298-299 -/
def min (x1 x2 : Ext K) : Ext K := Ext.min x1 x2
/-- `pow(PositiveLowerBound,Nat)` (float_lower_bound.hpp 304-305) -/
def pow (x : Ext K) (m : ℕ) : Option (Ext K) := powInt R.down x (toInt m)
/-- `PositiveBounds * PositiveLowerBound` (float_lower_bound.hpp 323-326) -/
def mulBounds (x1 : Bounds K) (x2 : Ext K) : Ext K := Ext.mul R.down x1.l x2
/-- `PositiveLowerBound / PositiveBounds` (float_lower_bound.hpp 327-328) -/
def divBounds (x1 : Ext K) (x2 : Bounds K) : Ext K := Ext.div R.down x1 x2.u
/-- `Positive<F> / PositiveUpperBound` (float_lower_bound.hpp 335-336) -/
def exactDiv (x1 : K) (x2 : Ext K) : Ext K := Ext.div R.down (fin x1) x2
/-- `PositiveLowerBound / Nat` (float_lower_bound.hpp 337-338) -/
def divNat (x1 : Ext K) (m2 : ℕ) : Ext K := Ext.div R.down x1 (fin m2)

end PLower

namespace Error

/-- `Error(F)` and `Error(UpperBound)` (float_error.hpp 78, 81); `none`: the precondition fails -/
def ofExt (e : Ext K) : Option (Ext K) := if Ext.lt e (fin 0) then none else some e
/-- `pm(Error)` (float_error.hpp 93) -/
def pm (e : Ext K) : Bounds K := ⟨e.neg, e⟩
/-- float_error.hpp 108, 124, 147-148, 152-153 and 157-158 -/
def add (e1 e2 : Ext K) : Ext K := Ext.add R.up e1 e2
/-- float_error.hpp 109, 125, 149-150, 154-155 and 159-160 -/
def mul (e1 e2 : Ext K) : Ext K := Ext.mul R.up e1 e2
/-- `F + Error` (float_error.hpp 115) -/
def exactAdd (x1 : K) (e2 : Ext K) : Ext K := Ext.add R.up (fin x1) e2
/-- `F - Error` (float_error.hpp 116) -/
def exactSub (x1 : K) (e2 : Ext K) : Ext K := Ext.sub R.down (fin x1) e2
/-- float_error.hpp 126 -/
def sqr (e : Ext K) : Ext K := Ext.mul R.up e e
/-- float_error.hpp 127 -/
def pow (e : Ext K) (m : ℕ) : Option (Ext K) := powInt R.up e (toInt m)
/-- float_error.hpp 128 -/
def fma (e1 e2 e3 : Ext K) : Ext K := fmaExt R.up e1 e2 e3
/-- float_error.hpp 141 -/
def max (e1 e2 : Ext K) : Ext K := Ext.max e1 e2
/-- float_error.hpp 142 -/
def min (e1 e2 : Ext K) : Ext K := Ext.min e1 e2
/-- `Error / PositiveLowerBound` (float_error.hpp 162) -/
def div (e1 x2 : Ext K) : Ext K := Ext.div R.up e1 x2
/-- float_error.hpp 164-165 -/
def addNat (e1 : Ext K) (m2 : ℕ) : Ext K := Ext.add R.up e1 (R.up m2)
/-- float_error.hpp 166-167 -/
def mulNat (e1 : Ext K) (m2 : ℕ) : Ext K := Ext.mul R.up e1 (R.up m2)
/-- float_error.hpp 168 -/
def divNat (e1 : Ext K) (m2 : ℕ) : Ext K := Ext.div R.up e1 (R.down m2)
/-- `PositiveBounds - Error` (float_error.hpp 171) -/
def boundsSub (x1 : Bounds K) (e2 : Ext K) : Ext K := Ext.sub R.down x1.l e2

end Error

end Ariadne.Directed
