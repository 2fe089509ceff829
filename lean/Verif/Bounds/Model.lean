import Verif.Rounding.Props
import Verif.Logical.Model

/-!
# Floating-point bounds

Model of `Bounds<F>` (source/numeric/float_bounds.hpp, float_bounds.tpl.hpp,
float_bounds.inl.hpp) over floating-point numbers with infinities and NaN.
-/

namespace Ariadne

open Logical (LV)

/-- A floating-point datum: a number, an infinity or NaN
(`FloatDP`, source/numeric/floatdp.hpp 110-160; `FloatMP`,
source/numeric/floatmp.hpp 110-190).  Simplification: one unsigned zero. -/
inductive Ext (K : Type*) where
  | ninf
  | fin (x : K)
  | pinf
  | nan
deriving DecidableEq

namespace Ext

variable {K : Type*} [Field K] [LinearOrder K]

/-- IEEE `<=`, false when an argument is NaN (floatdp.hpp 310-311, 414-440). -/
def le : Ext K → Ext K → Bool
  | nan, _ => false
  | _, nan => false
  | ninf, _ => true
  | _, pinf => true
  | fin x, fin y => decide (x ≤ y)
  | _, _ => false

/-- IEEE `<` (floatdp.hpp 310-311, 414-440). -/
def lt : Ext K → Ext K → Bool
  | nan, _ => false
  | _, nan => false
  | ninf, ninf => false
  | ninf, _ => true
  | fin _, ninf => false
  | fin x, fin y => decide (x < y)
  | fin _, pinf => true
  | pinf, _ => false

/-- IEEE `==` (floatdp.hpp 310-311, 414-440). -/
def eq : Ext K → Ext K → Bool
  | nan, _ => false
  | _, nan => false
  | ninf, ninf => true
  | fin x, fin y => decide (x = y)
  | pinf, pinf => true
  | _, _ => false

/-- `neg` is exact (floatdp.hpp 266, 386). -/
def neg : Ext K → Ext K
  | ninf => pinf
  | fin x => fin (-x)
  | pinf => ninf
  | nan => nan

/-- `add(rnd,x,y)` (floatdp.hpp 388). -/
def add (rnd : K → Ext K) : Ext K → Ext K → Ext K
  | nan, _ => nan
  | _, nan => nan
  | fin x, fin y => rnd (x + y)
  | ninf, pinf => nan
  | pinf, ninf => nan
  | ninf, _ => ninf
  | _, ninf => ninf
  | pinf, _ => pinf
  | _, pinf => pinf

/-- `sub(rnd,x,y)` (floatdp.hpp 389). -/
def sub (rnd : K → Ext K) (a b : Ext K) : Ext K := add rnd a (neg b)

/-- An infinity with the sign of `s`, NaN when `s = 0`. -/
def infSign (s : K) : Ext K := if 0 < s then pinf else if s < 0 then ninf else nan

/-- `mul(rnd,x,y)` (floatdp.hpp 390); `0 * inf` is NaN. -/
def mul (rnd : K → Ext K) : Ext K → Ext K → Ext K
  | nan, _ => nan
  | _, nan => nan
  | fin x, fin y => rnd (x * y)
  | fin x, pinf => infSign x
  | fin x, ninf => infSign (-x)
  | pinf, fin y => infSign y
  | ninf, fin y => infSign (-y)
  | pinf, pinf => pinf
  | ninf, ninf => pinf
  | pinf, ninf => ninf
  | ninf, pinf => ninf

/-- `div(rnd,x,y)` (floatdp.hpp 391).  Division by zero, whose result depends on
the sign of the zero, is given the worst value NaN. -/
def div (rnd : K → Ext K) : Ext K → Ext K → Ext K
  | nan, _ => nan
  | _, nan => nan
  | fin x, fin y => if y = 0 then nan else rnd (x / y)
  | fin _, pinf => fin 0
  | fin _, ninf => fin 0
  | pinf, fin y => infSign y
  | ninf, fin y => infSign (-y)
  | pinf, pinf => nan
  | ninf, ninf => nan
  | pinf, ninf => nan
  | ninf, pinf => nan

/-- `rec(rnd,x)` (floatdp.hpp 396). -/
def recip (rnd : K → Ext K) (x : Ext K) : Ext K := div rnd (fin 1) x

/-- `hlf(x)` (floatdp.hpp 267), exact while the exponent does not underflow. -/
def hlf : Ext K → Ext K
  | fin x => fin (x / 2)
  | x => x

/-- `std::max(x,y) = (x<y) ? y : x` (floatdp.hpp 302). -/
def max (x y : Ext K) : Ext K := if lt x y then y else x

/-- `std::min(x,y) = (y<x) ? y : x` (floatdp.hpp 303). -/
def min (x y : Ext K) : Ext K := if lt y x then y else x

/-- `std::abs` (source/numeric/double.cpp 111). -/
def abs : Ext K → Ext K
  | fin x => fin |x|
  | ninf => pinf
  | x => x

/-- The loop for a positive base in `pow_rnd` (source/numeric/double.cpp 111):
`while(m) { if(m%2) { r=r*p; } p=p*p; m/=2; }`. -/
def powPosLoop (rnd : K → Ext K) (m : ℕ) (r p : Ext K) : Ext K :=
  if h : m = 0 then r
  else powPosLoop rnd (m / 2) (if m % 2 = 1 then mul rnd r p else r) (mul rnd p p)
termination_by m
decreasing_by omega

/-- The loop for a negative base and an odd power (double.cpp 112):
`while(m) { if(m%2) { r=(-r)*p; } p=(-p)*p; m/=2; }`. -/
def powNegLoop (rnd : K → Ext K) (m : ℕ) (r p : Ext K) : Ext K :=
  if h : m = 0 then r
  else powNegLoop rnd (m / 2) (if m % 2 = 1 then mul rnd (neg r) p else r)
    (mul rnd (neg p) p)
termination_by m
decreasing_by omega

/-- `pow_rnd(double,Nat)` (double.cpp 105-113). -/
def pow (rnd : K → Ext K) (x : Ext K) (m : ℕ) : Ext K :=
  if m = 0 then fin 1
  else if eq x (fin 0) then fin 0
  else if lt (fin 0) x || m % 2 == 0 then powPosLoop rnd m (fin 1) (abs x)
  else powNegLoop rnd m (fin (-1)) x

end Ext

/-- Directed rounding with overflow: the exact result `x` of an operation is
replaced by a floating-point datum (floatdp.hpp 370-410, floatmp.hpp 355-410). -/
structure XRounding (K : Type*) [Field K] [LinearOrder K] [IsStrictOrderedRing K] where
  /-- the numbers stored exactly -/
  Rep : K → Prop
  down : K → Ext K
  up : K → Ext K
  near : K → Ext K
  down_le : ∀ x, Ext.le (down x) (.fin x)
  le_up : ∀ x, Ext.le (.fin x) (up x)
  down_max : ∀ x y, Rep y → y ≤ x → Ext.le (.fin y) (down x)
  up_min : ∀ x y, Rep y → x ≤ y → Ext.le (up x) (.fin y)
  near_cases : ∀ x, near x = down x ∨ near x = up x
  rep_zero : Rep 0
  rep_one : Rep 1

/-- `Bounds<F>`: members `_l` and `_u` (float_bounds.hpp 476-477). -/
structure Bounds (K : Type*) where
  l : Ext K
  u : Ext K
deriving DecidableEq

namespace Bounds

variable {K : Type*} [Field K] [LinearOrder K] [IsStrictOrderedRing K]
open Ext (fin)

/-- `Bounds(F x)` (float_bounds.hpp 101). -/
def ofExt (x : Ext K) : Bounds K := ⟨x, x⟩

/-- `Bounds(Y y, PR pr) : _l(y,down,pr), _u(y,up,pr)` for an exact number `y`
(float_bounds.hpp 120-127). -/
def ofExact (R : XRounding K) (y : K) : Bounds K := ⟨R.down y, R.up y⟩

/-- float_bounds.hpp 206-207 -/
def nul (_ : Bounds K) : Bounds K := ⟨fin 0, fin 0⟩
/-- float_bounds.hpp 208-209 -/
def pos (x : Bounds K) : Bounds K := ⟨x.l, x.u⟩
/-- float_bounds.hpp 210-211 -/
def neg (x : Bounds K) : Bounds K := ⟨x.u.neg, x.l.neg⟩
/-- float_bounds.hpp 212-213 -/
def hlf (x : Bounds K) : Bounds K := ⟨x.l.hlf, x.u.hlf⟩

variable (R : XRounding K)

/-- float_bounds.hpp 214-217 -/
def sqr (x : Bounds K) : Bounds K :=
  if Ext.lt (fin 0) x.l then ⟨Ext.mul R.down x.l x.l, Ext.mul R.up x.u x.u⟩
  else if Ext.lt x.u (fin 0) then ⟨Ext.mul R.down x.u x.u, Ext.mul R.up x.l x.l⟩
  else ⟨fin 0, Ext.max (Ext.mul R.up x.l x.l) (Ext.mul R.up x.u x.u)⟩

/-- float_bounds.hpp 218-221 -/
def recip (x : Bounds K) : Bounds K :=
  if Ext.lt (fin 0) x.l || Ext.lt x.u (fin 0) then ⟨Ext.recip R.down x.u, Ext.recip R.up x.l⟩
  else ⟨.ninf, .pinf⟩

/-- float_bounds.hpp 223-224 -/
def add (x y : Bounds K) : Bounds K := ⟨Ext.add R.down x.l y.l, Ext.add R.up x.u y.u⟩
/-- float_bounds.hpp 225-226 -/
def sub (x y : Bounds K) : Bounds K := ⟨Ext.sub R.down x.l y.u, Ext.sub R.up x.u y.l⟩

/-- `Operations<Bounds<F>>::_mul` (float_bounds.hpp 595-629) -/
def mul (x1 x2 : Bounds K) : Bounds K :=
  if Ext.le (fin 0) x1.l then
    if Ext.le (fin 0) x2.l then ⟨Ext.mul R.down x1.l x2.l, Ext.mul R.up x1.u x2.u⟩
    else if Ext.le x2.u (fin 0) then ⟨Ext.mul R.down x1.u x2.l, Ext.mul R.up x1.l x2.u⟩
    else ⟨Ext.mul R.down x1.u x2.l, Ext.mul R.up x1.u x2.u⟩
  else if Ext.le x1.u (fin 0) then
    if Ext.le (fin 0) x2.l then ⟨Ext.mul R.down x1.l x2.u, Ext.mul R.up x1.u x2.l⟩
    else if Ext.le x2.u (fin 0) then ⟨Ext.mul R.down x1.u x2.u, Ext.mul R.up x1.l x2.l⟩
    else ⟨Ext.mul R.down x1.l x2.u, Ext.mul R.up x1.l x2.l⟩
  else
    if Ext.le (fin 0) x2.l then ⟨Ext.mul R.down x1.l x2.u, Ext.mul R.up x1.u x2.u⟩
    else if Ext.le x2.u (fin 0) then ⟨Ext.mul R.down x1.u x2.l, Ext.mul R.up x1.l x2.l⟩
    else ⟨Ext.min (Ext.mul R.down x1.u x2.l) (Ext.mul R.down x1.l x2.u),
          Ext.max (Ext.mul R.up x1.l x2.l) (Ext.mul R.up x1.u x2.u)⟩

/-- `Operations<Bounds<F>>::_div` (float_bounds.hpp 631-663) -/
def div (x1 x2 : Bounds K) : Bounds K :=
  if Ext.lt (fin 0) x2.l then
    if Ext.le (fin 0) x1.l then ⟨Ext.div R.down x1.l x2.u, Ext.div R.up x1.u x2.l⟩
    else if Ext.le x1.u (fin 0) then ⟨Ext.div R.down x1.l x2.l, Ext.div R.up x1.u x2.u⟩
    else ⟨Ext.div R.down x1.l x2.l, Ext.div R.up x1.u x2.l⟩
  else if Ext.lt x2.u (fin 0) then
    if Ext.le (fin 0) x1.l then ⟨Ext.div R.down x1.u x2.u, Ext.div R.up x1.l x2.l⟩
    else if Ext.le x1.u (fin 0) then ⟨Ext.div R.down x1.u x2.l, Ext.div R.up x1.l x2.u⟩
    else ⟨Ext.div R.down x1.u x2.u, Ext.div R.up x1.l x2.u⟩
  else ⟨.ninf, .pinf⟩

/-- `Operations<Bounds<F>>::_fma` (float_bounds.hpp 665-668) -/
def fma (x1 x2 x3 : Bounds K) : Bounds K := add R (mul R x1 x2) x3

/-- float_bounds.hpp 263-266 -/
def abs (x : Bounds K) : Bounds K :=
  if Ext.le (fin 0) x.l then ⟨x.l, x.u⟩
  else if Ext.le x.u (fin 0) then ⟨x.u.neg, x.l.neg⟩
  else ⟨fin 0, Ext.max x.l.neg x.u⟩

/-- `pow(Bounds,Nat)` (float_bounds.hpp 235-236) -/
def pow (x : Bounds K) (m : ℕ) : Bounds K :=
  let y := if m % 2 = 0 then abs x else x
  ⟨Ext.pow R.down y.l m, Ext.pow R.up y.u m⟩

/-- `pow(Bounds,Int)` (float_bounds.hpp 233-234) -/
def powInt (x : Bounds K) (n : ℤ) : Bounds K :=
  if n < 0 then pow R (recip R x) (-n).toNat else pow R x n.toNat

/-- float_bounds.hpp 267-268 -/
def max (x y : Bounds K) : Bounds K := ⟨Ext.max x.l y.l, Ext.max x.u y.u⟩
/-- float_bounds.hpp 269-270 -/
def min (x y : Bounds K) : Bounds K := ⟨Ext.min x.l y.l, Ext.min x.u y.u⟩
/-- float_bounds.hpp 271-272 -/
def mig (x : Bounds K) : Ext K := Ext.max (fin 0) (Ext.max x.l x.u.neg)
/-- float_bounds.hpp 273-274 -/
def mag (x : Bounds K) : Ext K := Ext.max x.l.neg x.u

/-- float_bounds.hpp 279-280 -/
def sgn (x : Bounds K) : LV :=
  if Ext.lt (fin 0) x.l then .true_ else if Ext.lt x.u (fin 0) then .false_ else .indeterminate

/-- float_bounds.hpp 282-285 -/
def eq (x y : Bounds K) : LV :=
  if Ext.lt x.u y.l || Ext.lt y.u x.l then .false_
  else if Ext.eq x.l y.u && Ext.eq x.u y.l then .true_
  else .indeterminate

/-- float_bounds.hpp 287-290 -/
def lt (x y : Bounds K) : LV :=
  if Ext.lt x.u y.l then .true_ else if Ext.le y.u x.l then .false_ else .indeterminate

/-- float_bounds.hpp 323-326 -/
def isZero (x : Bounds K) : LV :=
  if Ext.lt (fin 0) x.l || Ext.lt x.u (fin 0) then .false_
  else if Ext.eq x.l (fin 0) && Ext.eq x.u (fin 0) then .true_
  else .indeterminate

/-- float_bounds.hpp 328-329 -/
def isPositive (x : Bounds K) : LV :=
  if Ext.le (fin 0) x.l then .true_ else if Ext.lt x.u (fin 0) then .false_ else .indeterminate

/-- float_bounds.hpp 336-337 -/
def same (x y : Bounds K) : Bool := Ext.eq x.l y.l && Ext.eq x.u y.u
/-- float_bounds.hpp 339-340 -/
def models (x : Bounds K) (y : Ext K) : Bool := Ext.le x.l y && Ext.le y x.u
/-- float_bounds.hpp 342-343 -/
def consistent (x y : Bounds K) : Bool := Ext.le x.l y.u && Ext.le y.l x.u
/-- float_bounds.hpp 345-346 -/
def inconsistent (x y : Bounds K) : Bool := Ext.lt y.u x.l || Ext.lt x.u y.l
/-- float_bounds.hpp 348-349 -/
def refines (x y : Bounds K) : Bool := Ext.le y.l x.l && Ext.le x.u y.u
/-- float_bounds.hpp 351-352 -/
def refinement (x y : Bounds K) : Bounds K := ⟨Ext.max x.l y.l, Ext.min x.u y.u⟩
/-- float_bounds.hpp 354-355 -/
def coarsening (x y : Bounds K) : Bounds K := ⟨Ext.min x.l y.l, Ext.max x.u y.u⟩

/-- `value()`: `med(near,l,u) = hlf(add(near,l,u))`
(float_bounds.tpl.hpp 61-62, floatdp.hpp 407-409, floatmp.hpp 401). -/
def value (x : Bounds K) : Ext K := (Ext.add R.near x.l x.u).hlf
/-- `error()` (float_bounds.tpl.hpp 63-64). -/
def error (x : Bounds K) : Ext K :=
  Ext.max (Ext.sub R.up x.u (value R x)) (Ext.sub R.up (value R x) x.l)
/-- `pm(e)` (float_bounds.tpl.hpp 66-67). -/
def pm (x : Bounds K) (e : Ext K) : Bounds K := ⟨Ext.sub R.down x.l e, Ext.add R.up x.u e⟩

/-- `widen` (float_bounds.hpp 300-301) with the constant `m > 0`. -/
def widen (m : K) (x : Bounds K) : Bounds K :=
  ⟨Ext.sub R.down x.l (fin m), Ext.add R.up x.u (fin m)⟩
/-- `narrow` (float_bounds.hpp 303-304), transcribed as written: the upper bound
is moved by `add(down,_u,m)`. -/
def narrow (m : K) (x : Bounds K) : Bounds K :=
  ⟨Ext.add R.up x.l (fin m), Ext.add R.down x.u (fin m)⟩

/-! ### Exact arguments (float_bounds.hpp 377-384 and 396-412) -/

/-- `add(F,F)` (float_bounds.hpp 377) -/
def addF (a b : Ext K) : Bounds K := ⟨Ext.add R.down a b, Ext.add R.up a b⟩
/-- `sub(F,F)` (378) -/
def subF (a b : Ext K) : Bounds K := ⟨Ext.sub R.down a b, Ext.sub R.up a b⟩
/-- `mul(F,F)` (379) -/
def mulF (a b : Ext K) : Bounds K := ⟨Ext.mul R.down a b, Ext.mul R.up a b⟩
/-- `div(F,F)` (380) -/
def divF (a b : Ext K) : Bounds K := ⟨Ext.div R.down a b, Ext.div R.up a b⟩
/-- friend `add(Bounds,F)` (396-397) -/
def addBF (x : Bounds K) (b : Ext K) : Bounds K := ⟨Ext.add R.down x.l b, Ext.add R.up x.u b⟩
/-- friend `sub(Bounds,F)` (398-399) -/
def subBF (x : Bounds K) (b : Ext K) : Bounds K := ⟨Ext.sub R.down x.l b, Ext.sub R.up x.u b⟩
/-- friend `add(F,Bounds)` (404-405) -/
def addFB (a : Ext K) (x : Bounds K) : Bounds K := ⟨Ext.add R.down a x.l, Ext.add R.up a x.u⟩
/-- friend `sub(F,Bounds)` (406-407) -/
def subFB (a : Ext K) (x : Bounds K) : Bounds K := ⟨Ext.sub R.down a x.u, Ext.sub R.up a x.l⟩

/-! ### `Operations<Bounds<F>>` with one exact argument (float_bounds.inl.hpp) -/

/-- `Operations<Bounds<F>>::_add(F,Bounds)` (float_bounds.inl.hpp 37-39),
transcribed as written: both endpoints use `down`. -/
def opAddFB (a : Ext K) (x : Bounds K) : Bounds K := ⟨Ext.add R.down a x.l, Ext.add R.down a x.u⟩

/-- `_mul(Bounds,F)` (float_bounds.inl.hpp 49-61) -/
def opMulBF (x : Bounds K) (b : Ext K) : Bounds K :=
  if Ext.le (fin 0) b then ⟨Ext.mul R.down x.l b, Ext.mul R.up x.u b⟩
  else ⟨Ext.mul R.down x.u b, Ext.mul R.up x.l b⟩

/-- `_mul(F,Bounds)` (float_bounds.inl.hpp 63-75) -/
def opMulFB (a : Ext K) (x : Bounds K) : Bounds K :=
  if Ext.le (fin 0) a then ⟨Ext.mul R.down a x.l, Ext.mul R.up a x.u⟩
  else ⟨Ext.mul R.down a x.u, Ext.mul R.up a x.l⟩

/-- `_div(Bounds,F)` (float_bounds.inl.hpp 77-94) -/
def opDivBF (x : Bounds K) (b : Ext K) : Bounds K :=
  if Ext.lt (fin 0) b then ⟨Ext.div R.down x.l b, Ext.div R.up x.u b⟩
  else if Ext.lt b (fin 0) then ⟨Ext.div R.down x.u b, Ext.div R.up x.l b⟩
  else ⟨.ninf, .pinf⟩

/-- `_div(F,Bounds)` (float_bounds.inl.hpp 96-113) -/
def opDivFB (a : Ext K) (x : Bounds K) : Bounds K :=
  if Ext.le x.l (fin 0) && Ext.le (fin 0) x.u then ⟨.ninf, .pinf⟩
  else if Ext.le (fin 0) a then ⟨Ext.div R.down a x.u, Ext.div R.up a x.l⟩
  else ⟨Ext.div R.down a x.l, Ext.div R.up a x.u⟩

/-! ### `Positive<Bounds<F>>` (float_bounds.hpp 504-553) -/

/-- `sqr(PositiveBounds)` (527-528) -/
def posSqr (x : Bounds K) : Bounds K := ⟨Ext.mul R.down x.l x.l, Ext.mul R.up x.u x.u⟩
/-- `rec(PositiveBounds)` (529-530) -/
def posRecip (x : Bounds K) : Bounds K := ⟨Ext.recip R.down x.u, Ext.recip R.up x.l⟩
/-- `mul(PositiveBounds,PositiveBounds)` (533-534) -/
def posMul (x y : Bounds K) : Bounds K := ⟨Ext.mul R.down x.l y.l, Ext.mul R.up x.u y.u⟩
/-- `div(PositiveBounds,PositiveBounds)` (535-536) -/
def posDiv (x y : Bounds K) : Bounds K := ⟨Ext.div R.down x.l y.u, Ext.div R.up x.u y.l⟩
/-- `min(PositiveBounds,PositiveBounds)` (548-549), transcribed as written: the
upper bound is `min(x2._u,x2._u)`. -/
def posMin (x y : Bounds K) : Bounds K := ⟨Ext.min x.l y.l, Ext.min y.u y.u⟩

end Bounds

end Ariadne
