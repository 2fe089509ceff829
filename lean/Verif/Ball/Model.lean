import Verif.Bounds.Sqrt

/-!
# Floating-point balls

Model of `Ball<F,FE>` (source/numeric/float_ball.hpp, float_ball.tpl.hpp).
The centre has type `F` (rounding `V`), the error has type `FE` (rounding `E`);
the two may have different precisions.  Simplification: no overflow, and a
reciprocal of zero is the field's `1/0 = 0` (the theorems exclude it).
`_make_error` (float_ball.tpl.hpp 46-51) is `E.up`; when `FE` is `F` the code
returns its argument, and `E.up` of a representable number is that number.
-/

namespace Ariadne

/-- members `_v` and `_e` (float_ball.hpp 404) -/
structure Ball (K : Type*) where
  v : K
  e : K
deriving DecidableEq

namespace Ball

open Logical (LV)

variable {K : Type*} [Field K] [LinearOrder K] [IsStrictOrderedRing K]
variable (V E : Rounding K)

/-- `Ball(F v)` (float_ball.hpp 84) -/
def ofValue (v : K) : Ball K := ⟨v, 0⟩

/-- `Ball(Y y, PR pr) : _v(y,near,pr), _e(abs(_v-y),up,pre)` for an exact number
(float_ball.tpl.hpp 69-77) -/
def ofExact (y : K) : Ball K := ⟨V.near y, E.up |V.near y - y|⟩

/-- `Ball(Decimal dv, Decimal de, PR pr)` (float_ball.tpl.hpp 79-80), transcribed
as written: the rounding error of the centre is not added. -/
def ofValueError (v e : K) : Ball K := ⟨V.near v, E.up e⟩

/-- `Ball(Ball x, PR pr)` (float_ball.tpl.hpp 63-67): change of precision. -/
def reprecision (x : Ball K) : Ball K :=
  let v := V.near x.v
  let d := if x.v ≤ v then V.up (v - x.v) else V.up (x.v - v)
  ⟨v, E.up (E.up x.e + E.up d)⟩

/-- `Bounds(Ball)` through `lower_raw`, `upper_raw` (float_ball.hpp 140-141) -/
def lower (x : Ball K) : K := V.down (x.v - x.e)
def upper (x : Ball K) : K := V.up (x.v + x.e)

/-- `Ball(Bounds)` (float_ball.tpl.hpp 58-61) with `value_raw` and `error_raw`
(float_bounds.hpp 160-161) -/
def ofBounds (l u : K) : Ball K :=
  let v := V.near (l + u) / 2
  ⟨v, E.up (max (V.up (u - v)) (V.up (v - l)))⟩

/-- float_ball.hpp 192 -/
def neg (x : Ball K) : Ball K := ⟨-x.v, x.e⟩
/-- float_ball.hpp 194 -/
def hlf (x : Ball K) : Ball K := ⟨x.v / 2, x.e / 2⟩

/-- `_add(Ball,Ball)` (float_ball.hpp 501-509) -/
def add (x y : Ball K) : Ball K :=
  let ru := V.up (x.v + y.v)
  let rl := V.down (x.v + y.v)
  let se := E.up (x.e + y.e)
  let ae := E.up (V.up (ru - rl)) / 2
  ⟨V.near (x.v + y.v), E.up (ae + se)⟩

/-- `_sub(Ball,Ball)` (float_ball.hpp 511-518) -/
def sub (x y : Ball K) : Ball K :=
  let ru := V.up (x.v - y.v)
  let rl := V.down (x.v - y.v)
  let ae := E.up (V.up (ru - rl) / 2)
  ⟨V.near (x.v - y.v), E.up (ae + E.up (x.e + y.e))⟩

/-- `_mul(Ball,Ball)` (float_ball.hpp 520-529) -/
def mul (x y : Ball K) : Ball K :=
  let ru := V.up (x.v * y.v)
  let rl := V.down (x.v * y.v)
  let re0 := E.up (V.up (ru - rl) / 2)
  let re1 := E.up (re0 + E.up (x.e * y.e))
  let re2 := E.up (E.up (E.up |x.v| * y.e) + E.up (x.e * E.up |y.v|))
  ⟨V.near (x.v * y.v), E.up (re1 + re2)⟩

/-- `_rec(Ball)` (float_ball.hpp 484-490); `rec(approx,v)` is rounded to nearest. -/
def recip (x : Ball K) : Ball K :=
  let rv := V.near (1 / x.v)
  let ru := V.up (1 / V.down (x.v - x.e))
  let rl := V.down (1 / V.up (x.v + x.e))
  ⟨rv, E.up (max (V.up (ru - rv)) (V.up (rv - rl)))⟩

/-- `_div(Ball,Ball)` (float_ball.hpp 531-533) -/
def div (x y : Ball K) : Ball K := mul V E x (recip V E y)

/-- `_sqr(Ball)` (float_ball.hpp 475-482) -/
def sqr (x : Ball K) : Ball K :=
  let r := mul V E x x
  if r.v < r.e then
    let e := E.up (r.e + E.up r.v) / 2
    ⟨V.up e, e⟩
  else r

/-- `_abs(Ball)` (float_ball.hpp 612-615), transcribed as written: the first
branch returns `x` whatever its sign. -/
def abs (x : Ball K) : Ball K :=
  if x.e < |x.v| then x
  else
    let rv := V.up (|x.v| + x.e) / 2
    ⟨rv, E.up rv⟩

/-- `_max(Ball,Ball)` (float_ball.hpp 617-619) -/
def max_ (x y : Ball K) : Ball K := hlf (add V E (add V E x y) (abs V E (sub V E x y)))
/-- `_min(Ball,Ball)` (float_ball.hpp 621-623) -/
def min_ (x y : Ball K) : Ball K := hlf (sub V E (add V E x y) (abs V E (sub V E x y)))

/-- `_mag` (float_ball.hpp 625-627) -/
def mag (x : Ball K) : K := V.up (|x.v| + x.e)
/-- `_mig` (float_ball.hpp 629-631) -/
def mig (x : Ball K) : K := max 0 (V.down (|x.v| - x.e))

/-- `_add(F,F,PRE)` and the like (float_ball.hpp 535-565): the exact result `t`
of one operation on values, with its rounding error. -/
def roundedValue (t : K) : Ball K := ⟨V.near t, E.up (V.up (V.up t - V.down t) / 2)⟩

/-- `sgn` (float_ball.hpp 254-255) -/
def sgn (x : Ball K) : LV :=
  if x.e < x.v then .true_ else if x.v < -x.e then .false_ else .indeterminate

/-- `consistent` (float_ball.hpp 381-382) -/
def consistent (x y : Ball K) : Bool :=
  decide ((if y.v ≤ x.v then V.up (x.v - y.v) else V.up (y.v - x.v)) ≤ E.down (x.e + y.e))
/-- `inconsistent` (float_ball.hpp 384-385) -/
def inconsistent (x y : Ball K) : Bool :=
  decide (E.up (x.e + y.e) < (if y.v ≤ x.v then V.down (x.v - y.v) else V.down (y.v - x.v)))
/-- `refines` (float_ball.hpp 387-388) -/
def refines (x y : Ball K) : Bool :=
  decide (V.up ((if y.v ≤ x.v then V.up (x.v - y.v) else V.up (y.v - x.v)) + x.e) ≤ y.e)

end Ball
end Ariadne
