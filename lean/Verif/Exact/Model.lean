import Verif.Decimal.Model
import Verif.Bounds.Model
import Mathlib.Data.Rat.Floor
import Mathlib.Data.Nat.Log
import Mathlib.Data.Sign.Defs

/-!
# Integers, dyadic and rational numbers

Model of source/numeric/integer.cpp, dyadic.cpp, rational.cpp and
extended.hpp.  GMP's `mpz`, `mpq` are exact integers and rationals.
Simplification: `mpf` numbers, which GMP keeps to 65535 bits, are taken to be
exact dyadic rationals (no truncation of longer results).
-/

namespace Ariadne.Exact

/-! ### Integer -/

/-- `Integer(Nat64 m)` (integer.cpp 61-76): splits at `2^31-1`; `quot` is cast to
32 bits and converted by the same constructor. -/
def ofNat64 (n : ℕ) : ℤ :=
  let lmax := 2 ^ 31 - 1
  let lquot := n / lmax
  let lrem := n % lmax
  let quot := lquot % 2 ^ 32
  if h : lquot = 0 then (lrem : ℤ)
  else (lrem : ℤ) + ofNat64 quot * (lmax : ℤ)
termination_by n
decreasing_by
  simp only [lquot, lmax] at h
  have := Nat.mod_le (n / (2 ^ 31 - 1)) (2 ^ 32)
  have h2 : 0 < n := by
    by_contra h0
    apply h
    have : n = 0 := by omega
    rw [this]; rfl
  have := Nat.div_lt_self h2 (show 1 < 2 ^ 31 - 1 by norm_num)
  omega

/-- `Integer(Int64 n)` (integer.cpp 78-85); `none` for the most negative number,
whose negation overflows. -/
def ofInt64 (n : ℤ) : Option ℤ :=
  if n < 0 then (if n = -2 ^ 63 then none else some (-ofNat64 (-n).toNat)) else some (ofNat64 n.toNat)

/-- `Integer(Int32 n)` (integer.cpp 56-59): the argument is cast to a 64-bit
unsigned number. -/
def ofInt32 (n : ℤ) : ℤ := n % 2 ^ 64

/-- `make_integer` (integer.cpp 294-306) and `make_dyadic` (dyadic.cpp 486-498) -/
def makeInteger (n : ℕ) : ℤ :=
  let m := 2 ^ 31 - 1
  if h : n / m = 0 then ((n % m : ℕ) : ℤ)
  else makeInteger (n / m) * (m : ℤ) + ((n % m : ℕ) : ℤ)
termination_by n
decreasing_by
  simp only [m] at h
  have h2 : 0 < n := by
    by_contra h0
    apply h
    have : n = 0 := by omega
    rw [this]; rfl
  exact Nat.div_lt_self h2 (by norm_num)

/-- `quot` (integer.cpp 194-198): `mpz_div` rounds towards minus infinity. -/
def quot (a b : ℤ) : ℤ := a.fdiv b
/-- `rem` (integer.cpp 200-204): `mpz_cdiv_r` is the remainder of the quotient
rounded towards plus infinity. -/
def rem (a b : ℤ) : ℤ := a + b * ((-a).fdiv b)

/-- `log2floor` (integer.cpp 325-327): `mpz_sizeinbase(z,2)-1`; the size of zero is 1. -/
def log2floor (n : ℕ) : ℕ := Nat.log 2 n

/-! ### Rational and Dyadic: finite values -/

/-- `mpz_tdiv_q`: quotient rounded towards zero -/
def tdiv (a b : ℤ) : ℤ := a.tdiv b

/-- `round(Rational)` (rational.cpp 419-430) -/
def roundQ (x : ℚ) : ℤ :=
  let num := 2 * x.num
  let num := if num ≥ 0 then num + x.den else num - x.den
  tdiv num (2 * x.den)
/-- `ceil(Rational)` (rational.cpp 432-437): `mpz_cdiv_q` -/
def ceilQ (x : ℚ) : ℤ := -((-x.num).fdiv x.den)
/-- `floor(Rational)` (rational.cpp 439-444): `mpz_fdiv_q` -/
def floorQ (x : ℚ) : ℤ := x.num.fdiv x.den

/-- truncation of an `mpf` to an integer (`mpz_set_f`) -/
def truncF (x : ℚ) : ℤ := if 0 ≤ x then ⌊x⌋ else -⌊-x⌋

/-- `round(Dyadic)` (dyadic.cpp 293-307) -/
def roundW (x : ℚ) : ℤ :=
  let y := x * 2
  let y := if y ≥ 0 then y + 1 else y - 1
  truncF (y / 2)

/-- `mantissa` (dyadic.cpp 220-222) -/
def mantissa (x : ℚ) : ℤ := x.num
/-- `exponent` (dyadic.cpp 224-226) -/
def exponent (x : ℚ) : ℕ := log2floor x.den

/-- `Dyadic(mpf_t mpf)` (dyadic.cpp 109-112), transcribed as written: the fresh
number, initialised to zero by `mpf_init2`, is assigned to itself. -/
def ofMpf (_x : ℚ) : ℚ := 0

/-- `Dyadic(String)` (dyadic.cpp 155-170): `t` is whatever `mpf_set_str` returns
at the precision chosen; `none` is an exception. -/
def dyadicOfString (setStr : List Char → Option ℚ) (str : List Char) : Option ℚ :=
  match setStr str with
  | none => none
  | some t =>
    match Decimal.parse str with
    | .error _ => none
    | .ok d => if Decimal.opNe (Decimal.ofDyadic (mantissa t) (exponent t)) d then none else some t

/-- `pow(Rational,Nat)` (rational.cpp 366-370) -/
def powLoop (r p : ℚ) (m : ℕ) : ℚ :=
  if h : m = 0 then r
  else powLoop (if m % 2 = 1 then r * p else r) (p * p) (m / 2)
termination_by m
decreasing_by omega

def powQ (q : ℚ) (m : ℕ) : ℚ := powLoop 1 q m

/-- `pow(Rational,Int)` (rational.cpp 372-375); `none` when `mpq_inv` divides by zero. -/
def powQInt (q : ℚ) (n : ℤ) : Option ℚ :=
  if n < 0 then (if powQ q (-n).toNat = 0 then none else some (powQ q (-n).toNat)⁻¹)
  else some (powQ q n.toNat)

/-! ### Writers -/

/-- `os << z` for an `Integer` (integer.cpp 279-292) -/
def printInt (z : ℤ) : List Char :=
  (if z < 0 then ['-'] else []) ++ Decimal.printNat z.natAbs

/-- The loop `while (w!=0) { w*=10; z=floor(w); w-=z; os << z; }` (dyadic.cpp
441-446); `none` when it has not stopped after `fuel` rounds. -/
def fracLoop (w : ℚ) : ℕ → Option (List Char)
  | 0 => if w = 0 then some [] else none
  | fuel + 1 =>
    if w = 0 then some []
    else (fracLoop (w * 10 - ⌊w * 10⌋) fuel).map (printInt ⌊w * 10⌋ ++ ·)

/-- `DecimalWriter::_write` (dyadic.cpp 434-451) on finite numbers -/
def decimalWriter (fuel : ℕ) (x : ℚ) : Option (List Char) :=
  let w := if x < 0 then -x else x
  (fracLoop (w - ⌊w⌋) fuel).map fun s =>
    (if x < 0 then ['-'] else []) ++ printInt ⌊w⌋ ++ ['.'] ++ s

/-- `while (w>=2) { w=hlf(w); e=e+1; }` (dyadic.cpp 458) -/
def halveLoop (w : ℚ) (e : ℤ) : ℕ → Option (ℚ × ℤ)
  | 0 => if w ≥ 2 then none else some (w, e)
  | fuel + 1 => if w ≥ 2 then halveLoop (w / 2) (e + 1) fuel else some (w, e)

/-- `while (w<1) { w=w*2; e=e-1; }` (dyadic.cpp 459) -/
def doubleLoop (w : ℚ) (e : ℤ) : ℕ → Option (ℚ × ℤ)
  | 0 => if w < 1 then none else some (w, e)
  | fuel + 1 => if w < 1 then doubleLoop (w * 2) (e - 1) fuel else some (w, e)

/-- `ScientificWriter::_write` (dyadic.cpp 453-466) on finite numbers: sign,
significand and exponent, printed as significand`*2^`exponent. -/
def scientificParts (fuel : ℕ) (x : ℚ) : Option (ℚ × ℤ) :=
  match halveLoop (if x < 0 then -x else x) 0 fuel with
  | none => none
  | some (w, e) => doubleLoop w e fuel

def scientificWriter (fuel : ℕ) (x : ℚ) : Option (List Char) :=
  match scientificParts fuel x with
  | none => none
  | some (w, e) => (decimalWriter fuel w).map fun s =>
      (if x < 0 then ['-'] else []) ++ s ++ ['*', '2', '^'] ++ printInt e

/-- `FractionWriter::_write` (dyadic.cpp 469-480) on finite numbers -/
def fractionWriter (x : ℚ) : List Char :=
  printInt (mantissa x) ++
    (if exponent x ≠ 0 then
      (if exponent x = 1 then ['/', '2'] else ['/', '2', '^'] ++ Decimal.printNat (exponent x))
     else [])

/-- `write(os, mpz)` (rational.cpp 524-530): `none` when the text and its
terminating null do not fit into the buffer of 512 characters. -/
def writeMpz (z : ℤ) : Option (List Char) :=
  if (printInt z).length + 1 ≤ 512 then some (printInt z) else none

/-- `operator<<(Rational)` (rational.cpp 540-549) on finite numbers -/
def printQ (x : ℚ) : Option (List Char) :=
  match writeMpz x.num with
  | none => none
  | some s => if (x.den : ℤ) ≠ 1 then (writeMpz x.den).map fun t => s ++ ['/'] ++ t else some s

/-! ### Extended values (extended.hpp 48-152) -/

/-- `sgn` (dyadic.cpp 61-63, rational.cpp 72-74): NaN has sign zero. -/
def sgn : Ext ℚ → ℤ
  | .nan => 0
  | .pinf => 1
  | .ninf => -1
  | .fin x => SignType.sign x

/-- `set_inf` (dyadic.cpp 66-67, rational.cpp 77) -/
def setInf (s : ℤ) : Ext ℚ := if s = 0 then .nan else if s = 1 then .pinf else .ninf

/-- extended.hpp 68-70 -/
def xneg : Ext ℚ → Ext ℚ
  | .fin x => .fin (-x)
  | x => setInf (-sgn x)
/-- extended.hpp 72-75 -/
def xadd : Ext ℚ → Ext ℚ → Ext ℚ
  | .fin x, .fin y => .fin (x + y)
  | .fin _, y => setInf (sgn y)
  | x, .fin _ => setInf (sgn x)
  | x, y => if sgn x = sgn y then setInf (sgn x) else .nan
/-- extended.hpp 77-80 -/
def xsub : Ext ℚ → Ext ℚ → Ext ℚ
  | .fin x, .fin y => .fin (x - y)
  | .fin _, y => setInf (-sgn y)
  | x, .fin _ => setInf (sgn x)
  | x, y => if sgn x = -sgn y then setInf (sgn x) else .nan
/-- extended.hpp 81-83 -/
def xmul : Ext ℚ → Ext ℚ → Ext ℚ
  | .fin x, .fin y => .fin (x * y)
  | x, y => setInf (sgn x * sgn y)
/-- extended.hpp 97-98, with `mpq_inv` for finite numbers (rational.cpp 95); `none`: GMP's division by zero -/
def xrec : Ext ℚ → Option (Ext ℚ)
  | .fin x => if x = 0 then none else some (.fin x⁻¹)
  | .nan => some .nan
  | _ => some (.fin 0)
/-- extended.hpp 84-85 -/
def xdiv (x y : Ext ℚ) : Option (Ext ℚ) :=
  match x, y with
  | .fin x, .fin y => if y = 0 then none else some (.fin (x / y))
  | x, y => (xrec y).map (xmul x)
/-- extended.hpp 95-96 -/
def xhlf : Ext ℚ → Ext ℚ
  | .fin x => .fin (x / 2)
  | x => setInf (sgn x)
/-- extended.hpp 100-101 -/
def xabs : Ext ℚ → Ext ℚ
  | .fin x => .fin |x|
  | x => setInf |sgn x|
/-- extended.hpp 102-106 -/
def xmax (x y : Ext ℚ) : Ext ℚ :=
  match x, y with
  | .fin x, .fin y => .fin (if y ≤ x then x else y)
  | x, y =>
    if x = .nan ∨ y = .nan then .nan
    else if x = .pinf ∨ y = .pinf then .pinf
    else if x = .ninf then y else x
/-- extended.hpp 107-111 -/
def xmin (x y : Ext ℚ) : Ext ℚ :=
  match x, y with
  | .fin x, .fin y => .fin (if x ≤ y then x else y)
  | x, y =>
    if x = .nan ∨ y = .nan then .nan
    else if x = .ninf ∨ y = .ninf then .ninf
    else if x = .pinf then y else x
/-- extended.hpp 113-123 -/
def xeq : Ext ℚ → Ext ℚ → Bool
  | .fin x, .fin y => x == y
  | .fin _, _ => false
  | _, .fin _ => false
  | .nan, _ => false
  | _, .nan => false
  | x, y => sgn x == sgn y

/-- `enum class Comparison` (sign.hpp 47) with its codes -/
def LESS : ℤ := -1
def EQUAL : ℤ := 0
def GREATER : ℤ := 1
def INCOMPARABLE : ℤ := -128

/-- extended.hpp 125-137; comparison of finite values by `mpf_cmp`/`mpq_cmp`
taken to return -1, 0 or 1. -/
def xcmp : Ext ℚ → Ext ℚ → ℤ
  | .fin x, .fin y => if x < y then LESS else if y < x then GREATER else EQUAL
  | .nan, _ => INCOMPARABLE
  | _, .nan => INCOMPARABLE
  | .fin _, y => if 0 < sgn y then LESS else GREATER
  | x, .fin _ => if sgn x > 0 then GREATER else LESS
  | x, y => if sgn x < sgn y then LESS else if sgn y < sgn x then GREATER else EQUAL

/-- `lt(Dyadic,Dyadic)` (dyadic.cpp 408-410) -/
def ltW (x y : Ext ℚ) : Bool := xcmp x y == LESS
/-- `eq(Dyadic,Dyadic)` (dyadic.cpp 404-406) -/
def eqW (x y : Ext ℚ) : Bool := xcmp x y == EQUAL
/-- `lt(Rational,Rational)` (rational.cpp 381-383): `cmp(q1,q2)<EQUAL` -/
def ltQ (x y : Ext ℚ) : Bool := decide (xcmp x y < EQUAL)
/-- `operator<=` (dyadic.hpp 150, rational.hpp 110) -/
def leW (x y : Ext ℚ) : Bool := !ltW y x
def leQ (x y : Ext ℚ) : Bool := !ltQ y x

/-! ### Bounds with exact endpoints -/

/-- finite exact bounds (rational.hpp 217-218, dyadic.hpp 269-270) -/
structure QBounds where
  l : ℚ
  u : ℚ
deriving DecidableEq

namespace QBounds

/-- rational.cpp 672-673, dyadic.hpp 295-296 -/
def add (x y : QBounds) : QBounds := ⟨x.l + y.l, x.u + y.u⟩
/-- rational.cpp 674-675, dyadic.hpp 297-298 -/
def sub (x y : QBounds) : QBounds := ⟨x.l - y.u, x.u - y.l⟩
/-- `operator-` and `neg(RationalBounds)` (rational.cpp 663-664, rational.hpp 232, dyadic.hpp 288) -/
def neg (x : QBounds) : QBounds := ⟨-x.u, -x.l⟩
/-- `neg(DyadicBounds)` (dyadic.hpp 307-308), transcribed as written -/
def negW (x : QBounds) : QBounds := ⟨-x.l, -x.u⟩
/-- `hlf(DyadicBounds)` (dyadic.hpp 313) -/
def hlfW (x : QBounds) : QBounds := ⟨x.l / 2, x.u / 2⟩
/-- `hlf(RationalBounds)` (rational.cpp 665-666), transcribed as written -/
def hlf (x : QBounds) : QBounds := ⟨x.u / 2, x.l / 2⟩
/-- `_mul` (rational.cpp 558-589) -/
def mul (x y : QBounds) : QBounds :=
  if x.l ≥ 0 then
    if y.l ≥ 0 then ⟨x.l * y.l, x.u * y.u⟩
    else if y.u ≤ 0 then ⟨x.u * y.l, x.l * y.u⟩
    else ⟨x.u * y.l, x.u * y.u⟩
  else if x.u ≤ 0 then
    if y.l ≥ 0 then ⟨x.l * y.u, x.u * y.l⟩
    else if y.u ≤ 0 then ⟨x.u * y.u, x.l * y.l⟩
    else ⟨x.l * y.u, x.l * y.l⟩
  else
    if y.l ≥ 0 then ⟨x.l * y.u, x.u * y.u⟩
    else if y.u ≤ 0 then ⟨x.u * y.l, x.l * y.l⟩
    else ⟨min (x.u * y.l) (x.l * y.u), max (x.l * y.l) (x.u * y.u)⟩
/-- `_div` (rational.cpp 591-624); `none` stands for `[-inf,+inf]` -/
def div (x y : QBounds) : Option QBounds :=
  if y.l > 0 then
    some (if x.l ≥ 0 then ⟨x.l / y.u, x.u / y.l⟩
      else if x.u ≤ 0 then ⟨x.l / y.l, x.u / y.u⟩
      else ⟨x.l / y.l, x.u / y.l⟩)
  else if y.u < 0 then
    some (if x.l ≥ 0 then ⟨x.u / y.u, x.l / y.l⟩
      else if x.u ≤ 0 then ⟨x.u / y.l, x.l / y.u⟩
      else ⟨x.u / y.u, x.l / y.u⟩)
  else none
/-- `_sqr` (rational.cpp 626-636), `sqr(DyadicBounds)` (dyadic.hpp 309-312) -/
def sqr (x : QBounds) : QBounds :=
  if x.l > 0 then ⟨x.l ^ 2, x.u ^ 2⟩
  else if x.u < 0 then ⟨x.u ^ 2, x.l ^ 2⟩
  else ⟨0, max (x.l ^ 2) (x.u ^ 2)⟩
/-- `_rec` (rational.cpp 638-651) -/
def recip (x : QBounds) : Option QBounds :=
  if x.l > 0 ∨ x.u < 0 then some ⟨x.u⁻¹, x.l⁻¹⟩ else none
/-- `abs` (rational.cpp 686-687, dyadic.hpp 315): the lower bound is
`max(min(l,-u),0)` -/
def abs (x : QBounds) : QBounds := ⟨max (min x.l (-x.u)) 0, max (-x.l) x.u⟩
/-- `pow(DyadicBounds,Nat)` (dyadic.cpp 504-505) -/
def powW (x : QBounds) (m : ℕ) : QBounds :=
  let y := if m % 2 = 0 then abs x else x
  ⟨y.l ^ m, y.u ^ m⟩
/-- `pow(RationalBounds,Nat)` (rational.cpp 680-681), transcribed as written: `r`
is computed and not used. -/
def pow (x : QBounds) (m : ℕ) : QBounds := ⟨powQ x.l m, powQ x.u m⟩
/-- rational.cpp 688-691 -/
def max_ (x y : QBounds) : QBounds := ⟨max x.l y.l, max x.u y.u⟩
def min_ (x y : QBounds) : QBounds := ⟨min x.l y.l, min x.u y.u⟩

open Logical (LV)
/-- rational.cpp 693-704, dyadic.hpp 321-332 -/
def eq (x y : QBounds) : LV :=
  if x.l ≥ y.u ∧ x.u ≤ y.l then .true_ else if x.l > y.u ∨ x.u < y.l then .false_ else .indeterminate
def le (x y : QBounds) : LV :=
  if x.u ≤ y.l then .true_ else if x.l > y.u then .false_ else .indeterminate
def lt (x y : QBounds) : LV :=
  if x.u < y.l then .true_ else if x.l ≥ y.u then .false_ else .indeterminate
/-- rational.hpp 259-262, dyadic.hpp 335-342 -/
def inconsistent (x y : QBounds) : Bool := decide (x.l > y.u ∨ x.u < y.l)
def refines (x y : QBounds) : Bool := decide (x.l ≥ y.l ∧ x.u ≤ y.u)
def refinement (x y : QBounds) : QBounds := ⟨max x.l y.l, min x.u y.u⟩
def coarsening (x y : QBounds) : QBounds := ⟨min x.l y.l, max x.u y.u⟩

end QBounds

/-- `Ball<Dyadic,Dyadic>` (dyadic.hpp 347-374) -/
structure WBall where
  v : ℚ
  e : ℚ
deriving DecidableEq

namespace WBall
/-- dyadic.hpp 355 -/
def ofBounds (x : QBounds) : WBall := ⟨(x.l + x.u) / 2, (x.u - x.l) / 2⟩
/-- dyadic.hpp 356 -/
def toBounds (x : WBall) : QBounds := ⟨x.v - x.e, x.v + x.e⟩
/-- dyadic.hpp 362-364 -/
def add (x y : WBall) : WBall := ⟨x.v + y.v, x.e + y.e⟩
def sub (x y : WBall) : WBall := ⟨x.v - y.v, x.e + y.e⟩
def mul (x y : WBall) : WBall := ⟨x.v * y.v, |x.v| * y.e + x.e * |y.v| + x.e * y.e⟩
/-- dyadic.hpp 365-366 -/
def abs (x : WBall) : WBall :=
  if |x.v| ≥ x.e then ⟨|x.v|, x.e⟩
  else let av := max (x.e - x.v) (x.v + x.e) / 2; ⟨av, av⟩
open Logical (LV)
/-- dyadic.hpp 367-368 -/
def lt (x y : WBall) : LV :=
  if x.v + x.e < y.v - y.e then .true_ else if x.v - x.e ≥ y.v + y.e then .false_ else .indeterminate
/-- dyadic.hpp 369-372 -/
def inconsistent (x y : WBall) : Bool := decide (|x.v - y.v| > x.e + y.e)
def refines (x y : WBall) : Bool := decide (|x.v - y.v| + x.e ≤ y.e)
def refinement (x y : WBall) : WBall := ofBounds (QBounds.refinement (toBounds x) (toBounds y))
def coarsening (x y : WBall) : WBall := ofBounds (QBounds.coarsening (toBounds x) (toBounds y))
end WBall

end Ariadne.Exact
