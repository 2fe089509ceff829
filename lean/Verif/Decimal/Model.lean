import Verif.Bounds.Model
import Mathlib.Data.Nat.Digits.Defs
import Mathlib.Data.Rat.Defs

/-!
# Decimal numbers

Model of `Decimal` (source/numeric/decimal.hpp, decimal.cpp): the number
`_p / 10^_q`.  `Integer` is GMP's unbounded integer.  Simplification: `_q` is a
C++ `unsigned int`; its overflow is not modelled.
-/

namespace Ariadne

/-- members `_p` and `_q` (decimal.hpp 48) -/
structure Decimal where
  p : ℤ
  q : ℕ
deriving DecidableEq, Repr

/-- `enum class Comparison` (source/numeric/sign.hpp 47) without `INCOMPARABLE`. -/
inductive Comparison where
  | less | equal | greater
deriving DecidableEq, Repr

/-- `cmp(Integer,Integer)` (source/numeric/integer.cpp 257-260) -/
def cmpInt (a b : ℤ) : Comparison :=
  if a = b then .equal else if a > b then .greater else .less

namespace Decimal

/-- `canonicalize` (decimal.cpp 43-49): strip trailing zeros of `p` while `q > 0`. -/
def canon (p : ℤ) : ℕ → Decimal
  | 0 => ⟨p, 0⟩
  | q + 1 => if p % 10 = 0 then canon (p / 10) q else ⟨p, q + 1⟩

def canonicalize (d : Decimal) : Decimal := canon d.p d.q

/-- `Decimal(Integer p, Nat q)` (decimal.cpp 56-58) -/
def ofParts (p : ℤ) (q : ℕ) : Decimal := ⟨p, q⟩

/-- `Decimal(Dyadic w)` (decimal.cpp 60-68) where `w = m / 2^e` in lowest terms. -/
def ofDyadic (m : ℤ) (e : ℕ) : Decimal := canon (m * 5 ^ e) e

/-- decimal.cpp 105-108 -/
def neg (d : Decimal) : Decimal := ⟨-d.p, d.q⟩
/-- decimal.cpp 110-117 -/
def add (x y : Decimal) : Decimal := canon (x.p * 10 ^ y.q + y.p * 10 ^ x.q) (x.q + y.q)
/-- decimal.cpp 119-126 -/
def sub (x y : Decimal) : Decimal := canon (x.p * 10 ^ y.q - y.p * 10 ^ x.q) (x.q + y.q)
/-- decimal.cpp 128-131 -/
def mul (x y : Decimal) : Decimal := ⟨x.p * y.p, x.q + y.q⟩
/-- decimal.cpp 143-146 -/
def sqr (x : Decimal) : Decimal := ⟨x.p * x.p, 2 * x.q⟩
/-- decimal.cpp 148-155 -/
def hlf (x : Decimal) : Decimal := if x.p % 2 = 0 then ⟨x.p / 2, x.q⟩ else ⟨5 * x.p, x.q + 1⟩
/-- decimal.cpp 157-160 -/
def abs (x : Decimal) : Decimal := ⟨|x.p|, x.q⟩

/-- `Rational(Integer,Integer)` (source/numeric/rational.cpp 154-164) -/
def mkRational (n d : ℤ) : Ext ℚ :=
  if d = 0 then (if n = 0 then .nan else if n > 0 then .pinf else .ninf) else .fin (n / d)

/-- decimal.cpp 172-178; infinite quotients keep their sign when multiplied by a
positive power of ten. -/
def div (x y : Decimal) : Ext ℚ :=
  let e : ℤ := (x.q : ℤ) - (y.q : ℤ)
  if e > 0 then Ext.div .fin (mkRational x.p y.p) (.fin (10 ^ e.toNat))
  else Ext.mul .fin (mkRational x.p y.p) (.fin (10 ^ (-e).toNat))

/-- `cmp` (decimal.cpp 184-187) -/
def cmp (x y : Decimal) : Comparison := cmpInt (x.p * 10 ^ y.q) (y.p * 10 ^ x.q)
/-- `eq` (decimal.cpp 189-192) -/
def eq (x y : Decimal) : Bool := x.p * 10 ^ y.q == y.p * 10 ^ x.q
/-- `lt` (decimal.cpp 194-197) -/
def lt (x y : Decimal) : Bool := decide (x.p * 10 ^ y.q < y.p * 10 ^ x.q)

/-- `operator==` (decimal.hpp 83) -/
def opEq (x y : Decimal) : Bool := cmp x y == .equal
/-- `operator!=` (decimal.hpp 84) -/
def opNe (x y : Decimal) : Bool := cmp x y != .equal
/-- `operator<=` (decimal.hpp 85), transcribed as written: `cmp(d2,d1)!=GREATER` -/
def opLe (x y : Decimal) : Bool := cmp y x != .greater
/-- `operator>=` (decimal.hpp 86) -/
def opGe (x y : Decimal) : Bool := cmp x y != .less
/-- `operator<` (decimal.hpp 87) -/
def opLt (x y : Decimal) : Bool := cmp x y == .less
/-- `operator>` (decimal.hpp 88), transcribed as written: `cmp(d2,d1)==GREATER` -/
def opGt (x y : Decimal) : Bool := cmp y x == .greater

/-- `std::max` (decimal.cpp 162-165) -/
def max (x y : Decimal) : Decimal := if opLt x y then y else x
/-- `std::min` (decimal.cpp 167-170) -/
def min (x y : Decimal) : Decimal := if opLt y x then y else x

/-! ### Reading -/

/-- local variables of the parser (decimal.cpp 236-249) -/
structure PState where
  found : Bool
  tz : ℕ
  p : ℤ
  q : ℕ

/-- Outcomes of the parser: the two exceptions (decimal.cpp 254, 259). -/
inductive PErr where
  | twoPoints | invalidSymbol
deriving DecidableEq, Repr

/-- One iteration of the loop (decimal.cpp 250-283). -/
def pstep (s : PState) (c : Char) : Except PErr PState :=
  if c = '.' then
    if s.found then .error .twoPoints else .ok { s with found := true }
  else if c.toNat < 48 ∨ c.toNat > 57 then .error .invalidSymbol
  else
    let d : ℕ := c.toNat - 48
    if s.found then
      if d = 0 then .ok { s with tz := s.tz + 1 }
      else .ok ⟨true, 0, s.p * 10 ^ s.tz * 10 + d, s.q + s.tz + 1⟩
    else .ok { s with p := s.p * 10 + d }

def ploop (s : PState) : List Char → Except PErr PState
  | [] => .ok s
  | c :: cs => match pstep s c with
    | .error e => .error e
    | .ok s' => ploop s' cs

/-- `Decimal(String)` (decimal.cpp 233-286) -/
def parse (str : List Char) : Except PErr Decimal :=
  let (s, rest) : ℤ × List Char := match str with
    | '-' :: cs => (-1, cs)
    | '+' :: cs => (1, cs)
    | cs => (1, cs)
  match ploop ⟨false, 0, 0, 0⟩ rest with
  | .error e => .error e
  | .ok st => .ok ⟨st.p * s, st.q⟩

/-! ### Writing -/

/-- The decimal digit `d < 10` as a character. -/
def digitChar (d : ℕ) : Char := Char.ofNat (48 + d)

/-- `os << n` for a nonnegative `Integer` (source/numeric/integer.cpp 278-291):
`mpz_get_str` in base ten. -/
def printNat (n : ℕ) : List Char :=
  if n = 0 then ['0'] else (Nat.digits 10 n).reverse.map digitChar

/-- `while(r*ten<q) { q=quot(q,ten); os << "0"; }` (decimal.cpp 306) -/
def padding (r q : ℕ) : List Char :=
  if h : r * 10 < q then '0' :: padding r (q / 10) else []
termination_by q
decreasing_by omega

/-- `operator<<` (decimal.cpp 297-310) -/
def print (d : Decimal) : List Char :=
  let p := d.p.natAbs
  let q := 10 ^ d.q
  let n := p / q
  let r := p - n * q
  (if d.p < 0 then ['-'] else []) ++ printNat n ++ ['.'] ++
    (if r ≠ 0 then padding r q ++ printNat r else [])

/-- `operator Rational` (decimal.cpp 312-316); the denominator is not zero. -/
def toRational (d : Decimal) : ℚ := d.p / 10 ^ d.q

end Decimal
end Ariadne
