import Mathlib.Algebra.Order.Field.Basic
import Mathlib.Algebra.Order.Field.Power
import Mathlib.Algebra.Order.Floor.Ring
import Mathlib.Data.Int.Log
import Mathlib.Data.Rat.Floor
import Mathlib.Tactic.Linarith
import Mathlib.Tactic.Positivity
import Mathlib.Tactic.Ring
import Mathlib.Tactic.FieldSimp

/-!
# Directed rounding

Ariadne computes with two floating-point classes, `FloatDP` (hardware doubles,
source/numeric/floatdp.hpp 60-480, source/numeric/rounding.hpp 60-330) and
`FloatMP` (MPFR numbers, source/numeric/floatmp.hpp 60-420).  Every rounded
operation `op(rnd,x,y)` is the exact operation followed by rounding in the
direction `rnd ∈ {down, near, up}`: the IEEE-754 rule for the hardware, and the
documented contract of MPFR.

`Rounding K` is that contract for numbers taken from an ordered field `K`
(`ℚ` for dyadic, decimal and rational data; the theorems also hold for `ℝ`)
without overflow.  `pbit` is a concrete instance: binary significands of `p`
bits with an unbounded exponent, with ties to even.
-/

namespace Ariadne

/-- The contract of the rounding modes `down`, `near`, `up` at one working
precision (source/numeric/rounding.hpp 88-140, source/numeric/floatmp.hpp
83-104).  `Rep` holds of the numbers that the format stores exactly.
Simplification: the exponent is unbounded, so halving and doubling are exact
and nothing overflows (`XRounding` in `Verif.Bounds` adds overflow). -/
structure Rounding (K : Type*) [Field K] [LinearOrder K] [IsStrictOrderedRing K] where
  /-- the exactly representable numbers -/
  Rep : K → Prop
  /-- rounding towards minus infinity -/
  down : K → K
  /-- rounding towards plus infinity -/
  up : K → K
  /-- rounding to nearest -/
  near : K → K
  rep_down : ∀ x, Rep (down x)
  rep_up : ∀ x, Rep (up x)
  down_le : ∀ x, down x ≤ x
  le_up : ∀ x, x ≤ up x
  down_max : ∀ x y, Rep y → y ≤ x → y ≤ down x
  up_min : ∀ x y, Rep y → x ≤ y → up x ≤ y
  near_cases : ∀ x, near x = down x ∨ near x = up x
  near_down : ∀ x, |near x - x| ≤ x - down x
  near_up : ∀ x, |near x - x| ≤ up x - x
  rep_zero : Rep 0
  rep_one : Rep 1
  rep_neg : ∀ x, Rep x → Rep (-x)
  rep_half : ∀ x, Rep x → Rep (x / 2)
  rep_two : ∀ x, Rep x → Rep (2 * x)

namespace PBit

variable {K : Type*} [Field K] [LinearOrder K] [IsStrictOrderedRing K] [FloorRing K]

/-- Numbers with at most `p` significant bits: the values a `FloatMP` of
precision `p` (`mpfr_init2(x,p)`, source/numeric/floatmp.cpp 95-140) can take,
apart from infinities, NaN and exponent limits. -/
def Rep (p : ℕ) (x : K) : Prop :=
  ∃ m e : ℤ, x = (m : K) * (2 : K) ^ e ∧ |m| < (2 : ℤ) ^ p

/-- The unit in the last place of a `p`-bit number of the size of `x`. -/
def ulp (p : ℕ) (x : K) : K := (2 : K) ^ (Int.log 2 |x| - (p : ℤ) + 1)

/-- Round towards minus infinity to `p` significant bits
(`MPFR_RNDD`, source/numeric/floatmp.hpp 83-104). -/
def down (p : ℕ) (x : K) : K := (⌊x / ulp p x⌋ : K) * ulp p x

/-- Round towards plus infinity (`MPFR_RNDU`). -/
def up (p : ℕ) (x : K) : K := -down p (-x)

/-- Round to nearest, ties to the even significand (`MPFR_RNDN`). -/
def near (p : ℕ) (x : K) : K :=
  if x - down p x < up p x - x then down p x
  else if up p x - x < x - down p x then up p x
  else if ⌊x / ulp p x⌋ % 2 = 0 then down p x else up p x

end PBit

end Ariadne
