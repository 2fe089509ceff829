import Verif.Logical.Model
import Mathlib.Data.Nat.Notation

/-!
# Complex numbers

Model of `Complex<X>` (source/numeric/complex.hpp), for any type `X` of numbers with the operations used.
-/

namespace Verif.Complex

open Ariadne.Logical (LV)

/-- The arithmetic operations of a type of numbers used by `Complex<X>`: those of `FloatBounds` (float_bounds.hpp 206-240,
modelled in Verif/Bounds), of `Real`, of `FloatApproximation`.  `nat n` is the number `n` of the type. -/
structure Arith (X : Type*) where
  add : X → X → X
  sub : X → X → X
  mul : X → X → X
  div : X → X → X
  neg : X → X
  hlf : X → X
  sqr : X → X
  nat : ℕ → X

/-- The elementary functions used (complex.hpp 56-67, 229-234). `gt0 x` is `decide(x>0)`, `lt0 x` is `decide(x<0)`. -/
structure Elem (X : Type*) where
  sqrt : X → X
  exp : X → X
  log : X → X
  cos : X → X
  sin : X → X
  atan : X → X
  /-- `pi/2` -/
  hlfPi : X
  /-- `pi/(-2)` -/
  negHlfPi : X
  gt0 : X → Bool
  lt0 : X → Bool

/-- `_re` and `_im` (complex.hpp 156) -/
structure Cx (X : Type*) where
  re : X
  im : X
deriving DecidableEq

variable {X : Type*} (A : Arith X) (L : Elem X)

namespace Cx

/-- complex.hpp 166 -/
def ofReal (x : X) : Cx X := ⟨x, A.nat 0⟩
/-- complex.hpp 70-71, 220-221 -/
def add (z1 z2 : Cx X) : Cx X := ⟨A.add z1.re z2.re, A.add z1.im z2.im⟩
/-- complex.hpp 72-73, 222-223 -/
def sub (z1 z2 : Cx X) : Cx X := ⟨A.sub z1.re z2.re, A.sub z1.im z2.im⟩
/-- complex.hpp 74-75, 224-225 -/
def mul (z1 z2 : Cx X) : Cx X :=
  ⟨A.sub (A.mul z1.re z2.re) (A.mul z1.im z2.im), A.add (A.mul z1.re z2.im) (A.mul z1.im z2.re)⟩
/-- complex.hpp 76-77, 226-227 -/
def div (z1 z2 : Cx X) : Cx X :=
  let ns := A.add (A.sqr z2.re) (A.sqr z2.im)
  ⟨A.div (A.add (A.mul z1.re z2.re) (A.mul z1.im z2.im)) ns,
   A.div (A.sub (A.mul z1.im z2.re) (A.mul z1.re z2.im)) ns⟩
/-- complex.hpp 79-80 -/
def addReal (z1 : Cx X) (x2 : X) : Cx X := ⟨A.add z1.re x2, z1.im⟩
/-- complex.hpp 81-82 -/
def realAdd (x1 : X) (z2 : Cx X) : Cx X := ⟨A.add x1 z2.re, z2.im⟩
/-- complex.hpp 83-84 -/
def subReal (z1 : Cx X) (x2 : X) : Cx X := ⟨A.sub z1.re x2, z1.im⟩
/-- complex.hpp 85-86 -/
def realSub (x1 : X) (z2 : Cx X) : Cx X := ⟨A.sub x1 z2.re, A.neg z2.im⟩
/-- complex.hpp 87-88 -/
def mulReal (z1 : Cx X) (x2 : X) : Cx X := ⟨A.mul z1.re x2, A.mul z1.im x2⟩
/-- complex.hpp 89-90 -/
def realMul (x1 : X) (z2 : Cx X) : Cx X := ⟨A.mul x1 z2.re, A.mul x1 z2.im⟩
/-- complex.hpp 91-92 -/
def realDiv (x1 : X) (z2 : Cx X) : Cx X :=
  let ns := A.add (A.sqr z2.re) (A.sqr z2.im)
  ⟨A.div (A.mul x1 z2.re) ns, A.div (A.mul (A.neg x1) z2.im) ns⟩
/-- complex.hpp 93-94 -/
def divReal (z1 : Cx X) (x2 : X) : Cx X := ⟨A.div z1.re x2, A.div z1.im x2⟩
/-- complex.hpp 112-113, for an equality of the numbers with three values -/
def eq (eqX : X → X → LV) (z1 z2 : Cx X) : LV := (eqX z1.re z2.re).and_ (eqX z1.im z2.im)
/-- complex.hpp 114-115 -/
def ne (neX : X → X → LV) (z1 z2 : Cx X) : LV := (neX z1.re z2.re).or_ (neX z1.im z2.im)
/-- complex.hpp 129-130 -/
def nul (_ : Cx X) : Cx X := ⟨A.nat 0, A.nat 0⟩
/-- complex.hpp 131-132 -/
def pos (z : Cx X) : Cx X := z
/-- complex.hpp 133-134 -/
def neg (z : Cx X) : Cx X := ⟨A.neg z.re, A.neg z.im⟩
/-- complex.hpp 135-136 -/
def hlf (z : Cx X) : Cx X := ⟨A.hlf z.re, A.hlf z.im⟩
/-- complex.hpp 137-138 -/
def sqr (z : Cx X) : Cx X :=
  ⟨A.sub (A.sqr z.re) (A.sqr z.im), A.mul (A.mul (A.nat 2) z.re) z.im⟩
/-- complex.hpp 139-140 -/
def recip (z : Cx X) : Cx X :=
  let ns := A.add (A.sqr z.re) (A.sqr z.im)
  ⟨A.div z.re ns, A.div (A.neg z.im) ns⟩
/-- complex.hpp 245 -/
def conj (z : Cx X) : Cx X := ⟨z.re, A.neg z.im⟩
/-- `make_complex_from_polar` and `Complex(r,th,PolarTag)` (complex.hpp 146-147, 172) -/
def ofPolar (r th : X) : Cx X := ⟨A.mul (L.exp r) (L.cos th), A.mul (L.exp r) (L.sin th)⟩
/-- `modulus`, `abs` (complex.hpp 192, 241) -/
def modulus (z : Cx X) : X := L.sqrt (A.add (A.sqr z.re) (A.sqr z.im))
/-- `atan2` (complex.hpp 62-67); `none`: an exception -/
def atan2 (x y : X) : Option X :=
  if L.gt0 x then some (L.atan (A.div y x))
  else if L.gt0 y then some (A.sub L.hlfPi (L.atan (A.div x y)))
  else if L.lt0 y then some (A.sub L.negHlfPi (L.atan (A.div x y)))
  else none
/-- `argument`, `arg` (complex.hpp 193, 244) -/
def argument (z : Cx X) : Option X := atan2 A L z.re z.im
/-- complex.hpp 229-230 -/
def sqrt (z : Cx X) : Option (Cx X) :=
  (argument A L z).map fun t =>
    let r := L.sqrt (modulus A L z)
    let th := A.hlf t
    ⟨A.mul r (L.cos th), A.mul r (L.sin th)⟩
/-- complex.hpp 231-232 -/
def exp (z : Cx X) : Cx X :=
  let a := L.exp z.re
  ⟨A.mul a (L.cos z.im), A.mul a (L.sin z.im)⟩
/-- complex.hpp 233-234; the division by 2 is halving, here and in `sqrt` -/
def log (z : Cx X) : Option (Cx X) :=
  (argument A L z).map fun th => ⟨A.hlf (L.log (A.add (A.sqr z.re) (A.sqr z.im))), th⟩
/-- `dist` (complex.hpp 250) -/
def dist (z1 z2 : Cx X) : X := modulus A L (sub A z1 z2)

end Cx

end Verif.Complex
