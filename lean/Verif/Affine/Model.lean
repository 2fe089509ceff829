import Verif.TaylorModel.Canonical

/-!
# Affine models

`AffineModel<ValidatedTag,F>`, `source/function/affine_model.hpp` and `affine_model.tpl.hpp`: an affine polynomial on
the unit box `[-1,+1]^n` with rounded coefficients and a uniform error bound.  Line numbers without a file refer to
`affine_model.tpl.hpp`; `mu` is `source/function/model_utilities.hpp`.

Numbers are those of a field `K` rounded by `R`; infinities, NaN and overflow are left out, as in the model of Taylor
models.  All coefficients have the same precision.  An operation which constructs a negative `Error` throws
(`source/numeric/float_error.hpp` line 78); it has the result `none`.
-/

namespace Verif.Affine

open Ariadne (Rounding)
open Verif.TaylorModel (TM Num accum addErr mulErr mulErrB)
open Verif.Expansion (degree)

variable {K : Type*} [Field K] [LinearOrder K] [IsStrictOrderedRing K] {n m : ℕ}

/-- The data of an `AffineModel<ValidatedTag,F>`: `_c`, `_g` and `_e`, `affine_model.hpp` lines 198-200. -/
structure AM (n : ℕ) (K : Type*) where
  val : K
  grad : Fin n → K
  err : K

/-- The constructor `Error(F)`, `source/numeric/float_error.hpp` line 78, which throws for a negative argument. -/
def chk (e : K) : Option K := if e < 0 then none else some e

/-- `operator+(Error,Error)`, `source/numeric/float_error.hpp` line 109. -/
def eadd (R : Rounding K) (x y : K) : Option K := chk (R.up (x + y))

/-- `operator*(Error,Error)`, `source/numeric/float_error.hpp` line 110. -/
def emul (R : Rounding K) (x y : K) : Option K := chk (R.up (x * y))

/-- `AffineModel(n,prec)`, `affine_model.hpp` line 143, and `create_zero`, lines 156-157. -/
def zero (n : ℕ) : AM n K := ⟨0, fun _ => 0, 0⟩

/-- `constant`, `affine_model.hpp` lines 158-159. -/
def constant (n : ℕ) (c : K) : AM n K := ⟨c, fun _ => 0, 0⟩

/-- `coordinate`, `affine_model.hpp` lines 160-161. -/
def coordinate (n : ℕ) (j : Fin n) : AM n K := ⟨0, fun i => if i = j then 1 else 0, 0⟩

/-- Lines 153-162: `apply(Neg,a)`. -/
def neg (a : AM n K) : AM n K := ⟨-a.val, fun i => -a.grad i, a.err⟩

/-- A loop over the coefficients which accumulates errors: the coefficient `i` of the result is `(op i e).1`, whose
value does not depend on the error `e` so far, and the error becomes `(op i e).2`. -/
def accumulate (op : Fin n → K → K × K) (e : K) : K :=
  (List.finRange n).foldl (fun e i => (op i e).2) e

/-- Lines 164-176: `apply(Add,a1,a2)`. -/
def add (R : Rounding K) (a b : AM n K) : Option (AM n K) :=
  let v := addErr R a.val b.val 0
  let e := accumulate (fun i e => addErr R (a.grad i) (b.grad i) e) v.2
  do
    let s ← eadd R a.err b.err
    let t ← eadd R e s
    pure ⟨v.1, fun i => (addErr R (a.grad i) (b.grad i) 0).1, t⟩

/-- `lin_err`, mu lines 338-349: an approximation of `a1*b2+b1*a2`. -/
def linErr (R : Rounding K) (a1 b1 a2 b2 e : K) : K × K :=
  (R.near (R.near (a1 * b2) + R.near (b1 * a2)),
    accum R (R.up (R.up (a1 * b2) + R.up (b1 * a2))) (R.up (R.up (a1 * -b2) + R.up (-b1 * a2))) e)

/-- Lines 138-144: `norm(Covector)`, the sum of the absolute values of the coefficients. -/
def norm (R : Rounding K) (g : Fin n → K) : K :=
  (List.finRange n).foldl (fun r i => R.up (r + |g i|)) 0

/-- Lines 178-195: `apply(Mul,a1,a2)`.  The error has the brackets of lines 190-192, where
`mag(a1.value())+norm(a1.gradient())` is not in brackets of its own. -/
def mul (R : Rounding K) (a b : AM n K) : Option (AM n K) :=
  let v := mulErr R a.val b.val 0
  let op := fun i e => linErr R a.val (a.grad i) b.val (b.grad i) e
  let e := accumulate op v.2
  do
    let ee ← emul R a.err b.err
    let s1 ← eadd R e ee
    let ne ← emul R (norm R a.grad) b.err
    let l ← eadd R |a.val| ne
    let vn ← eadd R |b.val| (norm R b.grad)
    let r ← emul R a.err vn
    let lr ← eadd R l r
    let s2 ← eadd R s1 lr
    let nn ← emul R (norm R a.grad) (norm R b.grad)
    let t ← eadd R s2 nn
    pure ⟨v.1, fun i => (op i 0).1, t⟩

/-- `add_err(F,ValidatedApproximation,Error&)`, mu lines 91-104.  The lower bound is *added* to `-x` (line 101), where
`taylor_model.tpl.hpp` line 639 subtracts it. -/
def addErrN (R : Rounding K) (x : K) (c : Num K) (e : K) : K × K :=
  (R.near (x + c.value R), accum R (R.up (x + c.u)) (R.up (-x + c.l)) e)

/-- Lines 197-205: `apply(Add,c,a)` and `apply(Add,a,c)`. -/
def addNum (R : Rounding K) (a : AM n K) (c : Num K) : AM n K :=
  let v := addErrN R a.val c a.err
  ⟨v.1, a.grad, v.2⟩

/-- `neg(Bounds)`. -/
def numNeg (c : Num K) : Num K := ⟨-c.u, -c.l⟩

/-- `sub(a,c)`, `source/algebra/operations.hpp` line 256. -/
def subNum (R : Rounding K) (a : AM n K) (c : Num K) : AM n K := addNum R a (numNeg c)

/-- Lines 207-222: `apply(Mul,c,a)` and `apply(Mul,a,c)`. -/
def mulNum (R : Rounding K) (a : AM n K) (c : Num K) : Option (AM n K) :=
  let v := mulErrB R a.val c 0
  let e := accumulate (fun i e => mulErrB R (a.grad i) c e) v.2
  do
    let m ← emul R c.mag a.err
    let t ← eadd R e m
    pure ⟨v.1, fun i => (mulErrB R (a.grad i) c 0).1, t⟩

/-- Lines 226-244: the constructor from an `Affine<Bounds<F>>` with value `c` and gradient `g`. -/
def ofAffine (R : Rounding K) (c : Num K) (g : Fin n → Num K) : Option (AM n K) :=
  let e := (List.finRange n).foldl (fun e i => R.up (e + (g i).error R)) 0
  (chk (R.up (e + c.error R))).map fun e => ⟨c.value R, fun i => (g i).value R, e⟩

/-- The loop of lines 253-266 over the terms of a Taylor model. -/
def ofTerms (R : Rounding K) : List (List ℕ × K) → AM n K → Option (AM n K)
  | [], r => some r
  | (a, c) :: l, r =>
    if 2 ≤ degree a then (eadd R |c| r.err).bind fun e => ofTerms R l { r with err := e }
    else if degree a = 1 then
      match (List.finRange n).find? fun i => a[i.val]? == some 1 with
      | some i => ofTerms R l { r with grad := fun j => if j = i then c else r.grad j }
      | none => ofTerms R l r
    else ofTerms R l { r with val := c }

/-- Lines 246-269: the constructor from a Taylor model. -/
def ofTaylor (R : Rounding K) (t : TM K) : Option (AM n K) :=
  (ofTerms R t.terms (zero n)).bind fun r => (eadd R t.err r.err).map fun e => { r with err := e }

/-- `Interval::midpoint`, `source/geometry/interval.inl.hpp` line 48: the value of the half of the sum of the bounds,
which is computed as a `Bounds` (`make_split_point`, line 29). -/
def midpoint (R : Rounding K) (l u : K) : K :=
  (⟨R.down (l + u) / 2, R.up (l + u) / 2⟩ : Num K).value R

/-- `Interval::radius`, `source/geometry/interval.inl.hpp` line 49. -/
def radius (R : Rounding K) (l u : K) : Num K :=
  let m := midpoint R l u
  ⟨max (R.down (u - m)) (R.down (m - l)), max (R.up (u - m)) (R.up (m - l))⟩

/-- Lines 301-310: `scaling`. -/
def scaling (R : Rounding K) (n : ℕ) (j : Fin n) (l u : K) : Option (AM n K) :=
  (mulNum R (coordinate n j) (radius R l u)).map fun r => addNum R r (Num.exact (midpoint R l u))

/-- Lines 333-341: `range`. -/
def range (R : Rounding K) (a : AM n K) : Option (Num K) :=
  ((List.finRange n).foldlM (fun e i => eadd R e |a.grad i|) a.err).map fun e =>
    ⟨R.down (a.val - e), R.up (a.val + e)⟩

/-- `evaluate`, `affine_model.hpp` lines 203-210, for interval arguments: a sum of rounded products of intervals. -/
def evaluate (R : Rounding K) (a : AM n K) (v : Fin n → Num K) : Num K :=
  let r := (List.finRange n).foldl (fun (r : Num K) i =>
    let lo := min (a.grad i * (v i).l) (a.grad i * (v i).u)
    let hi := max (a.grad i * (v i).l) (a.grad i * (v i).u)
    (⟨R.down (r.l + R.down lo), R.up (r.u + R.up hi)⟩ : Num K)) ⟨R.down (0 + a.val), R.up (0 + a.val)⟩
  ⟨R.down (r.l - a.err), R.up (r.u + a.err)⟩

/-- `A*(g-c)`, the sum of products of a covector of numbers and the models less their values, starting from the zero
model (`operator*(Covector,Vector)`). -/
def linear (R : Rounding K) (A : Fin m → Num K) (g : Fin m → AM n K) : Option (AM n K) :=
  (List.finRange m).foldlM (fun r i =>
    (mulNum R (subNum R (g i) (Num.exact (g i).val)) (A i)).bind fun t => add R r t) (zero n)

/-- Lines 380-388: `_compose`.  `f` gives bounds on the function at a point, `df` bounds on its derivatives over a box.
-/
def compose (R : Rounding K) (f : (Fin m → K) → Num K) (df : (Fin m → Num K) → Fin m → Num K) (g : Fin m → AM n K) :
    Option (AM n K) := do
  let d ← (List.finRange m).mapM fun i => range R (g i)
  let A := df fun i => d.getD i.val ⟨0, 0⟩
  let r ← linear R A g
  pure (addNum R r (f fun i => (g i).val))

end Verif.Affine
