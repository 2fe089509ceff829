import Verif.Rounding.Props
import Verif.Expansion.Model
import Verif.Expansion.MultiIndex

/-!
# Taylor models

Model of `source/function/taylor_model.tpl.hpp` (abbreviated `tm` below) and
`source/algebra/sweeper.hpp` for validated models with floating-point coefficients
(`TaylorModel<ValidatedTag,F>`).  A model is a list of terms together with a uniform error.

Simplifications: the rounded arithmetic is an arbitrary `Rounding K`, so there is no overflow and no
NaN; the rounding mode is passed explicitly instead of being a global state; the number of arguments
is the length of the indices, and is passed explicitly where the code reads it from the object.
-/

namespace Verif.TaylorModel

open Ariadne (Rounding)
open Verif.Expansion (Terms degree revLexLess addIndex)

variable {K : Type*} [Field K] [LinearOrder K] [IsStrictOrderedRing K]

/-- `TaylorModel<ValidatedTag,F>`, `source/function/taylor_model.hpp`: the expansion and the uniform
error bound.  The sweeper is passed separately. -/
structure TM (K : Type*) where
  terms : Terms (List Nat) K
  err : K

/-- A `Bounds<F>` used as a number (`NumericType` of a validated model). -/
structure Num (K : Type*) where
  l : K
  u : K

/-- `Bounds::value_raw`, `source/numeric/float_bounds.hpp` line 160: `hlf(add(near,l,u))`. -/
def Num.value (R : Rounding K) (c : Num K) : K := R.near (c.l + c.u) / 2

/-- `Bounds::error_raw`, `source/numeric/float_bounds.hpp` line 161. -/
def Num.error (R : Rounding K) (c : Num K) : K :=
  max (R.up (c.u - c.value R)) (R.up (c.value R - c.l))

/-- `mag(Bounds)`, `source/numeric/float_bounds.hpp` lines 273-274. -/
def Num.mag (c : Num K) : K := max (-c.l) c.u

/-- The number with equal bounds, `Bounds(F)`. -/
def Num.exact (c : K) : Num K := ⟨c, c⟩

/-! ## Rounded operations accumulating their error

Each returns the rounded value and the new value of the accumulated error. -/

/-- `e += hlf(u+ml)` with upward rounding, as in tm line 625. -/
def accum (R : Rounding K) (u ml e : K) : K := R.up (e + R.up (R.up (u + ml) / 2))

/-- `add_err(F,F,Error&)`, tm lines 618-627. -/
def addErr (R : Rounding K) (x y e : K) : K × K :=
  (R.near (x + y), accum R (R.up (x + y)) (R.up (-x - y)) e)

/-- `sub_err(F,F,Error&)`, tm lines 664-673. -/
def subErr (R : Rounding K) (x y e : K) : K × K :=
  (R.near (x - y), accum R (R.up (x - y)) (R.up (-x + y)) e)

/-- `mul_err(F,F,Error&)`, tm lines 702-711. -/
def mulErr (R : Rounding K) (x y e : K) : K × K :=
  (R.near (x * y), accum R (R.up (x * y)) (R.up (-x * y)) e)

/-- `div_err(F,F,Error&)`, tm lines 772-781. -/
def divErr (R : Rounding K) (x y e : K) : K × K :=
  (R.near (x / y), accum R (R.up (x / y)) (R.up (-x / y)) e)

/-- `add_err(F,ValidatedApproximation,Error&)`, tm lines 629-642.  The middle of a
`ValidatedApproximation` is `value_raw` (tm line 573,
`source/numeric/float_approximation.tpl.hpp` line 44). -/
def addErrB (R : Rounding K) (x : K) (c : Num K) (e : K) : K × K :=
  (R.near (x + c.value R), accum R (R.up (x + c.u)) (R.up (-x - c.l)) e)

/-- `mul_err(F,ValidatedApproximation,Error&)`, tm lines 713-734. -/
def mulErrB (R : Rounding K) (x : K) (c : Num K) (e : K) : K × K :=
  (R.near (x * c.value R),
    if 0 ≤ x then accum R (R.up (x * c.u)) (R.up (x * -c.l)) e
    else accum R (R.up (x * c.l)) (R.up (x * -c.u)) e)

/-- `fma_err(F,F,F,Error&)`, tm lines 815-828.  `Rounded<F>` rounds each operation separately
(`source/numeric/rounded_float.hpp`), so there are two roundings in each expression. -/
def fmaErr (R : Rounding K) (x y z e : K) : K × K :=
  (R.near (R.near (x * y) + z),
    accum R (R.up (R.up (x * y) + z)) (R.up (R.up (x * -y) - z)) e)

/-! ## Sweepers -/

/-- A sweeper decides, from the whole model, which terms to discard.
`SweeperBase::_discard(a,x)` (`sweeper.hpp` line 113) looks only at the term;
`RelativeSweeperBase::_discard(x,nrm)` (line 153) also at a norm of the model. -/
abbrev Sweeper (K : Type*) := TM K → List Nat → K → Bool

/-- The loop of `_sweep`, tm lines 222-231 and 336-345: the kept terms and the error `te`. -/
def sweepLoop (R : Rounding K) (discard : List Nat → K → Bool) :
    Terms (List Nat) K → K → Terms (List Nat) K × K
  | [], te => ([], te)
  | (a, c) :: p, te =>
    if discard a c then sweepLoop R discard p (R.up (te + |c|))
    else ((a, c) :: (sweepLoop R discard p te).1, (sweepLoop R discard p te).2)

/-- `SweeperBase::_sweep` and `RelativeSweeperBase::_sweep` for floating-point coefficients, tm
lines 212-237 and 324-351. -/
def sweep (R : Rounding K) (s : Sweeper K) (t : TM K) : TM K :=
  ⟨(sweepLoop R (s t) t.terms 0).1, R.up (t.err + (sweepLoop R (s t) t.terms 0).2)⟩

/-- `radius(Expansion)`, tm lines 313-318. -/
def termsRadius (R : Rounding K) (p : Terms (List Nat) K) : K :=
  p.foldl (fun r t => if degree t.1 ≠ 0 then R.up (r + |t.2|) else r) 0

/-- `ThresholdSweeper::discard`, `sweeper.hpp` line 197. -/
def thresholdSweeper (th : K) : Sweeper K := fun _ _ x => decide (|x| < th)

/-- `RelativeThresholdSweeper::discard`, `sweeper.hpp` line 212, with the norm of tm line 331. -/
def relativeThresholdSweeper (R : Rounding K) (th : K) : Sweeper K :=
  fun t _ x => decide (|x| < R.near (th * R.up (termsRadius R t.terms + t.err)))

/-- `TrivialSweeper::discard`, `sweeper.hpp` line 224. -/
def trivialSweeper : Sweeper K := fun _ _ _ => false

/-- `NullSweeper::discard`, `sweeper.hpp` line 238. -/
def nullSweeper : Sweeper K := fun _ _ x => decide (x = 0)

/-- `AffineSweeper::discard`, `sweeper.hpp` line 250. -/
def affineSweeper : Sweeper K := fun _ a _ => decide (degree a > 1)

/-- `GradedSweeper::discard`, `sweeper.hpp` line 263. -/
def gradedSweeper (d : Nat) : Sweeper K := fun _ a _ => decide (degree a > d)

/-- `GradedThresholdSweeper::discard`, `sweeper.hpp` line 281. -/
def gradedThresholdSweeper (d : Nat) (th : K) : Sweeper K :=
  fun _ a x => decide (degree a > d) || decide (|x| < th)

/-! ### Sweeping models with interval coefficients -/

/-- `SweeperBase::_sweep` for `Bounds` (tm lines 239-264) and `UpperInterval` (tm lines 284-309)
coefficients: line 252 (297) reads `te+mag(...)` instead of `te+=mag(...)`, so `te` keeps its
initial value.  `discard` is applied to a value inside the coefficient. -/
def sweepLoopB (discard : List Nat → Num K → Bool) :
    Terms (List Nat) (Num K) → K → Terms (List Nat) (Num K) × K
  | [], te => ([], te)
  | (a, c) :: p, te =>
    if discard a c then sweepLoopB discard p te
    else ((a, c) :: (sweepLoopB discard p te).1, (sweepLoopB discard p te).2)

/-- As `sweepLoopB`, but with `te+=mag(...)`: `RelativeSweeperBase::_sweep` for `Bounds` (tm lines
353-380) and `UpperInterval` coefficients (tm lines 404-431). -/
def sweepLoopRel (R : Rounding K) (discard : List Nat → Num K → Bool) :
    Terms (List Nat) (Num K) → K → Terms (List Nat) (Num K) × K
  | [], te => ([], te)
  | (a, c) :: p, te =>
    if discard a c then sweepLoopRel R discard p (R.up (te + c.mag))
    else ((a, c) :: (sweepLoopRel R discard p te).1, (sweepLoopRel R discard p te).2)

/-! ## Linear operations -/

/-- `_sparse_apply(op,r)` without the final addition to the error, tm lines 876-881. -/
def apply1 (op : K → K → K × K) : Terms (List Nat) K → K → Terms (List Nat) K × K
  | [], e => ([], e)
  | (a, c) :: p, e =>
    ((a, (op c e).1) :: (apply1 op p (op c e).2).1, (apply1 op p (op c e).2).2)

/-- `_sparse_apply(op,r)`, tm lines 876-883. -/
def sparseApply1 (R : Rounding K) (op : K → K → K × K) (r : TM K) : TM K :=
  ⟨(apply1 op r.terms 0).1, R.up (r.err + (apply1 op r.terms 0).2)⟩

/-- The three overloads of a binary operation object, tm lines 930-939: on two coefficients, and on
one coefficient and `zero`. -/
structure Op2 (K : Type*) where
  both : K → K → K → K × K
  left : K → K
  right : K → K

/-- `AddErr`, tm lines 930-934. -/
def addOp (R : Rounding K) : Op2 K := ⟨addErr R, id, id⟩

/-- `SubErr`, tm lines 935-939. -/
def subOp (R : Rounding K) : Op2 K := ⟨subErr R, id, fun y => -y⟩

/-- The loops of the binary `_sparse_apply`, tm lines 888-915; the first argument bounds the number
of iterations and indices are compared by `reverse_lexicographic_less` (tm lines 184-185). -/
def apply2F (op : Op2 K) : Nat → Terms (List Nat) K → Terms (List Nat) K → K →
    Terms (List Nat) K × K
  | 0, _, _, e => ([], e)
  | _ + 1, [], [], e => ([], e)
  | n + 1, (a, x) :: p, [], e =>
    ((a, op.left x) :: (apply2F op n p [] e).1, (apply2F op n p [] e).2)
  | n + 1, [], (b, y) :: q, e =>
    ((b, op.right y) :: (apply2F op n [] q e).1, (apply2F op n [] q e).2)
  | n + 1, (a, x) :: p, (b, y) :: q, e =>
    if revLexLess a b then
      ((a, op.left x) :: (apply2F op n p ((b, y) :: q) e).1, (apply2F op n p ((b, y) :: q) e).2)
    else if revLexLess b a then
      ((b, op.right y) :: (apply2F op n ((a, x) :: p) q e).1, (apply2F op n ((a, x) :: p) q e).2)
    else
      ((a, (op.both x y e).1) :: (apply2F op n p q (op.both x y e).2).1,
        (apply2F op n p q (op.both x y e).2).2)

/-- `_add` and `_sub`, tm lines 1017-1036 (the result starts empty with zero error). -/
def combine (R : Rounding K) (s : Sweeper K) (op : Op2 K) (x y : TM K) : TM K :=
  let re := apply2F op (x.terms.length + y.terms.length) x.terms y.terms 0
  sweep R s ⟨re.1, R.up (R.up (0 + re.2) + R.up (x.err + y.err))⟩

/-- `_add`, tm lines 1017-1025. -/
def add (R : Rounding K) (s : Sweeper K) (x y : TM K) : TM K := combine R s (addOp R) x y

/-- `_sub`, tm lines 1028-1036. -/
def sub (R : Rounding K) (s : Sweeper K) (x y : TM K) : TM K := combine R s (subOp R) x y

/-- `_neg`, tm lines 951-955. -/
def neg (R : Rounding K) (x : TM K) : TM K := sparseApply1 R (fun c e => (-c, e)) x

/-- `_scal`, tm lines 963-966. -/
def scal (R : Rounding K) (x : TM K) (c : Num K) : TM K :=
  sparseApply1 R (fun v e => mulErrB R v c e) ⟨x.terms, R.up (x.err * c.mag)⟩

/-- `_acc`, tm lines 993-1007, for a model in `n` variables. -/
def acc (R : Rounding K) (n : Nat) (r : TM K) (c : Num K) : TM K :=
  if c.l = 0 ∧ c.u = 0 then r
  else match r.terms.getLast? with
    | none => ⟨r.terms ++ [(List.replicate n 0, c.value R)], R.up (r.err + c.error R)⟩
    | some t =>
      if degree t.1 > 0 then
        ⟨r.terms ++ [(List.replicate n 0, c.value R)], R.up (r.err + c.error R)⟩
      else
        ⟨r.terms.dropLast ++ [(t.1, (addErrB R t.2 c r.err).1)], (addErrB R t.2 c r.err).2⟩

/-- `TaylorModel::constant`, tm lines 481-484: the constant one, scaled. -/
def constant (R : Rounding K) (n : Nat) (c : Num K) : TM K :=
  scal R ⟨[(List.replicate n 0, 1)], 0⟩ c

/-- `TaylorModel::operator=(NumericType)`, tm lines 556-563. -/
def assign (R : Rounding K) (n : Nat) (c : Num K) : TM K :=
  if c.value R = 0 then ⟨[], R.up (0 + c.error R)⟩
  else ⟨[(List.replicate n 0, c.value R)], R.up (0 + c.error R)⟩

/-- `create_coordinate`, tm lines 508-514. -/
def coordinate (n j : Nat) : TM K := ⟨[((List.replicate n 0).set j 1, 1)], 0⟩

/-- `create_ball`, tm lines 516-521. -/
def ball (e : K) : TM K := ⟨[], e⟩

/-! ## Multiplication -/

/-- The merge loops of `_ifma` for one term `(xa,xv)` of `x`, tm lines 1076-1109. -/
def fmaLoopF (R : Rounding K) (fma : K → K → K → K → K × K) (xa : List Nat) (xv : K) :
    Nat → Terms (List Nat) K → Terms (List Nat) K → K → Terms (List Nat) K × K
  | 0, _, _, e => ([], e)
  | _ + 1, [], [], e => ([], e)
  | n + 1, r :: p, [], e =>
    (r :: (fmaLoopF R fma xa xv n p [] e).1, (fmaLoopF R fma xa xv n p [] e).2)
  | n + 1, [], (ya, yv) :: q, e =>
    let tv := mulErr R xv yv e
    ((addIndex xa ya, tv.1) :: (fmaLoopF R fma xa xv n [] q tv.2).1,
      (fmaLoopF R fma xa xv n [] q tv.2).2)
  | n + 1, (ra, rv) :: p, (ya, yv) :: q, e =>
    let ta := addIndex xa ya
    if ra = ta then
      let tv := fma xv yv rv e
      ((ta, tv.1) :: (fmaLoopF R fma xa xv n p q tv.2).1, (fmaLoopF R fma xa xv n p q tv.2).2)
    else if revLexLess ra ta then
      ((ra, rv) :: (fmaLoopF R fma xa xv n p ((ya, yv) :: q) e).1,
        (fmaLoopF R fma xa xv n p ((ya, yv) :: q) e).2)
    else
      let tv := mulErr R xv yv e
      ((ta, tv.1) :: (fmaLoopF R fma xa xv n ((ra, rv) :: p) q tv.2).1,
        (fmaLoopF R fma xa xv n ((ra, rv) :: p) q tv.2).2)

/-- One iteration of the outer loop of `_ifma`, tm lines 1072-1118. -/
def fmaStep (R : Rounding K) (fma : K → K → K → K → K × K) (s : Sweeper K)
    (y : Terms (List Nat) K) (r : TM K) (t : List Nat × K) : TM K :=
  let p := fmaLoopF R fma t.1 t.2 (r.terms.length + y.length) r.terms y 0
  sweep R s ⟨p.1, R.up (r.err + p.2)⟩

/-- The sums `xs` and `ys` of magnitudes, tm lines 1120-1128. -/
def magSum (R : Rounding K) (p : Terms (List Nat) K) : K := p.foldl (fun r t => R.up (r + |t.2|)) 0

/-- `_ifma`, tm lines 1061-1136: `r += x*y`. -/
def ifmaWith (fma : K → K → K → K → K × K) (R : Rounding K) (s : Sweeper K) (r x y : TM K) : TM K :=
  let p := x.terms.foldl (fmaStep R fma s y.terms) r
  let xs := magSum R x.terms
  let ys := magSum R y.terms
  ⟨p.terms, R.up (R.up (p.err + R.up (x.err * y.err)) +
    R.up (R.up (xs * y.err) + R.up (ys * x.err)))⟩

/-- `_ifma` with the code's `fma_err`. -/
def ifma (R : Rounding K) (s : Sweeper K) (r x y : TM K) : TM K := ifmaWith (fmaErr R) R s r x y

/-- `_mul`, tm lines 1145-1151. -/
def mul (R : Rounding K) (s : Sweeper K) (x y : TM K) : TM K := ifma R s ⟨[], 0⟩ x y

/-! ## Normalisation -/

/-- The inner loop of `unique`, tm lines 1245-1249. -/
def uniqueAbsorb (R : Rounding K) (a : List Nat) : K → Terms (List Nat) K → K →
    K × Terms (List Nat) K × K
  | v, [], e => (v, [], e)
  | v, (b, c) :: p, e =>
    if b = a then uniqueAbsorb R a (addErr R v c e).1 p (addErr R v c e).2 else (v, (b, c) :: p, e)

/-- The outer loop of `unique`, tm lines 1241-1252. -/
def uniqueF (R : Rounding K) : Nat → Terms (List Nat) K → K → Terms (List Nat) K × K
  | 0, _, e => ([], e)
  | _ + 1, [], e => ([], e)
  | n + 1, (a, c) :: p, e =>
    let r := uniqueAbsorb R a c p e
    ((a, r.1) :: (uniqueF R n r.2.1 r.2.2).1, (uniqueF R n r.2.1 r.2.2).2)

/-- `TaylorModel::unique`, tm lines 1235-1257. -/
def unique (R : Rounding K) (t : TM K) : TM K :=
  let r := uniqueF R t.terms.length t.terms 0
  ⟨r.1, R.up (t.err + r.2)⟩

/-! ## Norms and relations -/

/-- `TaylorModel::norm`, tm lines 1914-1921. -/
def norm (R : Rounding K) (t : TM K) : K := R.up (magSum R t.terms + t.err)

/-- `TaylorModel::radius`, tm lines 1903-1912. -/
def radius (R : Rounding K) (t : TM K) : K := R.up (termsRadius R t.terms + t.err)

/-- `TaylorModel::_refines`, tm lines 1928-1935. -/
def refines (R : Rounding K) (s : Sweeper K) (x y : TM K) : Bool :=
  decide (norm R (sub R s ⟨y.terms, 0⟩ x) ≤ y.err)

/-- The coefficient with index zero, `TaylorModel::value`: the constant coefficient of the expansion
(model in `n` variables). -/
def constantTerm (n : Nat) (t : TM K) : K := Verif.Expansion.get t.terms (List.replicate n 0)

/-- `TaylorModel::_inconsistent`, tm lines 1948-1952; the difference of two floating-point numbers is
a `Bounds` (`source/numeric/floatdp.hpp`), whose magnitude is compared. -/
def inconsistent (R : Rounding K) (n : Nat) (x y : TM K) : Bool :=
  let d := constantTerm n x - constantTerm n y
  decide (R.up (x.err + y.err) < (Num.mag ⟨R.down d, R.up d⟩))

/-- `refinement(xv.pm(xe),yv.pm(ye))`, tm line 2017: balls are converted to bounds, intersected, and
converted back (`source/numeric/float_ball.hpp` lines 390-391,
`source/numeric/float_ball.tpl.hpp` lines 58-61).  `none` is the exception on lines 2018-2020. -/
def refineBall (R : Rounding K) (xv xe yv ye : K) : Option (K × K) :=
  let b : Num K := ⟨max (R.down (xv - xe)) (R.down (yv - ye)), min (R.up (xv + xe)) (R.up (yv + ye))⟩
  if b.error R < 0 then none else some (b.value R, b.error R)

/-- The loop of `_refinement`, tm lines 1974-2024. -/
def refinementF (R : Rounding K) (xe ye : K) : Nat → Terms (List Nat) K → Terms (List Nat) K → K →
    Option (Terms (List Nat) K × K)
  | 0, _, _, e => some ([], e)
  | _ + 1, [], [], e => some ([], e)
  | n + 1, p, q, e =>
    let (a, xv, yv, p', q') : List Nat × K × K × Terms (List Nat) K × Terms (List Nat) K :=
      match p, q with
      | [], (b, y) :: q' => (b, 0, y, [], q')
      | (a, x) :: p', [] => (a, x, 0, p', [])
      | (a, x) :: p', (b, y) :: q' =>
        if a = b then (a, x, y, p', q')
        else if revLexLess a b then (a, x, 0, p', (b, y) :: q')
        else (b, 0, y, (a, x) :: p', q')
      | [], [] => ([], 0, 0, [], [])
    match refineBall R xv xe yv ye with
    | none => none
    | some (v, d) =>
      match refinementF R xe ye n p' q' (max e d) with
      | none => none
      | some (r, e') => some (if v ≠ 0 then ((a, v) :: r, e') else (r, e'))

/-- `TaylorModel::_refinement`, tm lines 1958-2026; `none` is an `IntersectionException`. -/
def refinement (R : Rounding K) (x y : TM K) : Option (TM K) :=
  (refinementF R x.err y.err (x.terms.length + y.terms.length) x.terms y.terms 0).map
    (fun r => ⟨r.1, r.2⟩)

/-! ## Structural operations -/

/-- `_embed_error`, tm lines 1560-1582, for a model in `n` variables. -/
def embedError (n : Nat) (t : TM K) : TM K :=
  ⟨(List.replicate n 0 ++ [1], t.err) :: t.terms.map (fun u => (u.1 ++ [0], u.2)), 0⟩

/-- `complement`, `source/utility/array.hpp` lines 249-260: the numbers below `nmax` not in the
increasing list `vars`. -/
def complementF : Nat → Nat → List Nat → List Nat
  | 0, _, _ => []
  | n + 1, j, [] => j :: complementF n (j + 1) []
  | n + 1, j, v :: vs =>
    if j ≠ v then j :: complementF n (j + 1) (v :: vs) else complementF n (j + 1) vs

/-- `complement`, `source/utility/array.hpp` lines 249-260. -/
def complement (nmax : Nat) (vars : List Nat) : List Nat := complementF nmax 0 vars

/-- `_discard_variables`, tm lines 1584-1626, for a nonempty increasing list of variables.
Simplification: the preconditions on lines 1585-1588 are hypotheses of the theorems. -/
def discardVariables (R : Rounding K) (n : Nat) (dvs : List Nat) (t : TM K) : TM K :=
  let kept := complement n dvs
  let keep := fun a : List Nat => dvs.all (fun k => a.getD k 0 = 0)
  let derr := t.terms.foldl (fun e u => if keep u.1 then e else R.up (e + |u.2|)) |t.err|
  ⟨(t.terms.filter (fun u => keep u.1)).map (fun u => (kept.map (fun k => u.1.getD k 0), u.2)),
    R.up (0 + derr)⟩

/-- `antidifferentiate`, tm lines 1637-1650; exponents are `DegreeType`s. -/
def antidifferentiate (R : Rounding K) (k : Nat) (t : TM K) : TM K :=
  let rec loop : Terms (List Nat) K → K → Terms (List Nat) K × K
    | [], e => ([], e)
    | (a, c) :: p, e =>
      let b := a.set k (Verif.Expansion.wrap (a.getD k 0 + 1))
      let r := divErr R c ((b.getD k 0 : Nat) : K) e
      ((b, r.1) :: (loop p r.2).1, (loop p r.2).2)
  let r := loop t.terms 0
  ⟨r.1, R.up (t.err + r.2)⟩

/-- `differentiate`, tm lines 1661-1684: the error is cleared first. -/
def differentiate (R : Rounding K) (k : Nat) (t : TM K) : TM K :=
  let rec loop : Terms (List Nat) K → K → Terms (List Nat) K × K
    | [], e => ([], e)
    | (a, c) :: p, e =>
      if a.getD k 0 ≠ 0 then
        let r := mulErr R c ((a.getD k 0 : Nat) : K) e
        ((a.set k (a.getD k 0 - 1), r.1) :: (loop p r.2).1, (loop p r.2).2)
      else loop p e
  let r := loop t.terms 0
  ⟨r.1, r.2⟩

end Verif.TaylorModel
