import Verif.Expansion.Props
import Mathlib.Algebra.Field.Defs
import Mathlib.Data.List.Sort
import Mathlib.Data.List.FinRange
/-!
# Differentials: truncated power series in several variables

Model of `source/algebra/differential.hpp`, `source/algebra/differential.tpl.hpp` (cited as "tpl"),
`source/algebra/univariate_differential.{hpp,tpl.hpp}` ("uni") and `source/algebra/series.hpp`.

A `Differential<X>` is a `SortedExpansion<MultiIndex,X,GradedIndexLess>` with a degree
(`differential.hpp` lines 98-99).  The number of arguments is the type parameter `n`, so the
assertions that argument sizes agree always hold.  The coefficients are exact: a field with decidable
equality, so `decide(c==0)` is equality.  The zero coefficient carrying the precision is `0`.
Multi-indices have 16-bit exponents as in `Verif.Expansion.MultiIndex`.
-/
namespace Verif.Differential
open Verif.Expansion

variable {n m : Nat} {K : Type*}

/-! ### Multi-indices -/

/-- `graded_less`, `multi_index.inl.hpp` lines 55-57. -/
def gl (a b : MIndex n) : Bool := gradedLess a.1 b.1

/-- `MultiIndex(n)`, `multi_index.inl.hpp` line 68: the zero index. -/
def zeroIx (n : Nat) : MIndex n := ⟨List.replicate n 0, by simp⟩

/-- Setting component `j`, `a[j]=k`, `multi_index.inl.hpp` line 37; the number is stored in a
`DegreeType`. -/
def setIx (a : MIndex n) (j : Fin n) (k : Nat) : MIndex n := ⟨a.1.set j (wrap k), by simp [a.2]⟩

/-- Component `j`, `a[j]`, `multi_index.inl.hpp` line 36. -/
def getIx (a : MIndex n) (j : Fin n) : Nat := a.1[j.1]'(by rw [a.2]; exact j.2)

/-- `MultiIndex::unit(n,j)`, `multi_index.inl.hpp` line 80. -/
def unitIx (j : Fin n) : MIndex n := setIx (zeroIx n) j 1

/-- `operator+(MultiIndex,MultiIndex)`, `multi_index.inl.hpp` lines 85, 89. -/
def addIx (a b : MIndex n) : MIndex n := ⟨addIndex a.1 b.1, by simp [addIndex, a.2, b.2]⟩

/-! ### Differentials -/

/-- `Differential<X>` in `n` arguments, `differential.hpp` lines 98-99. -/
structure Diff (n : Nat) (K : Type*) where
  deg : Nat
  terms : Terms (MIndex n) K

variable [Field K] [DecidableEq K]

/-- `Differential(as,deg,z)`, tpl line 53; also `create`, `create_zero`, tpl lines 321-327. -/
def zero (d : Nat) : Diff n K := ⟨d, []⟩

/-- `Differential::cleanup`, tpl lines 342-346.  `std::sort` may leave the terms with equal indices
in any order; since addition is exact the result of `combine_terms` does not depend on it, and
insertion sort is used here. -/
def cleanup (e : Terms (MIndex n) K) : Terms (MIndex n) K :=
  removeZeros (combineTerms (e.insertionSort (fun s t => gl t.1 s.1 = false)))

/-- `Differential(Expansion,deg)`, tpl lines 70-77. -/
def ofExpansion (e : Terms (MIndex n) K) (d : Nat) : Diff n K :=
  ⟨d, cleanup (e.filter (fun t => decide (degree t.1.1 ≤ d)))⟩

/-- `Differential::constant`, tpl lines 87-91. -/
def const (d : Nat) (c : K) : Diff n K := ⟨d, [(zeroIx n, c)]⟩

/-- `Differential::variable`, tpl lines 93-101. -/
def var (d : Nat) (v : K) (j : Fin n) : Diff n K := ⟨d, [(zeroIx n, v), (unitIx j, 1)]⟩

/-- `Differential::affine(as,deg,x,g)`, tpl lines 103-114. -/
def affine (d : Nat) (x : K) (g : Fin n → K) : Diff n K :=
  ⟨d, (zeroIx n, x) :: (List.finRange n).map (fun j => (unitIx j, g j))⟩

/-- `Differential::affine(deg,v,G)`, tpl lines 149-161, component `i`: the term for the entry `G[i][j]`
is appended with the index `a[i]=1`, whatever `j` is. -/
def affineVec (d : Nat) (v : Fin n → K) (G : Fin n → Fin n → K) (i : Fin n) : Diff n K :=
  ⟨d, (zeroIx n, v i) :: ((List.finRange n).filter (fun j => decide (G i j ≠ 0))).map
    (fun j => (unitIx i, G i j))⟩

/-- The constant `Differential::operator[](MultiIndex)`, tpl lines 275-280, through the linear
search of `Expansion::find`. -/
def coef (x : Diff n K) (a : MIndex n) : K := get x.terms a

/-- `Differential::value`, tpl lines 226-228. -/
def value (x : Diff n K) : K := coef x (zeroIx n)

/-- `Differential::gradient(j)`, tpl lines 230-232. -/
def gradient (x : Diff n K) (j : Fin n) : K := coef x (unitIx j)

/-- Assignment through the non-constant `operator[]`, tpl lines 270-273: `_expansion.at(a)=c`. -/
def setCoef (x : Diff n K) (a : MIndex n) (c : K) : Diff n K := ⟨x.deg, sset gl x.terms a c⟩

/-- `Differential::set_value`, tpl lines 295-297. -/
def setValue (x : Diff n K) (c : K) : Diff n K := setCoef x (zeroIx n) c

/-- `Differential::set_degree`, tpl lines 283-293: the terms are cut off at the first one of higher
degree. -/
def setDegree (x : Diff n K) (d : Nat) : Diff n K :=
  if d < x.deg then ⟨d, x.terms.takeWhile (fun t => !decide (degree t.1.1 > d))⟩ else ⟨d, x.terms⟩

/-- The loops of `Differential::operator==`, tpl lines 177-194, with the total number of terms as
fuel. -/
def eqF : Nat → Terms (MIndex n) K → Terms (MIndex n) K → Bool
  | fuel + 1, t :: ts, u :: us =>
    if t.1 = u.1 then decide (t.2 = u.2) && eqF fuel ts us
    else if gl t.1 u.1 then decide (t.2 = 0) && eqF fuel ts (u :: us)
    else decide (u.2 = 0) && eqF fuel (t :: ts) us
  | _, ts, us => ts.all (fun t => decide (t.2 = 0)) && us.all (fun u => decide (u.2 = 0))

/-- `Differential::operator==`, tpl lines 171-196, for a decidable equality of coefficients; the
degrees are not compared. -/
def beq (x y : Diff n K) : Bool := eqF (x.terms.length + y.terms.length) x.terms y.terms

/-- The loop `while(a[i]==0) { ++i; }`, tpl lines 249 and 251, with fuel; `none` is a read beyond the
end of the index. -/
def scan (a : MIndex n) : Nat → Nat → Option (Fin n)
  | 0, _ => none
  | fuel + 1, i => if h : i < n then (if getIx a ⟨i, h⟩ = 0 then scan a fuel (i + 1) else some ⟨i, h⟩)
      else none

/-- The variables of `half_hessian`. -/
structure HState (n : Nat) (K : Type*) where
  i : Nat
  j : Nat
  H : Fin n → Fin n → K

/-- Assigning an entry of a matrix. -/
def setEntry (H : Fin n → Fin n → K) (i j : Fin n) (c : K) : Fin n → Fin n → K :=
  fun u v => if u = i ∧ v = j then c else H u v

/-- The body of the loop of `half_hessian`, tpl lines 247-252. -/
def hessStep (s : HState n K) (t : MIndex n × K) : Option (HState n K) :=
  (scan t.1 (n - s.i) s.i).bind fun i =>
    if getIx t.1 i = 2 then
      some ⟨i, if i.1 = s.i then s.j else i.1 + 1, setEntry s.H i i t.2⟩
    else
      (scan t.1 (n - if i.1 = s.i then s.j else i.1 + 1) (if i.1 = s.i then s.j else i.1 + 1)).bind
        fun j => some ⟨i, j, setEntry (setEntry s.H i j (t.2 / 2)) j i (t.2 / 2)⟩

/-- `Differential::half_hessian`, tpl lines 240-256; `none` is the failed precondition (line 241) or a
read beyond the end of an index. -/
def halfHessian (x : Diff n K) : Option (Fin n → Fin n → K) :=
  if x.deg < 2 then none else
  ((((x.terms.dropWhile (fun t => decide (degree t.1.1 ≤ 1))).takeWhile
    (fun t => decide (degree t.1.1 ≤ 2))).foldlM hessStep ⟨0, 1, fun _ _ => 0⟩)).map HState.H

/-! ### Arithmetic -/

/-- `apply(Neg,x)`, tpl lines 367-375. -/
def neg (x : Diff n K) : Diff n K := ⟨x.deg, x.terms.map (fun t => (t.1, -t.2))⟩

/-- `apply(Add,x,c)`, tpl lines 377-389. -/
def addScalar (x : Diff n K) (c : K) : Diff n K :=
  match x.terms with
  | [] => ⟨x.deg, append x.terms (zeroIx n) c⟩
  | t :: ts => if t.1 ≠ zeroIx n then ⟨x.deg, prepend x.terms (zeroIx n) c⟩
      else ⟨x.deg, (t.1, t.2 + c) :: ts⟩

/-- `apply(Mul,x,c)`, tpl lines 391-402. -/
def mulScalar (x : Diff n K) (c : K) : Diff n K :=
  if c = 0 then ⟨x.deg, []⟩ else ⟨x.deg, x.terms.map (fun t => (t.1, t.2 * c))⟩

/-- The loops of `apply(Add,x,y)` and `apply(Sub,x,y)`, tpl lines 415-434 and 448-467, with the total
number of terms as fuel; `s` is the identity for `Add` and the negation for `Sub`, and `d` the
degree of the result.  The terms appended to `r` are listed in order. -/
def mergeF (s : K → K) (d : Nat) : Nat → Terms (MIndex n) K → Terms (MIndex n) K →
    Terms (MIndex n) K
  | fuel + 1, t :: ts, u :: us =>
    if t.1 = u.1 then (t.1, t.2 + s u.2) :: mergeF s d fuel ts us
    else if gl t.1 u.1 then t :: mergeF s d fuel ts (u :: us)
    else (u.1, s u.2) :: mergeF s d fuel (t :: ts) us
  | _, ts, us => ts.takeWhile (fun t => decide (degree t.1.1 ≤ d)) ++
      (us.takeWhile (fun u => decide (degree u.1.1 ≤ d))).map (fun u => (u.1, s u.2))

/-- `apply(Add,x,y)`, tpl lines 406-437. -/
def add (x y : Diff n K) : Diff n K :=
  ⟨min x.deg y.deg, mergeF id (min x.deg y.deg) (x.terms.length + y.terms.length) x.terms y.terms⟩

/-- `apply(Sub,x,y)`, tpl lines 439-470. -/
def sub (x y : Diff n K) : Diff n K :=
  ⟨min x.deg y.deg, mergeF (fun c => -c) (min x.deg y.deg) (x.terms.length + y.terms.length)
    x.terms y.terms⟩

/-- The two loops of `apply(Mul,x,y)`, tpl lines 480-488: the `break` on line 481 ends the outer
loop, that on line 483 the inner one. -/
def products (d : Nat) (xs ys : Terms (MIndex n) K) : Terms (MIndex n) K :=
  (xs.takeWhile (fun t => !decide (degree t.1.1 > d))).flatMap (fun t =>
    (ys.takeWhile (fun u => !decide (degree t.1.1 + degree u.1.1 > d))).map (fun u =>
      (addIx t.1 u.1, t.2 * u.2)))

/-- `apply(Mul,x,y)`, tpl lines 472-492. -/
def mul (x y : Diff n K) : Diff n K :=
  ⟨min x.deg y.deg, cleanup (products (min x.deg y.deg) x.terms y.terms)⟩

/-- The loop of `generic_pow(x,Nat)`, `numeric/arithmetic.hpp` line 47, with fuel. -/
def powLoop : Nat → Diff n K → Diff n K → Nat → Diff n K
  | 0, r, _, _ => r
  | fuel + 1, r, p, k => if k ≠ 0 then
      powLoop fuel (if k % 2 = 1 then mul r p else r) (mul p p) (k / 2) else r

/-- `generic_pow(x,Nat)`, `numeric/arithmetic.hpp` lines 46-47: `r=x; r*=0; r+=1; p=x; …`. -/
def pow (x : Diff n K) (k : Nat) : Diff n K :=
  powLoop (k + 1) (addScalar (mulScalar x 0) 1) x k

/-! ### Univariate differentials and composition -/

/-- One step of the loop of `Differential::_compose(UnivariateDifferential,Differential)`, tpl lines
584-587. -/
def composeLoop (x : List K) (d : Nat) (w : Diff n K) : Nat → Diff n K → Diff n K
  | 0, r => r
  | k + 1, r => addScalar (mul (composeLoop x d w k r) w) (x.getD (d - (k + 1)) 0)

/-- `Differential::_compose(UnivariateDifferential,Differential)`, tpl lines 574-589.  A univariate
differential of degree `d` is its array of `d+1` coefficients, uni hpp line 50.  `none` is undefined
behaviour: line 581 reads the first term of `y` without checking that there is one. -/
def composeU (x : List K) (y : Diff n K) : Option (Diff n K) :=
  let d := min (x.length - 1) y.deg
  match y.terms with
  | [] => none
  | t :: ts =>
    let w : Diff n K := ⟨y.deg, (if degree t.1.1 = 0 then (t.1, 0) else t) :: ts⟩
    let r : Diff n K := setCoef (zero d) (zeroIx n) (x.getD d 0)
    some (composeLoop x d w d r)

/-- The operations with a power series, `series.hpp` lines 56-101. -/
inductive Op
  | nul | pos | neg | hlf | sqr | recip | sqrt | exp | log | sin | cos | tan | atan
deriving DecidableEq

/-- The elementary functions on numbers used for the leading coefficients. -/
structure Fns (K : Type*) where
  sqrt : K → K
  exp : K → K
  log : K → K
  sin : K → K
  cos : K → K
  tan : K → K
  atan : K → K

/-- `next_series_coefficient(op,d,c,y)`, `series.hpp` lines 56-101; `y` lists the coefficients
already computed.  `Asin`, `Acos` and `Abs` are not implemented (lines 93-97, 103-104). -/
def nextCoef (F : Fns K) (op : Op) (d : Nat) (c : K) (y : List K) : K :=
  let Y := fun i => y.getD i 0
  match op with
  | .pos => if d = 0 then c else if d = 1 then 0 + 1 else 0
  | .nul => 0
  | .neg => if d = 0 then -c else if d = 1 then 0 - 1 else 0
  | .hlf => if d = 0 then c / 2 else if d = 1 then (0 + 1) / 2 else 0
  | .sqr => if d = 0 then c * c else if d = 1 then 2 * c else if d = 2 then 0 + 1 else 0
  | .recip => if d = 0 then 1 / c else Y (d - 1) * (-Y 0)
  | .sqrt => if d = 0 then F.sqrt c else ((2 * (d : K) - 3) * (-1 / c) / 2) / d * Y (d - 1)
  | .exp => if d = 0 then F.exp c else Y (d - 1) / d
  | .log => if d = 0 then F.log c else if d = 1 then 1 / c
      else -Y (d - 1) * Y 1 * ((d - 1 : Nat) : K) / d
  | .sin => if d = 0 then F.sin c else if d = 1 then F.cos c else -Y (d - 2) / ((d * (d - 1) : Nat) : K)
  | .cos => if d = 0 then F.cos c else if d = 1 then -F.sin c
      else -Y (d - 2) / ((d * (d - 1) : Nat) : K)
  | .tan => if d = 0 then F.tan c else if d = 1 then 1 + Y 0 * Y 0 else if d = 2 then Y 0 * Y 1
      else (((List.range (d - 1)).map (· + 1)).foldl (fun r i => r + Y i * Y (d - 1 - i))
        (Y 0 * Y (d - 1))) / d
  | .atan => if d = 0 then F.atan c else if d = 1 then 1 / (1 + c * c)
      else if d = 2 then -c * (Y 1 * Y 1)
      else -Y 1 * (((d - 2 : Nat) : K) * Y (d - 2) + 2 * ((d - 1 : Nat) : K) * c * Y (d - 1)) / d

/-- `Series::_compute`, `series.hpp` lines 155-157: the first `k` coefficients. -/
def series (F : Fns K) (op : Op) (c : K) : Nat → List K
  | 0 => []
  | k + 1 => series F op c k ++ [nextCoef F op k c (series F op c k)]

/-- `apply(OP,dx)`, `differential.hpp` lines 304-305, with
`UnivariateDifferential(OP,d,c)` (uni hpp lines 136-137, uni tpl lines 43-45): the series is evaluated
at the value of the argument and composed with it. -/
def apply (F : Fns K) (op : Op) (x : Diff n K) : Option (Diff n K) :=
  composeU (series F op (value x) (x.deg + 1)) x

/-- `apply(Div,x,y)`, tpl lines 494-498. -/
def div (F : Fns K) (x y : Diff n K) : Option (Diff n K) := (apply F .recip y).map (mul x)

/-- `generic_pow(x,Int)`, `numeric/arithmetic.hpp` lines 48-49. -/
def powInt (F : Fns K) (x : Diff n K) : Int → Option (Diff n K)
  | .ofNat k => some (pow x k)
  | .negSucc k => apply F .recip (pow x (k + 1))

/-- `apply(Min,x1,x2)`, tpl lines 507-514; `none` is the exception. -/
def min' [LT K] [DecidableLT K] (x y : Diff n K) : Option (Diff n K) :=
  if value x = value y then none else some (if value x < value y then x else y)

/-- `apply(Max,x1,x2)`, tpl lines 517-523; `none` is the exception. -/
def max' [LT K] [DecidableLT K] (x y : Diff n K) : Option (Diff n K) :=
  if value x = value y then none else some (if value y < value x then x else y)

/-- `apply(Abs,x)`, tpl lines 525-531; `none` is the exception. -/
def abs' [LT K] [DecidableLT K] (x : Diff n K) : Option (Diff n K) :=
  if value x = 0 then none else some (if 0 < value x then x else neg x)

/-! ### Vectors of differentials -/

/-- `Vector<Differential<X>>`, `differential.hpp` lines 387-394, with the degree of its
`DifferentialCharacteristics`. -/
structure DVec (m n : Nat) (K : Type*) where
  deg : Nat
  comp : Fin m → Diff n K

/-- The entry `val[j][k]` of the table of powers in `_evaluate`, tpl lines 548-555. -/
def powTable (one a : Diff n K) : Nat → Diff n K
  | 0 => one
  | 1 => a
  | k + 2 => mul (powTable one a (k + 1)) a

/-- The inner loop of `_evaluate`, tpl lines 562-565. -/
def evalTerm (one : Diff n K) (a : DVec m n K) (j : MIndex m) : Diff n K :=
  (List.finRange m).foldl (fun t k => mul t (powTable one (a.comp k) (getIx j k))) one

/-- `_evaluate(x,a)`, tpl lines 536-571; `none` is the failed assertion `d>=1` of line 541 or reading
beyond the table of powers. -/
def evaluate (x : Diff m K) (a : DVec m n K) : Option (Diff n K) :=
  if ¬ 1 ≤ x.deg then none
  else if x.terms.any (fun t => t.1.1.any (fun k => decide (x.deg < k))) then none
  else
    let one : Diff n K := const a.deg 1
    some (x.terms.foldl (fun r t => add r (mulScalar (evalTerm one a t.1) t.2)) (const a.deg 0))

/-- The argument of `_compose` after `ync[i].set_value(zero)` for every `i`, tpl line 598. -/
def clearValues (y : DVec m n K) : DVec m n K := ⟨y.deg, fun i => setValue (y.comp i) 0⟩

/-- `Differential::_compose(Differential,Vector<Differential>)`, tpl lines 591-603.  The second
component is the argument `y` after the call: its values are cleared through a `const_cast` on line
598 and restored on line 601, which is not reached if `_evaluate` throws. -/
def compose (x : Diff m K) (y : DVec m n K) : Option (Diff n K) × DVec m n K :=
  match evaluate x (clearValues y) with
  | none => (none, clearValues y)
  | some r => (some (setDegree r (min x.deg y.deg)),
      ⟨y.deg, fun i => setValue ((clearValues y).comp i) (value (y.comp i))⟩)

/-- The body of the loop of `_derivative`, tpl lines 628-637. -/
def derivStep (x : Diff n K) (i : Fin n) (r : Diff n K) (t : MIndex n × K) : Diff n K :=
  let k := getIx t.1 i
  if k ≠ 0 then setCoef r (setIx t.1 i (k - 1)) (coef x t.1 * (k : K)) else r

/-- `Differential::_derivative`, tpl lines 622-639. -/
def deriv (x : Diff n K) (i : Fin n) : Diff n K :=
  if x.deg = 0 then zero 0 else x.terms.foldl (derivStep x i) (zero (x.deg - 1))

/-- The body of the loop of `_antiderivative`, tpl lines 648-655. -/
def antiStep (x : Diff n K) (i : Fin n) (r : Diff n K) (t : MIndex n × K) : Diff n K :=
  let a := setIx t.1 i (getIx t.1 i + 1)
  setCoef r a (coef x t.1 / (getIx a i : K))

/-- `Differential::_antiderivative`, tpl lines 641-657; the degree is stored in a `DegreeType`. -/
def anti (x : Diff n K) (i : Fin n) : Diff n K :=
  x.terms.foldl (antiStep x i) (zero (wrap (x.deg + 1)))

/-- The terms of `t` in `_lie_derivative`, tpl lines 786-793: appended in the order of the terms of
`df[i]`. -/
def lieTerms (x : Diff n K) (j : Fin n) : Terms (MIndex n) K :=
  (x.terms.filter (fun t => decide (getIx t.1 j ≠ 0))).map (fun t =>
    (setIx t.1 j (getIx t.1 j - 1), t.2 * (getIx t.1 j : K)))

/-- `df.degree()-1u` stored in a `DegreeType`, tpl lines 779-780. -/
def pred16 (d : Nat) : Nat := if d = 0 then 65535 else d - 1

/-- Component `i` of `_lie_derivative`, tpl lines 774-799, for `x = df[i]`. -/
def lie (d : Nat) (x : Diff n K) (dg : Fin n → Diff n K) : Diff n K :=
  (List.finRange n).foldl (fun r j => add r (mul ⟨pred16 d, lieTerms x j⟩ (dg j)))
    (zero (pred16 d))

/-! ### Flows and implicit functions -/

/-- `Vector<Differential<X>>::_compose`, tpl lines 746-751.  The components of the result are created
with the degree of `y`, lowered by `set_degree`, which leaves the degree of the vector as it was
(lines 738-742); assigning a component of another degree fails (`differential.hpp` line 360).
`none` is an exception. -/
def composeV {l : Nat} (x : DVec l m K) (y : DVec m n K) : Option (DVec l n K) :=
  if h : ∀ i, ((compose (x.comp i) y).1.isSome = true) then
    if ∀ i, ((compose (x.comp i) y).1.get (h i)).deg = min x.deg y.deg then
      some ⟨y.deg, fun i => (compose (x.comp i) y).1.get (h i)⟩
    else none
  else none

/-- `Vector<Differential<X>>::_antiderivative`, tpl lines 762-769; `none` is the failed precondition on
assigning a component (`differential.hpp` line 360). -/
def antiV {l : Nat} (x : DVec l n K) (k : Fin n) : Option (DVec l n K) :=
  if ∀ i, (anti (x.comp i) k).deg = wrap (x.deg + 1) then
    some ⟨wrap (x.deg + 1), fun i => anti (x.comp i) k⟩
  else none

/-- A vector from its components, `differential.hpp` lines 522-534: the degree is that of the first. -/
def ofComps {l : Nat} (c : Fin (l + 1) → Diff n K) : DVec (l + 1) n K := ⟨(c 0).deg, c⟩

/-- `join(v1,v2)`, `vector.hpp` lines 585-594, for nonempty `v1` (tpl lines 702-706). -/
def joinV {l k : Nat} (a : DVec (l + 1) n K) (b : DVec k n K) : DVec (l + 1 + k) n K :=
  ⟨(a.comp 0).deg, Fin.append a.comp b.comp⟩

/-- The loop of `_flow`, tpl lines 844-848 (`args` the identity) and 914-917 (`args` the join with
`dt0a`); `t` is the index of the time variable. -/
def picard {l : Nat} (df : DVec (l + 1) m K) (args : DVec (l + 1) n K → DVec m n K)
    (dx0 : DVec (l + 1) n K) (t : Fin n) : Nat → Option (DVec (l + 1) n K)
  | 0 => some ⟨0, fun _ => zero 0⟩
  | k + 1 => do
    let phi ← picard df args dx0 t k
    let c ← composeV df (args phi)
    let a ← antiV c t
    some (ofComps (fun i => add (dx0.comp i) (a.comp i)))

/-- `_flow(df,x0)`, tpl lines 834-850: the state has `l+1` components. -/
def flow {l : Nat} (df : DVec (l + 1) (l + 1) K) (x0 : Fin (l + 1) → K) :
    Option (DVec (l + 1) (l + 2) K) :=
  picard df id (ofComps (fun i => var (wrap (df.deg + 1)) (x0 i) i.castSucc)) (Fin.last (l + 1))
    (df.deg + 1)

/-- `_flow(df,dx0,dt0a)`, tpl lines 901-919, for nonempty `dt0a`. -/
def flowJoin {l k : Nat} (df : DVec (l + 1) (l + 1 + (k + 1)) K) (dx0 : DVec (l + 1) n K)
    (dt0a : DVec (k + 1) n K) (t : Fin n) : Option (DVec (l + 1) n K) :=
  picard df (fun phi => joinV phi dt0a) dx0 t (min (min df.deg dt0a.deg + 1) dx0.deg)

/-- `_flow(df,x0,t0,a)`, tpl lines 884-899, and `_flow(df,x0,t0)`, lines 852-865, for `k=0`: the
arguments are the `l+1` states, time and the `k` parameters; `ta` lists `t0` and `a`. -/
def flowTime {l k : Nat} (df : DVec (l + 1) (l + 1 + (k + 1)) K) (x0 : Fin (l + 1) → K)
    (ta : Fin (k + 1) → K) : Option (DVec (l + 1) (l + 1 + (k + 1)) K) :=
  flowJoin df (ofComps (fun i => var (wrap (df.deg + 1)) (x0 i) (Fin.castAdd (k + 1) i)))
    (ofComps (fun i => var (wrap (df.deg + 1)) (ta i) (Fin.natAdd (l + 1) i)))
    (Fin.natAdd (l + 1) 0)

/-- `_flow(df,x0,a)`, tpl lines 867-882, for `k+1` parameters: the arguments are the states, time and
the parameters, and on line 879 the parameter `i` becomes the variable `n+i`. -/
def flowParam {l k : Nat} (df : DVec (l + 1) (l + 1 + (k + 1)) K) (x0 : Fin (l + 1) → K)
    (a : Fin (k + 1) → K) : Option (DVec (l + 1) (l + 1 + (k + 2)) K) :=
  flowJoin df (ofComps (fun i => var (wrap (df.deg + 1)) (x0 i) (Fin.castAdd (k + 2) i)))
    (ofComps (fun i => var (wrap (df.deg + 1)) (a i) (Fin.natAdd (l + 1) i.castSucc)))
    (Fin.natAdd (l + 1) 0)

/-- `operator*(Matrix,Vector)`, `matrix.hpp` lines 777-787, for a vector of differentials. -/
def matVec {l : Nat} (A : Fin l → Fin m → K) (v : DVec m n K) (i : Fin l) : Diff n K :=
  (List.finRange m).foldl (fun r j => add r (mulScalar (v.comp j) (A i j)))
    (mulScalar (const v.deg 0) 0)

/-- The loop of `_solve`, tpl lines 827-830; `invJ` is the inverse matrix computed on line 823. -/
def solveLoop {l : Nat} (df : DVec (m + 1) (l + 1 + (m + 1)) K) (dx : DVec (l + 1) (l + 1) K)
    (y0 : Fin (m + 1) → K) (invJ : Fin (m + 1) → Fin (m + 1) → K) :
    Nat → Option (DVec (m + 1) (l + 1) K)
  | 0 => some ⟨df.deg, fun i => const df.deg (y0 i)⟩
  | k + 1 => do
    let dh ← solveLoop df dx y0 invJ k
    let c ← composeV df (joinV dx dh)
    some (ofComps (fun i => sub (dh.comp i) (matVec invJ c i)))

/-- The matrix `J2f`, tpl lines 820-822: the derivatives with respect to the last arguments. -/
def jacobian2 {l : Nat} (df : DVec (m + 1) (l + 1 + (m + 1)) K) (i j : Fin (m + 1)) : K :=
  gradient (df.comp i) (Fin.natAdd (l + 1) j)

/-- `_solve(df,y0)`, tpl lines 803-832, for `l+1` independent variables and `m+1` unknowns.  The
inverse of the Jacobian matrix is a parameter. -/
def solve {l : Nat} (df : DVec (m + 1) (l + 1 + (m + 1)) K) (y0 : Fin (m + 1) → K)
    (inverse : (Fin (m + 1) → Fin (m + 1) → K) → Fin (m + 1) → Fin (m + 1) → K) :
    Option (DVec (m + 1) (l + 1) K) :=
  solveLoop df ⟨df.deg, fun i => var df.deg 0 i⟩ y0 (inverse (jacobian2 df)) (df.deg + 2)

/-! ### Univariate differentials -/

/-- `apply(Mul,x1,x2)` for univariate differentials, uni hpp lines 175-183: `r[i1+i2]+=x1[i1]*x2[i2]`
for `i1<=d`, `i2<=d-i1`. -/
def uMul (x y : List K) : List K :=
  let d := min (x.length - 1) (y.length - 1)
  (List.range (d + 1)).foldl (fun r i => (List.range (d - i + 1)).foldl (fun r j =>
    r.set (i + j) (r.getD (i + j) 0 + x.getD i 0 * y.getD j 0)) r) (List.replicate (d + 1) 0)

/-- `apply(Add,x1,x2)` for univariate differentials, uni hpp lines 167-169. -/
def uAdd (x y : List K) : List K :=
  (List.range (min (x.length - 1) (y.length - 1) + 1)).map (fun i => x.getD i 0 + y.getD i 0)

/-- The loop of `UnivariateDifferential::_compose`, uni tpl lines 109-112. -/
def uComposeLoop (x y : List K) (d : Nat) : Nat → List K → List K
  | 0, r => r
  | k + 1, r =>
    let p := uMul (uComposeLoop x y d k r) y
    p.set 0 (p.getD 0 0 + x.getD (d - (k + 1)) 0)

/-- `UnivariateDifferential::_compose`, uni tpl lines 100-115, for distinct objects `x` and `y`. -/
def uCompose (x y : List K) : List K :=
  let d := min (x.length - 1) (y.length - 1)
  uComposeLoop x (y.set 0 0) d d ((List.replicate (d + 1) (0 : K)).set 0 (x.getD d 0))

/-- `UnivariateDifferential::_compose(x,x)`, uni tpl lines 100-115, for one object: the value of `x`
is cleared through a `const_cast` (line 106) while `x[d-n]` is read. -/
def uComposeSelf (x : List K) : List K :=
  let x' := x.set 0 0
  let d := x.length - 1
  uComposeLoop x' x' d d ((List.replicate (d + 1) (0 : K)).set 0 (x'.getD d 0))

/-- `UnivariateDifferential::_derivative`, uni tpl lines 117-128.  The result is created with degree
`min(n,1)-1` stored in a `DegreeType` (line 122); `none` is a write beyond its end (line 125). -/
def uDeriv (x : List K) : Option (List K) :=
  let k := x.length - 1
  let size := (if k = 0 then 65535 else 0) + 1
  if k > size then none else
    some ((List.range k).foldl (fun r i => r.set i (((i + 1 : Nat) : K) * x.getD (i + 1) 0))
      (List.replicate size 0))

/-- `UnivariateDifferential::_antiderivative(x,c)`, uni tpl lines 142-153 (and 130-140 for `c=0`). -/
def uAnti (x : List K) (c : K) : List K :=
  c :: (List.range x.length).map (fun i => x.getD i 0 / ((i + 1 : Nat) : K))

end Verif.Differential
