import Verif.Expansion.Props
import Verif.Expansion.Horner

/-!
# Polynomials

Model of `source/function/polynomial.hpp` and `source/function/polynomial.tpl.hpp`.  A polynomial is a
`SortedExpansion<I,X,ReverseLexicographicIndexLess>` (`polynomial.hpp` lines 136-137 and 280), so its
operations work on the list of terms of `Verif.Expansion.Model`.

The coefficient type is any type with the operations below; nothing is assumed of them here.  The
stored zero coefficient is the zero of the type.  Sizes agree by construction (the assertions on
lines 267, 295 and 323 always hold), as the indices in `n` variables are the lists of length `n`.
Reserving memory, copying and output are not modelled.
-/

namespace Verif.Polynomial

open Verif.Expansion

/-- The operations on coefficients used by `polynomial.tpl.hpp`. -/
structure Coef (X : Type*) where
  one : X
  add : X → X → X
  sub : X → X → X
  neg : X → X
  mul : X → X → X
  sqr : X → X
  /-- `c*=static_cast<Nat>(a[j])`, line 146. -/
  mulNat : X → Nat → X
  /-- `c/=static_cast<Nat>(a[j])`, line 158. -/
  divNat : X → Nat → X
  /-- `is_null`, line 31: `decide(x==0)`. -/
  isNull : X → Bool
  /-- `is_unit`, line 32: `decide(x==1)`. -/
  isUnit : X → Bool
  /-- `decide(x!=0)`, line 167. -/
  nonzero : X → Bool
  /-- `definitely(x==0)`, line 189. -/
  surelyZero : X → Bool

variable {X : Type*}

/-! ## Operations which do not depend on the kind of index -/

section Generic
variable {I : Type*} [DecidableEq I] (lt : I → I → Bool) (addI : I → I → I) (A : Coef X) [Zero X]

/-- `apply(Pos,p)`, lines 217-223. -/
def pos (p : Terms I X) : Terms I X := p.foldl (fun r t => supdate lt r t.1 (fun _ => t.2)) []

/-- `apply(Neg,p)`, lines 225-231. -/
def neg (p : Terms I X) : Terms I X := p.foldl (fun r t => supdate lt r t.1 (fun _ => A.neg t.2)) []

/-- `apply(Mul,p,c)` and `iapply(Mul,p,c)`, lines 244-264. -/
def mulConst (p : Terms I X) (c : X) : Terms I X :=
  if A.isNull c then [] else p.map (fun t => (t.1, A.mul t.2 c))

/-- The loops of `apply(Add,p1,p2)` and `apply(Sub,p1,p2)`, lines 271-290 and 299-318, with the number
of terms left as fuel: `both` combines the coefficients of equal indices and `right` changes a
coefficient found only in the second polynomial. -/
def mergeF (both : X → X → X) (right : X → X) : Nat → Terms I X → Terms I X → Terms I X
  | _, p, [] => p
  | _, [], q => q.map (fun t => (t.1, right t.2))
  | 0, _, _ => []
  | n + 1, s :: p, t :: q =>
    if s.1 = t.1 then (s.1, both s.2 t.2) :: mergeF both right n p q
    else if lt s.1 t.1 then s :: mergeF both right n p (t :: q)
    else (t.1, right t.2) :: mergeF both right n (s :: p) q

/-- `apply(Add,p1,p2)`, lines 266-292. -/
def add (p q : Terms I X) : Terms I X := mergeF lt A.add id (p.length + q.length) p q

/-- `apply(Sub,p1,p2)`, lines 294-320. -/
def sub (p q : Terms I X) : Terms I X := mergeF lt A.sub A.neg (p.length + q.length) p q

/-- `apply(Mul,p1,p2)`, lines 322-332. -/
def mul (p q : Terms I X) : Terms I X :=
  p.foldl (fun r s => q.foldl
    (fun r t => supdate lt r (addI s.1 t.1) (fun c => A.add c (A.mul s.2 t.2))) r) []

/-- `apply(Mul,p,m)` and `iapply(Mul,p,m)` for a monomial `m`, lines 334-350. -/
def mulMonomial (p : Terms I X) (m : I × X) : Terms I X :=
  (if A.isNull m.2 then [] else p).map (fun t => (addI t.1 m.1, A.mul t.2 m.2))

/-- The inner loop of `unique_key`, lines 182-187: the coefficient of `curr` with those of the
following terms of the same index added, and the remaining terms. -/
def absorbKey (a : I) (c : X) : Terms I X → X × Terms I X
  | [] => (c, [])
  | t :: ts => if a = t.1 then absorbKey a (A.add c t.2) ts else (c, t :: ts)

/-- `unique_key`, lines 175-193, with the number of terms as fuel; the terms before `curr` are the
result. -/
def uniqueKeyF : Nat → Terms I X → Terms I X
  | _, [] => []
  | 0, _ => []
  | n + 1, t :: ts =>
    let r := absorbKey A t.1 t.2 ts
    if A.surelyZero r.1 then uniqueKeyF n r.2 else (t.1, r.1) :: uniqueKeyF n r.2

/-- `Polynomial::cleanup`, lines 195-202, on terms already rearranged by `index_sort` (`std::sort`,
`expansion.tpl.hpp` lines 434-436, whose result is any sorted rearrangement). -/
def cleanup (sorted : Terms I X) : Terms I X := uniqueKeyF A sorted.length sorted

end Generic

/-! ## Polynomials in several variables -/

/-- The order of the terms, `polynomial.hpp` line 136. -/
def lt {n : Nat} (a b : MIndex n) : Bool := revLexLess a.1 b.1

/-- `MultiIndex::zero(n)`, `multi_index.inl.hpp` line 79, and `MultiIndex(n)`. -/
def zeroIdx (n : Nat) : MIndex n := ⟨List.replicate n 0, by simp⟩

/-- `MultiIndex::unit(n,j)`, `multi_index.inl.hpp` line 80. -/
def unitIdx (n j : Nat) : MIndex n := ⟨(List.replicate n 0).set j 1, by simp⟩

/-- `operator+(MultiIndex,MultiIndex)`, with sums in a `DegreeType`. -/
def addIdx {n : Nat} (a b : MIndex n) : MIndex n :=
  ⟨addIndex a.1 b.1, by simp [addIndex, a.2, b.2]⟩

/-- `--a[j]` unless it is zero, line 146. -/
def decIdx {n : Nat} (a : MIndex n) (j : Nat) : MIndex n :=
  ⟨a.1.set j (if a.1.getD j 0 ≠ 0 then a.1.getD j 0 - 1 else a.1.getD j 0), by simp [a.2]⟩

/-- `++a[j]` in a `DegreeType`, line 157. -/
def incIdx {n : Nat} (a : MIndex n) (j : Nat) : MIndex n :=
  ⟨a.1.set j (wrap (a.1.getD j 0 + 1)), by simp [a.2]⟩

/-- The index without its component `k`, lines 381-382, 394-395 and 419-420. -/
def dropIdx {n : Nat} (a : MIndex (n + 1)) (k : Fin (n + 1)) : MIndex n :=
  ⟨a.1.eraseIdx k, by
    have := a.2
    rw [List.length_eraseIdx]
    simp [this]⟩

section Multi
variable {n : Nat} (A : Coef X) [Zero X]

/-- `Polynomial::_constant`, lines 60-61. -/
def constant (n : Nat) (c : X) : Terms (MIndex n) X := supdate lt [] (zeroIdx n) (fun _ => c)

/-- `Polynomial::_coordinate`, lines 63-65; `none` is the failed assertion. -/
def coordinate (n j : Nat) : Option (Terms (MIndex n) X) :=
  if j < n then some (supdate lt [] (unitIdx n j) (fun _ => A.one)) else none

omit [Zero X] in
/-- `Polynomial::operator=(X)`, lines 80-85. -/
def assign (_ : Terms (MIndex n) X) (c : X) : Terms (MIndex n) X := append [] (zeroIdx n) c

/-- `Polynomial::value`, line 100: `Expansion::operator[]`, that is `Expansion::get`
(`expansion.tpl.hpp` lines 250-252). -/
def constantTerm (p : Terms (MIndex n) X) : X := get p (zeroIdx n)

omit [Zero X] in
/-- `Polynomial::degree`, lines 92-98. -/
def deg (p : Terms (MIndex n) X) : Nat := p.foldl (fun d t => max d (degree t.1.1)) 0

omit [Zero X] in
/-- `Polynomial::differentiate`, lines 140-149. -/
def differentiate (p : Terms (MIndex n) X) (j : Nat) : Terms (MIndex n) X :=
  p.map (fun t => (decIdx t.1 j, A.mulNat t.2 (t.1.1.getD j 0)))

omit [Zero X] in
/-- `Polynomial::antidifferentiate`, lines 151-161. -/
def antidifferentiate (p : Terms (MIndex n) X) (j : Nat) : Terms (MIndex n) X :=
  p.map (fun t => (incIdx t.1 j, A.divNat t.2 ((incIdx t.1 j).1.getD j 0)))

omit [Zero X] in
/-- `Polynomial::truncate`, lines 163-173. -/
def truncate (p : Terms (MIndex n) X) (d : Nat) : Terms (MIndex n) X :=
  p.filter (fun t => decide (degree t.1.1 ≤ d) && A.nonzero t.2)

/-- `apply(Add,p,c)` and `iapply(Add,p,c)`, lines 234-242: `IndexType(p.argument_size())` is the zero
index in `n` variables. -/
def addConst (p : Terms (MIndex n) X) (c : X) : Terms (MIndex n) X :=
  supdate lt p (zeroIdx n) (fun x => A.add x c)

/-- `p[xak].expansion().append(ra,xv)` for every term, lines 390-398 and 415-423: the terms whose
exponent of the variable `k` is `i`, without that variable. -/
def slice (p : Terms (MIndex (n + 1)) X) (k : Fin (n + 1)) (i : Nat) : Terms (MIndex n) X :=
  (p.filter (fun t => decide (t.1.1.getD k 0 = i))).map (fun t => (dropIdx t.1 k, t.2))

/-- `cpowers`, lines 408-413, for a polynomial of degree at least one. -/
def cpower (c : X) : Nat → X
  | 0 => A.one
  | 1 => c
  | 2 => A.sqr c
  | j + 3 => A.mul (cpower c (j + 1)) (A.sqr c)

/-- `r=p[0]; r+=p[i]` for `i` from 1 below `m+1`, lines 400-403 and 428-431. -/
def sumSlices (s : Nat → Terms (MIndex n) X) : Nat → Terms (MIndex n) X
  | 0 => s 0
  | m + 1 => add lt A (sumSlices s m) (s (m + 1))

/-- `Polynomial::_partial_evaluate`, lines 368-438.  `none` is undefined behaviour or a failed
assertion: `p[xak]` (lines 397, 422) beyond the end of the array, `assert` on lines 396 and 421, and
`cpowers[1]` on line 409, which lies beyond the end when the degree is zero. -/
def partialEvaluate (p : Terms (MIndex (n + 1)) X) (k : Fin (n + 1)) (c : X) :
    Option (Terms (MIndex n) X) :=
  if A.isNull c then some (slice p k 0)
  else if p.all (fun t => decide (t.1.1.getD k 0 < deg p + 1) &&
      decide (degree (dropIdx t.1 k).1 + t.1.1.getD k 0 = degree t.1.1)) then
    if A.isUnit c then some (sumSlices A (slice p k) (deg p))
    else if deg p = 0 then none
    else some (sumSlices A
      (fun i => if i = 0 then slice p k 0 else mulConst A (slice p k i) (cpower A c i)) (deg p))
  else none

/-- The terms with bare lists as indices, as used by `horner_evaluate`. -/
def bare (p : Terms (MIndex n) X) : Terms (List Nat) X := p.map (fun t => (t.1.1, t.2))

/-- `Polynomial::_evaluate`, lines 353-355. -/
def evaluate (p : Terms (MIndex n) X) (x : List X) : Option X :=
  hornerEvaluate A.add A.mul id 0 n (bare p) x

/-- `Polynomial::_compose`, lines 361-363, with `evaluate(MultivariatePolynomial,Vector)`,
`polynomial.hpp` lines 375-376; `t=c` in `horner_evaluate` is `operator=`. -/
def compose {m : Nat} (p : Terms (MIndex n) X) (q : List (Terms (MIndex m) X)) :
    Option (Terms (MIndex m) X) :=
  hornerEvaluate (add lt A) (mul lt addIdx A) (fun c => assign [] c) [] n (bare p) q

/-- `Polynomial::operator==`, `polynomial.hpp` lines 332-336, with both sides already rearranged by
the sort in `cleanup`. -/
def equal [DecidableEq X] (p q : Terms (MIndex n) X) : Option Bool :=
  seq lt (cleanup A p) (cleanup A q)

end Multi

/-! ## Polynomials in one variable

`UniIndex` (`multi_index.hpp` lines 43-59) is the exponent. -/

section Uni
variable (A : Coef X) [Zero X]

/-- The order of the terms: larger exponents first, `multi_index.inl.hpp` line 100. -/
def ltU (a b : Nat) : Bool := decide (a > b)

/-- `apply(Add,p,c)`, lines 234-242: `p.argument_size()` is a `SizeOne`, which converts to the number
one (`typedefs.hpp` line 114), so `IndexType(p.argument_size())` is the exponent one. -/
def addConstU (p : Terms Nat X) (c : X) : Terms Nat X := supdate ltU p 1 (fun x => A.add x c)

/-- `Polynomial::operator=(X)`, lines 80-85: the index type is `UniIndex`, which is neither
`MultiIndex` nor `DegreeType`, so nothing is appended. -/
def assignU (_ : Terms Nat X) (_ : X) : Terms Nat X := []

/-- `Polynomial::degree`, lines 92-98: neither branch applies to `UniIndex`. -/
def degU (_ : Terms Nat X) : Nat := 0

/-- `Polynomial::_constant`, lines 60-61. -/
def constantU (c : X) : Terms Nat X := supdate ltU [] 0 (fun _ => c)

/-- `operator+(UniIndex,UniIndex)`, `multi_index.hpp` line 49. -/
def addU (a b : Nat) : Nat := wrap (a + b)

/-- `horner_evaluate` for `UniIndex`, `evaluate.tpl.hpp` lines 118-148, used by `_evaluate` (lines
353-355): the result is not multiplied by the power of the argument belonging to the last term;
`none` is the failed assertion on line 137. -/
def evaluateU (p : Terms Nat X) (x : X) : Option X :=
  match p with
  | [] => some 0
  | (a, c) :: e => loop x e a c
where
  loop (x : X) : Terms Nat X → Nat → X → Option X
    | [], _, r => some r
    | (na, c) :: e, a, r =>
      if a > na then loop x e na (A.add (mulTimes A.mul r x (a - na)) c) else none

/-- `_compose` of polynomials in one variable, lines 357-359, by `horner_evaluate` with the registers
assigned by `operator=` and the coefficients added by `apply(Add,p,c)`. -/
def composeU (p : Terms Nat X) (q : Terms Nat X) : Option (Terms Nat X) :=
  match p with
  | [] => some []
  | (a, c) :: e => loop e a (assignU [] c)
where
  loop : Terms Nat X → Nat → Terms Nat X → Option (Terms Nat X)
    | [], _, r => some r
    | (na, c) :: e, a, r =>
      if a > na then loop e na (addConstU A (mulTimes (mul ltU addU A) r q (a - na)) c) else none

end Uni

end Verif.Polynomial
