import Verif.Complex.Model
import Verif.Expansion.Model

/-!
# Chebyshev polynomials

Model of `UnivariateChebyshevPolynomial<X>` and `MultivariateChebyshevPolynomial<X>`
(source/function/chebyshev_polynomial.hpp, chebyshev_polynomial.tpl.hpp), for any type `X` of numbers with the operations
of `Verif.Complex.Arith`.  A polynomial is its list of terms; precisions are not modelled.  `none` is undefined behaviour
or a failed assertion.
-/

namespace Verif.Chebyshev

open Verif.Complex (Arith)
open Verif.Expansion (Terms)

variable {I X M : Type*} (A : Arith X)

/-! ## Both kinds of polynomial -/

/-- `sup_norm` (chebyshev_polynomial.tpl.hpp 83-88, 247-252), for the magnitudes `M` of the numbers -/
def supNorm (mag : X → M) (addM : M → M → M) (ts : Terms I X) : M :=
  ts.foldl (fun r t => addM r (mag t.2)) (mag (A.nat 0))

/-- chebyshev_polynomial.tpl.hpp 91-95, 254-258 -/
def neg (ts : Terms I X) : Terms I X := ts.map fun t => (t.1, A.neg t.2)

/-- chebyshev_polynomial.tpl.hpp 105-109, 268-272 -/
def scale (ts : Terms I X) (s : X) : Terms I X := ts.map fun t => (t.1, A.mul t.2 s)

/-- The loop of `apply(Add,...)` while the first polynomial is at the term `(i1,a1)`; `F` is the rest of the loop after this
term. -/
def mergeWith [DecidableEq I] (less : I → I → Bool) (i1 : I) (a1 : X) (r1 : Terms I X) (F : Terms I X → Terms I X) :
    Terms I X → Terms I X
  | [] => (i1, a1) :: r1
  | (i2, a2) :: r2 =>
    if i1 = i2 then (i1, A.add a1 a2) :: F r2
    else if less i1 i2 then (i1, a1) :: F ((i2, a2) :: r2)
    else (i2, a2) :: mergeWith less i1 a1 r1 F r2

/-- `apply(Add,...)` (chebyshev_polynomial.tpl.hpp 146-172, 274-301) -/
def add [DecidableEq I] (less : I → I → Bool) : Terms I X → Terms I X → Terms I X
  | [], l2 => l2
  | (i1, a1) :: r1, l2 => mergeWith A less i1 a1 r1 (add less r1) l2

/-- `apply(Sub,...)` (chebyshev_polynomial.tpl.hpp 174-177, 303-306) -/
def sub [DecidableEq I] (less : I → I → Bool) (l1 l2 : Terms I X) : Terms I X := add A less l1 (neg A l2)

/-- `apply(Add,cm,s)` (chebyshev_polynomial.tpl.hpp 97-103, 260-266); `zero` is the index of the constant term -/
def addScalar (isZero : I → Bool) (zero : I) (s : X) : Terms I X → Option (Terms I X)
  | [] => some [(zero, s)]
  | (i, a) :: ts => if isZero i then some ((i, A.add a s) :: ts) else none

/-- `buf[j]+=p`; `none` when `j` is beyond the end -/
def bufAdd {α : Type*} (op : α → α → α) (buf : List α) (j : ℕ) (p : α) : Option (List α) :=
  if j < buf.length then some (buf.modify j (fun b => op b p)) else none

/-! ## One variable -/

namespace Uni

/-- `DegreeType` is an unsigned integer of 16 bits. -/
def wrap (n : ℕ) : ℕ := n % 65536

/-- chebyshev_polynomial.tpl.hpp 53-63 -/
def constant (c : X) : Terms ℕ X := [(0, c)]
/-- chebyshev_polynomial.tpl.hpp 65-69 -/
def coordinate : Terms ℕ X := [(1, A.nat 1)]
/-- chebyshev_polynomial.tpl.hpp 71-75; the size `k` becomes a `DegreeType` -/
def basis (k : ℕ) : Terms ℕ X := [(wrap k, A.nat 1)]
/-- the constructor from coefficients (chebyshev_polynomial.hpp 66-67) -/
def ofCoefficients (d : ℕ) (g : ℕ → X) : Terms ℕ X := (List.range (d + 1)).map fun i => (i, g i)

/-- The inner loop of `_evaluate` (chebyshev_polynomial.hpp 143-147), `m` times -/
def advance (tx : X) : ℕ → X → X → X × X
  | 0, p, c => (p, c)
  | m + 1, p, c => advance tx m c (A.sub (A.mul tx c) p)

/-- The loop of `_evaluate` (chebyshev_polynomial.hpp 142-150) -/
def evalLoop (tx : X) : Terms ℕ X → ℕ → X → X → X → X
  | [], _, _, _, r => r
  | (i, a) :: ts, k, p, c, r =>
    let pc := advance A tx (i - k) p c
    evalLoop tx ts (k + (i - k)) pc.1 pc.2 (A.add r (A.mul pc.2 a))

/-- `_evaluate` (chebyshev_polynomial.hpp 127-152); coefficients and argument have the same type -/
def evaluate (ts : Terms ℕ X) (x : X) : X :=
  let z := A.mul x (A.nat 0)
  let tx := A.mul x (A.nat 2)
  let p := A.add z (A.nat 1)
  match ts with
  | [] => z
  | (i, a) :: r => if i = 0 then evalLoop A tx r 1 p x a else evalLoop A tx ((i, a) :: r) 1 p x z

/-- `abs(i-j)` of two indices: the difference is a `short int` (multi_index.hpp 50) -/
def absDiff (i j : ℕ) : ℕ :=
  let d := wrap (i + 65536 - j)
  if d < 32768 then d else 65536 - d

/-- The two additions for a pair of terms (chebyshev_polynomial.tpl.hpp 186-188) -/
def mulTerm (buf : List X) (t1 t2 : ℕ × X) : Option (List X) :=
  let c := A.mul t1.2 t2.2
  (bufAdd A.add buf (absDiff t1.1 t2.1) c).bind fun b => bufAdd A.add b (wrap (t1.1 + t2.1)) c

/-- The loops of `apply(Mul,...)` (chebyshev_polynomial.tpl.hpp 184-190) -/
def mulLoop (l1 l2 : Terms ℕ X) (buf : List X) : Option (List X) :=
  l1.foldlM (fun b t1 => l2.foldlM (fun b' t2 => mulTerm A b' t1 t2) b) buf

/-- the terms appended from the buffer (chebyshev_polynomial.tpl.hpp 191-194) -/
def collect (buf : List X) : Terms ℕ X := buf.zipIdx.map fun b => (b.2, A.hlf b.1)

/-- `apply(Mul,...)` (chebyshev_polynomial.tpl.hpp 179-196); `back()` of an empty expansion is undefined. -/
def mul (l1 l2 : Terms ℕ X) : Option (Terms ℕ X) :=
  match l1.getLast?, l2.getLast? with
  | some t1, some t2 =>
    (mulLoop A l1 l2 (List.replicate (wrap (t1.1 + t2.1 + 1)) (A.nat 0))).map (collect A)
  | _, _ => none

/-- `operator<` of indices -/
def less (i j : ℕ) : Bool := decide (i < j)

end Uni

/-! ## Several variables -/

namespace Multi

/-- `reverse_lexicographic_less` (multi_index.inl.hpp 60-61): the last different degree decides, the larger is less.  Here the
lists are reversed. -/
def revLess : List ℕ → List ℕ → Bool
  | i :: a, j :: b => if i = j then revLess a b else decide (j < i)
  | _, _ => false

/-- `reverse_lexicographic_less` of indices -/
def less (a b : List ℕ) : Bool := revLess a.reverse b.reverse

/-- chebyshev_polynomial.tpl.hpp 217-227 -/
def constant (n : ℕ) (c : X) : Terms (List ℕ) X := [(List.replicate n 0, c)]
/-- `MultiIndex::unit(as,i)*k` (chebyshev_polynomial.tpl.hpp 235-239); `coordinate` is the case `k = 1` (229-233) -/
def basis (n i k : ℕ) : Terms (List ℕ) X := [((List.replicate n 0).set i k, A.nat 1)]

/-- `equal_up_to` (chebyshev_polynomial.tpl.hpp 336-338), for indices with at least `k` entries -/
def equalUpTo (a1 a2 : List ℕ) (k : ℕ) : Bool := decide (a1.take k = a2.take k)

/-- `ChebyshevValues` (chebyshev_polynomial.tpl.hpp 328-334) -/
def value (x : X) : ℕ → X
  | 0 => A.nat 1
  | 1 => x
  | j + 2 => A.sub (A.mul (A.mul (A.nat 2) x) (value x (j + 1))) (value x j)

/-- The loop of `_eval` with recursive calls `F` (chebyshev_polynomial.tpl.hpp 357-361).  The fuel is the number of terms. -/
def evalLoop (F : Terms (List ℕ) X → Option (X × Terms (List ℕ) X)) (v : ℕ → X) (a0 : List ℕ) (k : ℕ) :
    ℕ → X → Terms (List ℕ) X → Option (X × Terms (List ℕ) X)
  | 0, r, l => some (r, l)
  | _ + 1, r, [] => some (r, [])
  | fuel + 1, r, t :: l =>
    if equalUpTo a0 t.1 k then
      match F (t :: l) with
      | none => none
      | some (c, l') => evalLoop F v a0 k fuel (A.add r (A.mul c (v (t.1.getD k 0)))) l'
    else some (r, t :: l)

/-- `_eval` (chebyshev_polynomial.tpl.hpp 346-364) with `d` variables left from the variable `k` on; the result and the place of
the iterator.  `none`: no term or no variable is left, and a place beyond the end is read. -/
def evalFrom (x : ℕ → X) : ℕ → ℕ → Terms (List ℕ) X → Option (X × Terms (List ℕ) X)
  | 0, _, _ => none
  | _, _, [] => none
  | 1, k, t :: l =>
    let q := fun s : List ℕ × X => equalUpTo t.1 s.1 k
    some (((t :: l).takeWhile q).foldl
      (fun r s => A.add r (A.mul s.2 (value A (x k) (s.1.getD k 0)))) (A.nat 0), (t :: l).dropWhile q)
  | d + 2, k, t :: l =>
    evalLoop A (evalFrom x (d + 1) (k + 1)) (value A (x k)) t.1 k (l.length + 1) (A.nat 0) (t :: l)

/-- `operator()` (chebyshev_polynomial.tpl.hpp 340-344), for a vector of `n` entries -/
def evaluate (n : ℕ) (ts : Terms (List ℕ) X) (x : ℕ → X) : Option X := (evalFrom A x n 0 ts).map (·.1)

/-- `abs(a1k-a2k)` of two degrees, of which the difference is an `int` -/
def absDiff (i j : ℕ) : ℕ := (i - j) + (j - i)

/-- The inner loop of `_mul_from` (chebyshev_polynomial.tpl.hpp 394-400), with the recursive call `F`.  The fuel is the number
of terms. -/
def mulInner (F : Terms (List ℕ) X → Terms (List ℕ) X → Option (Terms (List ℕ) X × Terms (List ℕ) X × Terms (List ℕ) X))
    (k : ℕ) (from1 : Terms (List ℕ) X) (a2 : List ℕ) :
    ℕ → Terms (List ℕ) X → Terms (List ℕ) X → List (Terms (List ℕ) X) →
      Option (Terms (List ℕ) X × Terms (List ℕ) X × List (Terms (List ℕ) X))
  | 0, curr1, curr2, buf => some (curr1, curr2, buf)
  | _ + 1, curr1, [], buf => some (curr1, [], buf)
  | fuel + 1, curr1, t2 :: l2, buf =>
    if equalUpTo t2.1 a2 k then
      match from1 with
      | [] => none
      | t1 :: l1 =>
        match F (t1 :: l1) (t2 :: l2) with
        | none => none
        | some (p, c1, c2) =>
          match (bufAdd (add A less) buf (absDiff (t1.1.getD k 0) (t2.1.getD k 0)) p).bind fun b =>
              bufAdd (add A less) b (t1.1.getD k 0 + t2.1.getD k 0) p with
          | none => none
          | some buf' => mulInner F k from1 a2 fuel c1 c2 buf'
    else some (curr1, t2 :: l2, buf)

/-- The outer loop of `_mul_from` (chebyshev_polynomial.tpl.hpp 392-402). The fuel is the number of terms. -/
def mulOuter (F : Terms (List ℕ) X → Terms (List ℕ) X → Option (Terms (List ℕ) X × Terms (List ℕ) X × Terms (List ℕ) X))
    (k : ℕ) (a1 : List ℕ) (from2 : Terms (List ℕ) X) (a2 : List ℕ) :
    ℕ → Terms (List ℕ) X → Terms (List ℕ) X → List (Terms (List ℕ) X) →
      Option (Terms (List ℕ) X × Terms (List ℕ) X × List (Terms (List ℕ) X))
  | 0, from1, curr2, buf => some (from1, curr2, buf)
  | _ + 1, [], curr2, buf => some ([], curr2, buf)
  | fuel + 1, t1 :: l1, curr2, buf =>
    if equalUpTo t1.1 a1 k then
      match mulInner A F k (t1 :: l1) a2 from2.length (t1 :: l1) from2 buf with
      | none => none
      | some (c1, c2, buf') => mulOuter F k a1 from2 a2 fuel c1 c2 buf'
    else some (t1 :: l1, curr2, buf)

/-- The degree in variable `k` of the *last* term of the group which agrees with the first term before `k`
(chebyshev_polynomial.tpl.hpp 386-387) -/
def lastDegree (k : ℕ) (a : List ℕ) (l : Terms (List ℕ) X) : ℕ :=
  (l.takeWhile fun t => equalUpTo t.1 a k).foldl (fun _ t => t.1.getD k 0) 0

/-- The terms appended from the buffer (chebyshev_polynomial.tpl.hpp 406-412); the division by 2 is halving -/
def collect (k : ℕ) : ℕ → List (Terms (List ℕ) X) → Terms (List ℕ) X
  | _, [] => []
  | i, b :: bs => b.map (fun t => (t.1.set k i, A.hlf t.2)) ++ collect k (i + 1) bs

/-- `_mul_from` (chebyshev_polynomial.tpl.hpp 368-415) with `d` variables left from the variable `k` on; the product and the
places of the two iterators.  `same` is representation equality of numbers.  `none`: a place beyond the end is read or
written, or degrees reach 65535, where the code overflows or does not end. -/
def mulFrom (same : X → X → Bool) : ℕ → ℕ → Terms (List ℕ) X → Terms (List ℕ) X →
    Option (Terms (List ℕ) X × Terms (List ℕ) X × Terms (List ℕ) X)
  | _, _, [], _ => none
  | _, _, _ :: _, [] => none
  | 0, _, t1 :: l1, t2 :: l2 =>
    let c := A.mul t1.2 t2.2
    some (if same c (A.nat 0) then [] else [(List.replicate t1.1.length 0, c)], l1, l2)
  | d + 1, k, t1 :: l1, t2 :: l2 =>
    let imax := lastDegree k t1.1 (t1 :: l1) + lastDegree k t2.1 (t2 :: l2)
    if 65535 ≤ imax then none
    else
      match mulOuter A (mulFrom same d (k + 1)) k t1.1 (t2 :: l2) t2.1 (l1.length + 1) (t1 :: l1) (t2 :: l2)
          (List.replicate (imax + 1) []) with
      | none => none
      | some (r1, r2, buf) => some (collect A k 0 buf, r1, r2)

/-- `apply(Mul,...)` (chebyshev_polynomial.tpl.hpp 308-313), for polynomials in `n` variables -/
def mul (same : X → X → Bool) (n : ℕ) (l1 l2 : Terms (List ℕ) X) : Option (Terms (List ℕ) X) :=
  (mulFrom A same n 0 l1 l2).map (·.1)

end Multi

end Verif.Chebyshev
