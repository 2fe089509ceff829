import Verif.Expansion.MultiIndex
import Mathlib.Algebra.Ring.Defs

/-!
# Sparse expansions

Model of `source/algebra/expansion.hpp`, `source/algebra/expansion.tpl.hpp`.  An expansion is the list
of its terms; the two parallel arrays `_indices` and `_coefficients` are represented by one list of
pairs, and memory management (`reserve`, `capacity`, moves) is not modelled.  The stored
`_zero_coefficient` is the zero of the coefficient type.  `I` is the type of indices; for
multi-indices in `n` variables it is the type of lists of length `n`, so the assertion on sizes in
`MultiIndexList::append` (`multi_index.inl.hpp` line 187) always holds.  `decide(x==0)` and
`x==y` on coefficients are exact equality; that is so for the floating-point, rational and dyadic
coefficients but not for interval coefficients.
-/

namespace Verif.Expansion

variable {I X : Type*}

/-- The list of terms of an `Expansion<I,X>`, `expansion.hpp` lines 102-113. -/
abbrev Terms (I X : Type*) := List (I × X)

/-! ## `Expansion` -/

section Plain
variable [DecidableEq I]

/-- `Expansion::append`, `expansion.tpl.hpp` lines 366-372. -/
def append (e : Terms I X) (a : I) (c : X) : Terms I X := e ++ [(a, c)]

/-- `Expansion::find`, `expansion.tpl.hpp` lines 416-432: the position of the first term with the given
index; the length of the list stands for `end()`. -/
def find (e : Terms I X) (a : I) : Nat :=
  match e with
  | [] => 0
  | t :: ts => if t.1 ≠ a then find ts a + 1 else 0

/-- `Expansion::get`, `expansion.tpl.hpp` lines 266-270. -/
def get [Zero X] (e : Terms I X) (a : I) : X :=
  match e[find e a]? with
  | none => 0
  | some t => t.2

/-- `Expansion::set`, `expansion.tpl.hpp` lines 260-264. -/
def set (e : Terms I X) (a : I) (c : X) : Terms I X :=
  match e[find e a]? with
  | none => append e a c
  | some t => List.set e (find e a) (t.1, c)

/-- `Expansion::at` followed by an update of the returned reference, `expansion.tpl.hpp` lines 254-258
and `ExpansionValueReference`, `expansion.inl.hpp` lines 246-251 (assignment, `+=`, `-=`, `*=`,
`/=` are instances of `f`). -/
def update [Zero X] (e : Terms I X) (a : I) (f : X → X) : Terms I X :=
  match e[find e a]? with
  | none => append e a (f 0)
  | some t => List.set e (find e a) (t.1, f t.2)

end Plain

/-- The shifting loop of `Expansion::insert` (`expansion.tpl.hpp` lines 334-340) and of
`Expansion::prepend` (lines 354-360), with `prev - pos` as the argument and `curr = prev + 1` at the
loop test. -/
def shift (e : Terms I X) (pos : Nat) : Nat → Terms I X
  | 0 => e
  | k + 1 =>
    -- `--curr; --prev; *curr=*prev` : curr = pos + k + 1, prev = pos + k
    match e[pos + k]? with
    | none => e
    | some t => shift (List.set e (pos + k + 1) t) pos k

/-- `Expansion::insert(pos,a,c)`, `expansion.tpl.hpp` lines 326-344. -/
def insertAt (e : Terms I X) (pos : Nat) (a : I) (c : X) : Terms I X :=
  let e' := append e a c
  List.set (shift e' pos (e'.length - 1 - pos)) pos (a, c)

/-- `Expansion::prepend`, `expansion.tpl.hpp` lines 352-364. -/
def prepend (e : Terms I X) (a : I) (c : X) : Terms I X :=
  let e' := append e a c
  List.set (shift e' 0 (e'.length - 1)) 0 (a, c)

/-- `Expansion::erase(pos)`, `expansion.tpl.hpp` lines 346-350: both arrays are shifted down by one. -/
def erase (e : Terms I X) (pos : Nat) : Terms I X := e.eraseIdx pos

/-- `Expansion::remove_zeros`, `expansion.tpl.hpp` lines 210-212 (`std::remove_if` keeps the other
terms in their order). -/
def removeZeros [Zero X] [DecidableEq X] (e : Terms I X) : Terms I X :=
  e.filter (fun t => !decide (t.2 = 0))

/-- The inner loop of `combine_terms`, `expansion.tpl.hpp` lines 226-229: absorb the following terms
with the same index; returns the sum and the remaining terms. -/
def absorb [Add X] [DecidableEq I] (a : I) (c : X) : Terms I X → X × Terms I X
  | [] => (c, [])
  | t :: ts => if t.1 = a then absorb a (c + t.2) ts else (c, t :: ts)

/-- The outer loop of `combine_terms`, `expansion.tpl.hpp` lines 222-231, with the number of remaining
terms as fuel. -/
def combineF [Add X] [DecidableEq I] : Nat → Terms I X → Terms I X
  | 0, _ => []
  | _, [] => []
  | n + 1, t :: ts =>
    let r := absorb t.1 t.2 ts
    (t.1, r.1) :: combineF n r.2

/-- `Expansion::combine_terms`, `expansion.tpl.hpp` lines 216-240. -/
def combineTerms [Add X] [DecidableEq I] (e : Terms I X) : Terms I X := combineF e.length e

/-- `Expansion::Expansion(InitializerList)`, `expansion.tpl.hpp` lines 79-100: terms with a zero
coefficient are dropped, the others are appended.  (The list must not be empty, line 82; the
argument size is that of the first index.) -/
def fromList [Zero X] [DecidableEq X] (l : List (I × X)) : Terms I X :=
  l.foldl (fun e t => if !decide (t.2 = 0) then append e t.1 t.2 else e) []

/-- `Expansion::same_as`, `expansion.tpl.hpp` lines 305-324, for expansions in the same number of
variables. -/
def sameAs [DecidableEq I] [DecidableEq X] : Terms I X → Terms I X → Bool
  | t :: ts, u :: us =>
    if !(decide (t.1 = u.1) && decide (t.2 = u.2)) then false else sameAs ts us
  | [], [] => true
  | _, _ => false

/-- `Expansion::_embed`, `expansion.tpl.hpp` lines 466-484, on multi-indices; the components outside
the copied range keep the value zero they were created with. -/
def embed (before after : Nat) (e : Terms (List Nat) X) : Terms (List Nat) X :=
  e.foldl (fun r t => append r
    (List.replicate before 0 ++ t.1 ++ List.replicate after 0) t.2) []

/-! ## `SortedExpansion` -/

section Sorted
variable [DecidableEq I] (lt : I → I → Bool)

/-- `std::lower_bound` on a random-access range as used in `SortedExpansion`, `expansion.tpl.hpp`
lines 559, 569, 578: bisection with `first` and the remaining length, the latter also as fuel. -/
def lowerBoundF (e : Terms I X) (a : I) : Nat → Nat → Nat → Nat
  | 0, first, _ => first
  | _, first, 0 => first
  | fuel + 1, first, len + 1 =>
    let half := (len + 1) / 2
    match e[first + half]? with
    | none => first
    | some t =>
      if lt t.1 a then lowerBoundF e a fuel (first + half + 1) (len + 1 - half - 1)
      else lowerBoundF e a fuel first half

/-- `std::lower_bound(this->begin(),this->end(),term,CMP())`. -/
def lowerBound (e : Terms I X) (a : I) : Nat := lowerBoundF lt e a e.length 0 e.length

/-- `SortedExpansion::get`, `expansion.tpl.hpp` lines 557-565. -/
def sget [Zero X] (e : Terms I X) (a : I) : X :=
  match e[lowerBound lt e a]? with
  | none => 0
  | some t => if t.1 ≠ a then 0 else t.2

/-- `SortedExpansion::at` followed by an update of the returned reference, `expansion.tpl.hpp` lines
567-574. -/
def supdate [Zero X] (e : Terms I X) (a : I) (f : X → X) : Terms I X :=
  match e[lowerBound lt e a]? with
  | none => insertAt e (lowerBound lt e a) a (f 0)
  | some t =>
    if t.1 ≠ a then insertAt e (lowerBound lt e a) a (f 0)
    else List.set e (lowerBound lt e a) (t.1, f t.2)

/-- `SortedExpansion::set`, `expansion.tpl.hpp` lines 587-589. -/
def sset [Zero X] (e : Terms I X) (a : I) (c : X) : Terms I X := supdate lt e a (fun _ => c)

/-- `SortedExpansion::insert`, `expansion.tpl.hpp` lines 576-585; `none` is the exception. -/
def sinsert (e : Terms I X) (a : I) (c : X) : Option (Terms I X) :=
  match e[lowerBound lt e a]? with
  | none => some (insertAt e (lowerBound lt e a) a c)
  | some t => if t.1 ≠ a then some (insertAt e (lowerBound lt e a) a c) else none

/-- `SortedExpansion::check`, `expansion.tpl.hpp` lines 598-605; `false` is the exception. -/
def check : Terms I X → Bool
  | t :: u :: ts => if !lt t.1 u.1 then false else check (u :: ts)
  | _ => true

/-- `SortedExpansion::operator==`, `expansion.tpl.hpp` lines 273-302, with the total number of terms as
fuel; `none` is the branch of lines 289-291, which advances neither iterator and so never ends. -/
def seqF [Zero X] [DecidableEq X] : Nat → Bool → Terms I X → Terms I X → Option Bool
  | 0, r, _, _ => some r
  | _, r, [], [] => some r
  | n + 1, r, t :: ts, [] => seqF n (r && decide (t.2 = 0)) ts []
  | n + 1, r, [], u :: us => seqF n (r && decide (0 = u.2)) [] us
  | n + 1, r, t :: ts, u :: us =>
    if t.1 = u.1 then seqF n (r && decide (t.2 = u.2)) ts us
    else if lt t.1 u.1 then seqF n (r && decide (t.2 = 0)) ts (u :: us)
    else if lt u.1 t.1 then seqF n (r && decide (0 = u.2)) (t :: ts) us
    else none

/-- `SortedExpansion::operator==` for expansions in the same number of variables. -/
def seq [Zero X] [DecidableEq X] (e f : Terms I X) : Option Bool :=
  seqF lt (e.length + f.length) true e f

end Sorted

end Verif.Expansion
