import Verif.Hybrid.Functions
import Verif.Container.Props
import Verif.Rounding.Model

/-!
# Sets of variables and expressions

Model of `source/symbolic/expression_set.hpp` and `expression_set.cpp`, and of the hybrid sets made of them in
`source/hybrid/hybrid_set.cpp` lines 293-534.

Maps and sets are those of `Verif.Container`, expressions and predicates those of `Verif.Symbolic`; a space is the list of its
variables.  Intervals are of any type; `none` is a failed assertion or an exception.
-/

namespace Verif.ExprSet

open Verif.Hybrid Verif.Container Ariadne.Symbolic

variable {V I : Type*} [LinearOrder V]

/-! ### Boxes -/

/-- `VariablesBox(List)`, expression_set.hpp lines 252-253, and `make_key_value_map`, expression_set.cpp lines 60-69 -/
def boxOfList (l : List (V × I)) : List (V × I) := l.foldl (fun m p => minsert p.1 p.2 m) []

/-- `VariablesBox(spc,bx)`, expression_set.hpp lines 267-272 -/
def boxOfSpace (spc : List V) (bx : List I) : Option (List (V × I)) :=
  if spc.length = bx.length then some (boxOfList (spc.zip bx)) else none

/-- `VariablesBox::euclidean_set`, expression_set.hpp lines 259-260 -/
def boxEuclid (m : List (V × I)) (spc : List V) : Option (List I) := spc.mapM fun v => find v m

/-- `VariablesBox::operator LabelledSet`, expression_set.hpp lines 373-376 -/
def labelled (m : List (V × I)) : Option (List V × List I) := (boxEuclid m (keys m)).map fun b => (keys m, b)

/-- `LabelledSet::euclidean_set(vars)`, expression_set.hpp lines 340-341, for boxes -/
def labelledEuclid (spc : List V) (b : List I) (vars : List V) : Option (List I) :=
  vars.mapM fun v => if v ∈ spc then b[spc.idxOf v]? else none

/-- `operator==` of labelled sets, expression_set.hpp lines 362-366; `eq` compares the euclidean sets. -/
def labelledEq (eq : List I → List I → Bool) (s t : List V × List I) : Option Bool :=
  if ofList s.1 ≠ ofList t.1 then some false else if s.1 ≠ t.1 then none else some (eq s.2 t.2)

/-- `over_approximation(RealInterval)` and `over_approximation(RealVariablesBox)`, expression_set.cpp lines 99-102 and
115-123.  The bounds are rounded once. -/
def overApproximation {K : Type*} [Field K] [LinearOrder K] [IsStrictOrderedRing K] (R : Ariadne.Rounding K)
    (m : List (V × K × K)) : List (V × K × K) := m.foldl (fun r p => minsert p.1 (R.down p.2.1, R.up p.2.2) r) []

/-- `under_approximation`, expression_set.cpp lines 104-107 and 135-143 -/
def underApproximation {K : Type*} [Field K] [LinearOrder K] [IsStrictOrderedRing K] (R : Ariadne.Rounding K)
    (m : List (V × K × K)) : List (V × K × K) := m.foldl (fun r p => mset p.1 (R.up p.2.1, R.down p.2.2) r) []

/-! ### Constraint sets -/

/-- `RealExpressionBoundedConstraintSet`, expression_set.hpp lines 306-309 -/
structure BSet (V I : Type*) where
  bounds : List (V × I)
  constraints : List (KExpr V)

/-- `unique_keys`, expression_set.cpp lines 47-58 -/
def uniqueKeys (l : List (V × I)) : Bool := uniqueElements (l.map Prod.fst)

/-- `RealExpressionBoundedConstraintSet(Map,List)`, expression_set.cpp lines 200-204 -/
def bsetOfMap (m : List (V × I)) (cs : List (KExpr V)) : Option (BSet V I) :=
  if cs.all fun c => decide (∀ v ∈ kargs c, v ∈ keys m) then some ⟨m, cs⟩ else none

/-- `RealExpressionBoundedConstraintSet(List,List)`, expression_set.cpp lines 189-193; without constraints lines 183-187 -/
def bsetOfList (l : List (V × I)) (cs : List (KExpr V)) : Option (BSet V I) :=
  (bsetOfMap (boxOfList l) cs).bind fun s => if uniqueKeys l then some s else none

/-- The constraint functions, expression_set.cpp lines 156-160 and 223-227 -/
def constraintFunctions (spc : List V) (cs : List (KExpr V)) : Option (List (Expr ℕ)) :=
  cs.mapM fun c => (c.indicator false).bind (makeFormula spc)

/-- `RealExpressionBoundedConstraintSet::euclidean_set`, expression_set.cpp lines 218-228: the domain and the functions which
are constrained to be at most zero. -/
def BSet.euclid (s : BSet V I) (spc : List V) : Option (List I × List (Expr ℕ)) :=
  if keys s.bounds = ofList spc then
    (boxEuclid s.bounds spc).bind fun d => (constraintFunctions spc s.constraints).map fun fs => (d, fs)
  else none

/-- `RealExpressionConstraintSet::euclidean_set`, expression_set.cpp lines 152-162: the dimension
(`get_argument_size`, geometry/function_set.cpp lines 227-233) and the functions. -/
def constraintEuclid (cs : List (KExpr V)) (spc : List V) : Option (ℕ × List (Expr ℕ)) :=
  if cs.all fun c => decide (∀ v ∈ kargs c, v ∈ spc) then
    (constraintFunctions spc cs).map fun fs => (if fs.isEmpty then 0 else spc.length, fs)
  else none

/-! ### Hybrid sets -/

variable {L : Type*} [LinearOrder L]

/-- `HybridBoundedConstraintSet::adjoin`, hybrid_set.cpp lines 421-425 -/
def hadjoin (l : L) (s : BSet V I) (h : List (L × BSet V I)) : List (L × BSet V I) := minsert l s h

/-- `HybridBoundedConstraintSet::euclidean_set`, hybrid_set.cpp lines 441-444 -/
def heuclid (h : List (L × BSet V I)) (l : L) (spc : List V) : Option (List I × List (Expr ℕ)) :=
  (find l h).bind fun s => s.euclid spc

/-- The loop of `intersection` of boxes and constraints, hybrid_set.cpp lines 525-532: `continuous_set` of line 527 asserts
that there are constraints (lines 341-344), so the branch of line 531 is never reached. -/
def intersectLoop (hcs : List (L × List (KExpr V))) : List (L × List (V × I)) → List (L × BSet V I) → Option (List (L × BSet V I))
  | [], r => some r
  | (l, bx) :: hbxs, r => match find l hcs with
    | none => none
    | some cs => match bsetOfMap bx cs with
      | none => none
      | some s => intersectLoop hcs hbxs (hadjoin l s (hadjoin l s r))

/-- `intersection(HybridBoxesSet,HybridConstraintSet)`, hybrid_set.cpp lines 523-534 -/
def hintersection (hbxs : List (L × List (V × I))) (hcs : List (L × List (KExpr V))) : Option (List (L × BSet V I)) :=
  intersectLoop hcs hbxs []

end Verif.ExprSet
