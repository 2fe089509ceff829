import Mathlib.Order.Basic
import Mathlib.Data.List.Nodup
/-!
# Named spaces and valuations

Model of `source/symbolic/space.{hpp,cpp}` and of the class template `Valuation` of
`source/symbolic/valuation.hpp`.

Variables are represented by their names: every operation of `Space` and `Valuation` uses only
`v.name()` (`space.cpp` 104-141, `valuation.hpp` 81-97).  A failed `ARIADNE_ASSERT_MSG` throws
(`utility/macros.hpp` 127-133) and is the value `none`.
-/
namespace Verif.Space
variable {N : Type} [DecidableEq N]

/-- A space is the list of the names of its variables: `Space::_variables`, `space.hpp` 120. -/
structure Space (N : Type) where
  vars : List N
deriving DecidableEq

namespace Space

/-- `Space::Space()`, `space.cpp` 43. -/
def empty : Space N := ⟨[]⟩

/-- `Space::size`, `Space::dimension`, `space.cpp` 69-73. -/
def size (s : Space N) : Nat := s.vars.length

/-- `Space::operator[](SizeType)`, `Space::variable`, `space.cpp` 75-79: `_variables.at(i)`, which
throws `std::out_of_range` if there is no such position. -/
def var (s : Space N) (i : Nat) : Option N := s.vars[i]?

/-- The loop of `Space::contains(v)` from position `i` on, `space.cpp` 104-107. -/
def containsLoop (v : N) : List N → Bool
  | [] => false
  | u :: us => if v = u then true else containsLoop v us

/-- `Space::contains(VariableType)`, `space.cpp` 104-107. -/
def contains (s : Space N) (v : N) : Bool := containsLoop v s.vars

/-- `Space::contains(Set<VariableType>)`, `space.cpp` 108-111; the set is given by the list of its
elements in iteration order. -/
def containsAll (s : Space N) : List N → Bool
  | [] => true
  | v :: vs => if !s.contains v then false else s.containsAll vs

/-- The loop of `Space::index` with counter `i`, `space.cpp` 117-118, 122-123. -/
def indexLoop (v : N) (i : Nat) : List N → Option Nat
  | [] => none
  | u :: us => if v = u then some i else indexLoop v (i + 1) us

/-- `Space::index(VariableType)`, `Space::index(Identifier)` and the corresponding `operator[]`,
`space.cpp` 112-125; `none` is the failed assertion of lines 119, 124. -/
def index (s : Space N) (v : N) : Option Nat := indexLoop v 0 s.vars

/-- `Space::insert`, `space.cpp` 126-129. -/
def insert (s : Space N) (v : N) : Space N :=
  if s.vars.any (fun u => decide (u = v)) then s else ⟨s.vars ++ [v]⟩

/-- `Space::adjoin`, `space.cpp` 131-134.  The argument is a constant reference, which may refer to
the space itself; then nothing is inserted, so reading the list before the loop is the same. -/
def adjoin (s t : Space N) : Space N := t.vars.foldl insert s

/-- `Space::append`, `space.cpp` 136-141; the assertion of line 138 is tested for every variable
before anything is changed. -/
def append (s : Space N) (v : N) : Option (Space N) :=
  if s.vars.all (fun u => decide (u ≠ v)) then some ⟨s.vars ++ [v]⟩ else none

/-- The constructors `Space(List<VariableType>)`, `Space(List<Identifier>)`,
`Space(InitializerList<VariableType>)`, `space.cpp` 45-61. -/
def ofList (vs : List N) : Option (Space N) := vs.foldlM append empty

/-- `join(Space,Space)`, `space.hpp` 125-126. -/
def join (s t : Space N) : Space N := s.adjoin t

/-- `join(Space,Variable)`, `space.hpp` 127-128. -/
def joinVar (s : Space N) (v : N) : Option (Space N) := s.append v

/-- `Space::operator==`, `space.cpp` 63-64. -/
def eq (s t : Space N) : Bool := decide (s.vars = t.vars)

/-- The loop of `Space::indices` and `Space::indices_from_names`, `space.cpp` 87-102, with counter
`i` and the map built so far.  A `Map` is given as the association list of its entries in order of
insertion (the order of keys in `std::map` is not observed here). -/
def indicesLoop (i : Nat) (m : List (N × Nat)) : List N → Option (List (N × Nat))
  | [] => some m
  | u :: us => if m.any (fun p => decide (p.1 = u)) then none else
      indicesLoop (i + 1) (m ++ [(u, i)]) us

/-- `Space::indices`, `Space::indices_from_names`, `space.cpp` 87-102. -/
def indices (s : Space N) : Option (List (N × Nat)) := indicesLoop 0 [] s.vars

end Space

/-! ### Valuations -/

/-- `Valuation::_values`, `valuation.hpp` 106: a `Map<Identifier,X>`, that is a `std::map`
(`utility/container.hpp` 238), given as the list of its entries in order of iteration. -/
abbrev Val (N X : Type) := List (N × X)

section
omit [DecidableEq N]
variable {X : Type} [LinearOrder N]

/-- `std::map::find`. -/
def find (n : N) : Val N X → Option X
  | [] => none
  | (m, x) :: r => if m = n then some x else find n r

/-- `Map::insert(k,v)`, `utility/container.hpp` 260-261, and `Valuation::insert`,
`valuation.hpp` 88: `std::map::insert` does nothing if the key is present. -/
def insert (n : N) (x : X) : Val N X → Val N X
  | [] => [(n, x)]
  | (m, y) :: r =>
    if n < m then (n, x) :: (m, y) :: r
    else if n = m then (m, y) :: r
    else (m, y) :: insert n x r

/-- `Valuation::set`, `valuation.hpp` 90: assignment through `std::map::operator[]`. -/
def set (n : N) (x : X) : Val N X → Val N X
  | [] => [(n, x)]
  | (m, y) :: r =>
    if n < m then (n, x) :: (m, y) :: r
    else if n = m then (m, x) :: r
    else (m, y) :: set n x r

/-- The constant `Valuation::get` and `operator[]`, `valuation.hpp` 92-93, 96, through the constant
`Map::operator[]`, `utility/container.hpp` 247; `none` is its failed assertion. -/
def get (v : Val N X) (n : N) : Option X := find n v

/-- The non-constant `operator[]`, `valuation.hpp` 94, 97, through `std::map::operator[]`
(`utility/container.hpp` 246): a missing key is inserted with the default value `d`. -/
def getMut (d : X) (v : Val N X) (n : N) : X × Val N X :=
  match find n v with
  | some x => (x, v)
  | none => (d, insert n d v)

/-- `Valuation(Map<Variable<Type>,ValueType>)` and the constructors from assignments and pairs,
`valuation.hpp` 81-82, 222-226: each entry is inserted in turn. -/
def ofEntries (l : List (N × X)) : Val N X := l.foldl (fun v e => insert e.1 e.2 v) []

/-- The loop of `Valuation(Array<X>,Space<T>)`, `valuation.hpp` 83-84, from position `i`. -/
def ofArrayLoop (s : Space N) : Nat → Val N X → List X → Option (Val N X)
  | _, v, [] => some v
  | i, v, x :: xs => match s.var i with
    | none => none
    | some n => ofArrayLoop s (i + 1) (insert n x v) xs

/-- `Valuation(Array<X>,Space<T>)`, `valuation.hpp` 83-84. -/
def ofArray (xs : List X) (s : Space N) : Option (Val N X) := ofArrayLoop s 0 [] xs

/-- `Valuation::operator[](Space)`, `valuation.hpp` 103-104: the member function is not constant,
so every component is read with the inserting `operator[]`.  The components are evaluated in order
of index; the valuation afterwards is returned also. -/
def readSpace (d : X) : List N → Val N X → List X × Val N X
  | [], v => ([], v)
  | n :: ns, v =>
    let (x, v') := getMut d v n
    let (xs, v'') := readSpace d ns v'
    (x :: xs, v'')

/-- The outcome of comparing valuations. -/
inductive Cmp
  | yes | no | throws
deriving DecidableEq, Repr

/-- The loop of `operator==(Valuation,Valuation)`, `valuation.hpp` 116-129, with the flag
`identical`. -/
def eqLoop [DecidableEq X] (same : Bool) (fuel : Nat) (v w : Val N X) : Cmp :=
  match fuel with
  | 0 => .throws
  | fuel + 1 =>
    match v, w with
    | (m, x) :: v', (n, y) :: w' =>
      if m = n then
        if x ≠ y then .no else eqLoop same fuel v' w'
      else if m < n then eqLoop false fuel v' ((n, y) :: w')
      else eqLoop false fuel ((m, x) :: v') w'
    | [], [] => if same then .yes else .throws
    | _, _ => .throws

/-- `operator==(Valuation,Valuation)`, `valuation.hpp` 109-130.  Each step advances one of the two
iterators, so the number of steps is at most the sum of the sizes. -/
def eqVal [DecidableEq X] (v w : Val N X) : Cmp := eqLoop true (v.length + w.length + 1) v w

end
end Verif.Space
