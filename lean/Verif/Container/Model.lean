import Mathlib.Order.Basic
import Mathlib.Order.Defs.LinearOrder
import Mathlib.Data.List.Basic

/-!
# The sets and maps of `utility/container.hpp`

`std::set<T>` and `std::map<K,T>` are modelled by the sequence of their elements in iteration order, which is
strictly increasing (`Sorted`, `SortedKeys`); `insert`, `erase` and `find` of the standard library are the ordered
list operations below.  The comparator is `operator<` (`ContainerComparison`, container.hpp 144-147) of a linear
order.  Comparators which are not strict weak orders (`ContainerComparison<Vector>`, solver_interface.hpp 44-54)
are outside the model.  Loops which erase while iterating (182-189, 218-225) are structural recursions on the
sequence; they are only modelled for an argument which is a different object from the container changed.
-/

namespace Verif.Container

section Sets

variable {α : Type*} [LinearOrder α]

/-- The invariant of `std::set`: elements in strictly increasing order. -/
def Sorted (l : List α) : Prop := l.Pairwise (· < ·)

/-- `std::set::insert`: an element equivalent to one already present is not inserted. -/
def insert (x : α) : List α → List α
  | [] => [x]
  | y :: l => if x < y then x :: y :: l else if y < x then y :: insert x l else y :: l

/-- `std::set::erase(key)`. -/
def erase (x : α) : List α → List α
  | [] => []
  | y :: l => if x < y then y :: l else if y < x then y :: erase x l else l

/-- `Set::contains` (container.hpp 165-166), `contains` (200-201): `find(t)!=end()`. -/
def contains (x : α) : List α → Bool
  | [] => false
  | y :: l => if x < y then false else if y < x then contains x l else true

/-- The constructors of a set from a sequence (container.hpp 156-163, `make_set` 316): insert every element. -/
def ofList (l : List α) : List α := l.foldl (fun s x => insert x s) []

/-- The member `Set::subset` (container.hpp 167-169).  As written: every element of the *argument* is in the set. -/
def memberSubset (this s : List α) : Bool := s.all fun x => contains x this

/-- The members `Set::disjoint` (container.hpp 170-175), for a set or a list. -/
def memberDisjoint (this s : List α) : Bool := s.all fun x => !contains x this

/-- `Set::adjoin` (container.hpp 176-177); `join` (198-199). -/
def adjoin (this s : List α) : List α := s.foldl (fun r x => insert x r) this

/-- `Set::remove(t)` (container.hpp 178-181). -/
def remove1 (this : List α) (x : α) : List α := if contains x this then erase x this else this

/-- The loop of `Set::remove(set)` (container.hpp 182-185) and of the free `remove` (218-221). -/
def remove : List α → List α → List α
  | [], _ => []
  | x :: l, s => if contains x s then remove l s else x :: remove l s

/-- The loop of the member `Set::restrict(set)` (container.hpp 186-189).  As written: the same loop as `remove`. -/
def memberRestrict : List α → List α → List α
  | [], _ => []
  | x :: l, s => if contains x s then memberRestrict l s else x :: memberRestrict l s

/-- `Set::remove(vector)` (container.hpp 190-193). -/
def removeList (this : List α) (l : List α) : List α := l.foldl (fun r x => erase x r) this

/-- The free function `subset` (container.hpp 202-204). -/
def subset (s₁ s₂ : List α) : Bool := s₁.all fun x => contains x s₂

/-- The free function `disjoint(set,set)` (container.hpp 205-207). -/
def disjoint (s₁ s₂ : List α) : Bool := s₁.all fun x => !contains x s₂

/-- The free function `restrict` (container.hpp 222-225). -/
def restrict : List α → List α → List α
  | [], _ => []
  | x :: l, s => if !contains x s then restrict l s else x :: restrict l s

/-- `intersection(set,set)` (container.hpp 211-212). -/
def intersection (s₁ s₂ : List α) : List α := restrict s₁ s₂

/-- `intersection(set,vector)` (container.hpp 213-215). -/
def intersectionList (s₁ l₂ : List α) : List α :=
  l₂.foldl (fun r x => if contains x s₁ then insert x r else r) []

/-- `difference(set,set)` (container.hpp 216-217). -/
def difference (s₁ s₂ : List α) : List α := remove s₁ s₂

/-- The loop of `unique_elements` (container.hpp 292-297). -/
def uniqueLoop : List α → List α → Bool
  | [], _ => true
  | x :: l, found => if contains x found then false else uniqueLoop l (insert x found)

/-- `unique_elements` (container.hpp 292-297); also `unique` (hybrid_automaton-composite.cpp 551-562). -/
def uniqueElements (l : List α) : Bool := uniqueLoop l []

/-- The loop of `duplicate_elements` (container.hpp 299-304). -/
def duplicateLoop : List α → List α → List α → List α
  | [], result, _ => result
  | x :: l, result, found =>
    if contains x found then duplicateLoop l (insert x result) found else duplicateLoop l result (insert x found)

/-- `duplicate_elements` (container.hpp 299-304); also `duplicates` (hybrid_automaton-composite.cpp 564-576). -/
def duplicateElements (l : List α) : List α := duplicateLoop l [] []

end Sets

section Maps

variable {κ ν : Type*} [LinearOrder κ]

/-- The invariant of `std::map`: keys in strictly increasing order. -/
def SortedKeys (m : List (κ × ν)) : Prop := m.Pairwise fun p q => p.1 < q.1

/-- `std::map::find`. -/
def find (k : κ) : List (κ × ν) → Option ν
  | [] => none
  | (k', v') :: m => if k < k' then none else if k' < k then find k m else some v'

/-- `Map::has_key` (container.hpp 250-251). -/
def hasKey (k : κ) (m : List (κ × ν)) : Bool := (find k m).isSome

/-- `Map::insert` (container.hpp 258-261): an existing entry is kept. -/
def minsert (k : κ) (v : ν) : List (κ × ν) → List (κ × ν)
  | [] => [(k, v)]
  | (k', v') :: m =>
    if k < k' then (k, v) :: (k', v') :: m else if k' < k then (k', v') :: minsert k v m else (k', v') :: m

/-- `m[k]=v` with the non-constant `Map::operator[]` (container.hpp 246): an existing entry is replaced. -/
def mset (k : κ) (v : ν) : List (κ × ν) → List (κ × ν)
  | [] => [(k, v)]
  | (k', v') :: m =>
    if k < k' then (k, v) :: (k', v') :: m else if k' < k then (k', v') :: mset k v m else (k, v) :: m

/-- `std::map::erase(key)`. -/
def merase (k : κ) : List (κ × ν) → List (κ × ν)
  | [] => []
  | (k', v') :: m => if k < k' then (k', v') :: m else if k' < k then (k', v') :: merase k m else m

/-- `Map::adjoin` (container.hpp 262-263) and `join` (273-274). -/
def madjoin (this m : List (κ × ν)) : List (κ × ν) := m.foldl (fun r p => minsert p.1 p.2 r) this

/-- `Map::remove_keys` (container.hpp 264-265). -/
def removeKeys (this : List (κ × ν)) (s : List κ) : List (κ × ν) := s.foldl (fun r k => merase k r) this

/-- `Map::keys` (container.hpp 266-268). -/
def keys (m : List (κ × ν)) : List κ := m.foldl (fun r p => insert p.1 r) []

/-- `Map::values` (container.hpp 269-271). -/
def values (m : List (κ × ν)) : List ν := m.foldl (fun r p => r ++ [p.2]) []

/-- `restrict_keys` (container.hpp 277-280). -/
def restrictKeys (m : List (κ × ν)) (s : List κ) : List (κ × ν) :=
  m.foldl (fun r p => if contains p.1 s then minsert p.1 p.2 r else r) []

end Maps

/-- The result of a function which may write outside an array. -/
inductive Mem (α : Type*) where
  | ok (a : α)
  /-- a write outside the allocated elements, or an allocation of a negative size (undefined behaviour) -/
  | undefined
  deriving DecidableEq

/-- The loop of `complement` (array.hpp 249-260): `todo` counts the remaining values of `j`, `room` the free places of
the result, `acc` the places written (most recent last).  `kv` is represented by the remaining part of `vars`. -/
def complementLoop : ℕ → ℕ → ℕ → List ℕ → List ℕ → Mem (List ℕ)
  | 0, _, room, _, acc => .ok (acc ++ List.replicate room 0)
  | todo + 1, j, room, vars, acc =>
    match vars with
    | v :: vs =>
      if j ≠ v then (match room with
        | 0 => .undefined
        | room + 1 => complementLoop todo (j + 1) room (v :: vs) (acc ++ [j]))
      else complementLoop todo (j + 1) room vs acc
    | [] => match room with
      | 0 => .undefined
      | room + 1 => complementLoop todo (j + 1) room [] (acc ++ [j])

/-- `complement(nmax,vars)` (array.hpp 249-260). The result has `nmax-vars.size()` places, initialised to zero; if
there are more variables than `nmax` the unsigned difference wraps round and the allocation fails. -/
def complement (nmax : ℕ) (vars : List ℕ) : Mem (List ℕ) :=
  if vars.length ≤ nmax then complementLoop nmax 0 (nmax - vars.length) vars [] else .undefined

end Verif.Container
