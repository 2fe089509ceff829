import Mathlib.Order.Lattice
import Mathlib.Order.Defs.LinearOrder
import Mathlib.Data.Nat.Notation

/-!
# List sets

Model of `ListSet` (/repo/source/geometry/list_set.hpp 52-168): unions of basic sets given by a list. Several list sets are
variables of a program, since two of the operations take another list set, which may be the same.

Simplifications: a basic set is known by its dimension and its bounding box; numbers of boxes are exact, in any linear order.
-/

namespace Verif.ListSet

/-- What happens: a result, an exception, or undefined behaviour. -/
inductive Out (A : Type)
  | ok (a : A)
  | throws
  | undefined
  deriving DecidableEq

variable {B R : Type} [LinearOrder R]

/-- What is used of a type of basic sets. -/
structure Basic (B R : Type) where
  dimension : B → ℕ
  boundingBox : B → List (R × R)

/-- `dimension` (list_set.hpp 111). -/
def dimension (K : Basic B R) (l : List B) : ℕ := match l.getLast? with
  | none => 0
  | some b => K.dimension b

/-- `adjoin` of a basic set (123-125). -/
def adjoin (K : Basic B R) (l : List B) (b : B) : Out (List B) := match l.getLast? with
  | none => .ok (l ++ [b])
  | some c => if K.dimension c = K.dimension b then .ok (l ++ [b]) else .throws

/-- `adjoin` of a list set (128-130), which may be the same object: the library does not define the insertion of a part of a
vector into itself. -/
def adjoinList (K : Basic B R) (l m : List B) (same : Bool) : Out (List B) :=
  match l.getLast?, m.getLast? with
  | some c, some b => if K.dimension c = K.dimension b then (if same then .undefined else .ok (l ++ m)) else .throws
  | _, _ => if same then .undefined else .ok (l ++ m)

/-- `pop` (114), undefined for an empty list. -/
def pop (l : List B) : Out (B × List B) := match l.getLast? with
  | none => .undefined
  | some b => .ok (b, l.dropLast)

/-- `erase` (117) of the element at a position, undefined at the end. -/
def erase (l : List B) (k : ℕ) : Out (List B) := if k < l.length then .ok (l.eraseIdx k) else .undefined

/-- `hull` of boxes (box.hpp 314-321), componentwise; boxes of different dimensions are not allowed. -/
def hull (x y : List (R × R)) : Out (List (R × R)) :=
  if x.length = y.length then .ok (List.zipWith (fun a b => (min a.1 b.1, max a.2 b.2)) x y) else .throws

def hullLoop (K : Basic B R) : List (R × R) → List B → Out (List (R × R))
  | x, [] => .ok x
  | x, b :: bs => match hull x (K.boundingBox b) with
    | .ok y => hullLoop K y bs
    | .throws => .throws
    | .undefined => .undefined

/-- `bounding_box` (142-148); the box of dimension zero for the empty list. -/
def boundingBox (K : Basic B R) : List B → Out (List (R × R))
  | [] => .ok []
  | b :: bs => hullLoop K (K.boundingBox b) bs

/-- Histories of adjoining basic sets. -/
def adjoinAll (K : Basic B R) : List B → List B → Out (List B)
  | l, [] => .ok l
  | l, b :: bs => match adjoin K l b with
    | .ok l' => adjoinAll K l' bs
    | .throws => .throws
    | .undefined => .undefined

end Verif.ListSet
