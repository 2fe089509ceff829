import Verif.Interval.Model

/-!
# Boxes

Model of source/geometry/box.hpp, box.tpl.hpp and box.cpp for boxes whose sides have exact end points
(Box<Interval<FloatDP>>, Box<Interval<Dyadic>>, ...).  A box is the list of its sides, so that the dimension is
part of the value, as in the code.  The value `none` is undefined behaviour (reading beyond the end of a
vector) or a failed assertion.  Simplifications: sides with bounds as end points, whose predicates are only semidecidable,
infinite end points, drawing, reading and printing are not modelled.
-/

namespace Ariadne.Geometry

/-- `Box<I>` (box.hpp 52-215): the member `_vec` -/
abbrev Box (K : Type*) := List (Interval K)

namespace Box
variable {K : Type*}

/-- `res=true; for(i) { res = res && p(x[i],y[i]); }`: `&&` of `Bool` values does not evaluate its second operand
when the first is false. -/
def all2 {α β : Type*} (p : α → β → Bool) : List α → List β → Option Bool
  | [], _ => some true
  | _ :: _, [] => none
  | x :: xs, y :: ys => if p x y then all2 p xs ys else some false

/-- `res=false; for(i) { res = res || p(x[i],y[i]); }` -/
def any2 {α β : Type*} (p : α → β → Bool) : List α → List β → Option Bool
  | [], _ => some false
  | _ :: _, [] => none
  | x :: xs, y :: ys => if p x y then some true else any2 p xs ys

/-- `r[i]=f(x[i],y[i])` for the indices of the first list -/
def map2 {α β γ : Type*} (f : α → β → γ) : List α → List β → Option (List γ)
  | [], _ => some []
  | _ :: _, [] => none
  | x :: xs, y :: ys => (map2 f xs ys).map (f x y :: ·)

section Order
variable [LinearOrder K]

/-- box.tpl.hpp 36-45 -/
def isEmpty (b : Box K) : Bool := b.any Interval.isEmpty
/-- box.hpp 351-369 -/
def contains (b : Box K) (pt : List K) : Option Bool := all2 Interval.contains b pt
/-- box.hpp 372-376 -/
def disjoint (b c : Box K) : Option Bool := any2 Interval.disjoint b c
/-- box.hpp 379-383 -/
def intersect (b c : Box K) : Option Bool := all2 Interval.intersect b c
/-- box.hpp 393-397 -/
def subset (b c : Box K) : Option Bool := all2 Interval.subset b c
/-- box.hpp 400-404 -/
def superset (b c : Box K) : Option Bool := all2 Interval.superset b c
/-- box.hpp 407-411 -/
def covers (b c : Box K) : Option Bool := all2 Interval.covers b c
/-- box.hpp 414-418 -/
def overlap (b c : Box K) : Option Bool := all2 Interval.overlap b c
/-- box.hpp 421-425 -/
def separated (b c : Box K) : Option Bool := any2 Interval.separated b c
/-- box.hpp 428-432 -/
def inside (b c : Box K) : Option Bool := all2 Interval.inside b c
/-- `operator==` (box.hpp 292-299) -/
def opEq (b c : Box K) : Option Bool := if b.length ≠ c.length then some false else all2 Interval.opEq b c
/-- box.hpp 344-348 -/
def intersection (b c : Box K) : Option (Box K) := map2 Interval.intersection b c
/-- box.hpp 314-321 -/
def hull (b c : Box K) : Option (Box K) := if b.length = c.length then map2 Interval.hull b c else none
/-- box.hpp 324-341 -/
def hullPoint (b : Box K) (pt : List K) : Option (Box K) :=
  if b.length = pt.length then map2 Interval.hullPoint b pt else none

/-- box.tpl.hpp 205-215 (and 217-251 with lists of one element for intervals) -/
def product (b c : Box K) : Box K := b ++ c
/-- box.tpl.hpp 187-203; `none` if an index is out of range -/
def project (b : List α) (rng : List Nat) : Option (List α) := rng.mapM (b[·]?)
/-- box.hpp 257-258; the dimension `0-1` and an index out of range are undefined behaviour -/
def remove (b : List α) (k : Nat) : Option (List α) := if k < b.length then some (b.eraseIdx k) else none
/-- box.tpl.hpp 115-119 -/
def lowerBounds (b : Box K) : List K := b.map Interval.l
/-- box.tpl.hpp 121-125 -/
def upperBounds (b : Box K) : List K := b.map Interval.u

mutual
/-- `make_vertices_up` (box.cpp 120-133) for the sides from `i` on; the point built so far is a prefix of the results. -/
def verticesUp : Box K → List (List K)
  | [] => []
  | [x] => [[x.l], [x.u]]
  | x :: y :: b => (verticesUp (y :: b)).map (x.l :: ·) ++ (verticesDown (y :: b)).map (x.u :: ·)
/-- `make_vertices_down` (box.cpp 135-148) -/
def verticesDown : Box K → List (List K)
  | [] => []
  | [x] => [[x.u], [x.l]]
  | x :: y :: b => (verticesUp (y :: b)).map (x.u :: ·) ++ (verticesDown (y :: b)).map (x.l :: ·)
end

/-- box.cpp 150-158 -/
def vertices (b : Box K) : List (List K) := verticesUp b

end Order

section Field
variable [Field K] [LinearOrder K] [IsStrictOrderedRing K]

/-- The loop of `irmax` (box.tpl.hpp 60-67): `i` is the index of the next side. -/
def irmaxLoop (imw : Nat) (mw : K) (i : Nat) : Box K → Nat
  | [] => imw
  | x :: b => if x.width > mw then irmaxLoop i x.width (i + 1) b else irmaxLoop imw mw (i + 1) b

/-- `irmax` (box.tpl.hpp 60-67); `none`: the first side of a box without sides is read. -/
def irmax : Box K → Option Nat
  | [] => none
  | x :: b => some (irmaxLoop 0 x.width 1 b)

/-- `split(k)` (box.tpl.hpp 79-88); `mid` is the midpoint as computed. -/
def split (mid : K → K → K) (b : Box K) (k : Nat) : Option (Box K × Box K) :=
  match b[k]? with
  | none => none
  | some x => some (b.set k ⟨x.l, mid x.l x.u⟩, b.set k ⟨mid x.l x.u, x.u⟩)

/-- `split(k,lmu)` (box.tpl.hpp 70-77) -/
def splitPart (mid q1 q3 : K → K → K) (b : Box K) (k : Nat) (p : Interval.SplitPart) : Option (Box K) :=
  match b[k]? with
  | none => none
  | some x => some (b.set k (x.splitPart mid q1 q3 p))

/-- `split()` (box.tpl.hpp 95-98) -/
def splitWidest (mid : K → K → K) (b : Box K) : Option (Box K × Box K) := (irmax b).bind (split mid b)

/-- box.tpl.hpp 104-108 -/
def midpoint (mid : K → K → K) (b : Box K) : List K := b.map (Interval.midpoint mid)
/-- box.tpl.hpp 127-136 -/
def radius (mid : K → K → K) : Box K → Option K
  | [] => none
  | x :: b => some (b.foldl (fun r y => max r (y.radius mid)) (x.radius mid))
/-- box.tpl.hpp 138-147; the elements are set from the first one and then from index one on -/
def widths (b : Box K) : Option (List K) := if b = [] then none else some (b.map Interval.width)
/-- box.tpl.hpp 160-169, in exact arithmetic -/
def semiperimeter : Box K → Option K
  | [] => none
  | x :: b => some (b.foldl (fun r y => r + y.width) x.width)
/-- box.tpl.hpp 171-180, in exact arithmetic -/
def measure : Box K → Option K
  | [] => none
  | x :: b => some (b.foldl (fun r y => r * y.width) x.width)
/-- box.hpp 545-551, in exact arithmetic -/
def widen (b : Box K) (e : K) : Box K := b.map (·.widen e)
/-- box.hpp 577-583, in exact arithmetic -/
def narrow (b : Box K) (e : K) : Box K := b.map (·.narrow e)

end Field
end Box
end Ariadne.Geometry
