import Mathlib.Algebra.Order.Field.Basic
import Mathlib.Data.List.Sort

/-!
# Intervals and unions of intervals

Model of source/geometry/interval.inl.hpp and
source/geometry/union_of_intervals.hpp for intervals whose end points are exact
numbers (Interval<Dyadic>, Interval<Rational>, Interval<FloatDP>, ...).
Simplification: the end points are elements of a linear order, or of an ordered field
where arithmetic is needed; intervals with bounds as end points, whose predicates
are only semidecidable, are not modelled.
-/

namespace Ariadne.Geometry

/-- `Interval<U>` (interval.hpp 176-318) -/
structure Interval (K : Type*) where
  l : K
  u : K
deriving DecidableEq

namespace Interval
variable {K : Type*}

section Order
variable [LinearOrder K]

/-- interval.inl.hpp 56, 77 -/
def isEmpty (x : Interval K) : Bool := decide (x.l > x.u)
/-- interval.inl.hpp 58, 78 -/
def isSingleton (x : Interval K) : Bool := decide (x.l = x.u)
/-- interval.inl.hpp 84-88 -/
def contains (x : Interval K) (a : K) : Bool := decide (x.l ≤ a) && decide (x.u ≥ a)
/-- interval.inl.hpp 90-91 -/
def equal (x y : Interval K) : Bool := decide (x.l ≤ y.l) && decide (x.u = y.u)
/-- interval.inl.hpp 93-94 -/
def subset (x y : Interval K) : Bool := decide (x.l ≥ y.l) && decide (x.u ≤ y.u)
/-- interval.inl.hpp 96-97 -/
def superset (x y : Interval K) : Bool := decide (x.l ≤ y.l) && decide (x.u ≥ y.u)
/-- interval.inl.hpp 99-100 -/
def disjoint (x y : Interval K) : Bool := decide (x.l > y.u) || decide (x.u < y.l)
/-- interval.inl.hpp 102-103 -/
def intersect (x y : Interval K) : Bool := decide (x.l ≤ y.u) && decide (x.u ≥ y.l)
/-- interval.inl.hpp 106-107 -/
def separated (x y : Interval K) : Bool := decide (x.l > y.u) || decide (x.u < y.l)
/-- interval.inl.hpp 109-110 -/
def overlap (x y : Interval K) : Bool := decide (x.l < y.u) && decide (x.u > y.l)
/-- interval.inl.hpp 112-113 -/
def inside (x y : Interval K) : Bool := decide (x.l > y.l) && decide (x.u < y.u)
/-- interval.inl.hpp 115-116 -/
def covers (x y : Interval K) : Bool := decide (x.l < y.l) && decide (x.u > y.u)
/-- interval.inl.hpp 119-122 -/
def intersection (x y : Interval K) : Interval K := ⟨max x.l y.l, min x.u y.u⟩
/-- interval.inl.hpp 125-128 -/
def hull (x y : Interval K) : Interval K := ⟨min x.l y.l, max x.u y.u⟩
/-- interval.inl.hpp 130-133 -/
def hullPoint (x : Interval K) (a : K) : Interval K := ⟨min x.l a, max x.u a⟩
/-- `operator==` (interval.inl.hpp 162-163) -/
def opEq (x y : Interval K) : Bool := decide (x.l = y.l) && decide (x.u = y.u)
/-- `operator!=` (interval.inl.hpp 164-165) -/
def opNe (x y : Interval K) : Bool := decide (x.l ≠ y.l) || decide (x.u ≠ y.u)
end Order

section Field
variable [Field K] [LinearOrder K] [IsStrictOrderedRing K]

/-- interval.inl.hpp 48: `mid` is the half sum as computed, and rounded to a number. -/
def midpoint (mid : K → K → K) (x : Interval K) : K := mid x.l x.u
/-- interval.inl.hpp 49; the differences are exact, or bounded above by the result -/
def radius (mid : K → K → K) (x : Interval K) : K := max (x.u - midpoint mid x) (midpoint mid x - x.l)
/-- interval.inl.hpp 50 -/
def width (x : Interval K) : K := x.u - x.l

inductive SplitPart | lower | middle | upper

/-- interval.inl.hpp 142-153; `q1`, `q3` are the computed quarter points. -/
def splitPart (mid q1 q3 : K → K → K) (x : Interval K) : SplitPart → Interval K
  | .lower => ⟨x.l, mid x.l x.u⟩
  | .upper => ⟨mid x.l x.u, x.u⟩
  | .middle => ⟨q1 x.l x.u, q3 x.l x.u⟩
/-- interval.inl.hpp 155-158 -/
def split (mid : K → K → K) (x : Interval K) : Interval K × Interval K :=
  (⟨x.l, mid x.l x.u⟩, ⟨mid x.l x.u, x.u⟩)
/-- interval.inl.hpp 182-183 and 189-190, with exact arithmetic -/
def widen (x : Interval K) (e : K) : Interval K := ⟨x.l - e, x.u + e⟩
def narrow (x : Interval K) (e : K) : Interval K := ⟨x.l + e, x.u - e⟩
end Field

end Interval

/-! ### Unions of intervals -/

namespace UnionOfIntervals
variable {K : Type*} [LinearOrder K]

/-- `LowerUpperBoundLess` (union_of_intervals.hpp 36-39) -/
def less (x y : Interval K) : Bool :=
  decide (x.l < y.l) || (decide (x.l = y.l) && decide (x.u < y.u))

/-- `_sort` (union_of_intervals.hpp 195-197).  `std::sort` is any algorithm which puts
the elements in order; elements which the order does not distinguish are equal. -/
def sort (xs : List (Interval K)) : List (Interval K) := xs.mergeSort fun x y => !less y x

/-- the body of the loop of `_combine` (union_of_intervals.hpp 203-211) with `*curr` read from `*next` -/
def combineFrom (cur : Interval K) : List (Interval K) → List (Interval K)
  | [] => [cur]
  | n :: ns => if n.l ≤ cur.u then combineFrom ⟨cur.l, max cur.u n.u⟩ ns else cur :: combineFrom n ns

/-- `_combine` (union_of_intervals.hpp 199-214).  The list is compacted in place; the
write position never passes the read position, so this is a function from the old list
to the new one. -/
def combine : List (Interval K) → List (Interval K)
  | [] => []
  | x :: xs => combineFrom x xs

/-- the constructors from a list of intervals of the same type (union_of_intervals.hpp 51, 60) -/
def ofList (xs : List (Interval K)) : List (Interval K) := combine (sort xs)

/-- the constructors from intervals of another type (union_of_intervals.hpp 56-58, 61-63):
only the end points are converted. -/
def ofConverted {L : Type*} (conv : L → K) (xs : List (Interval L)) : List (Interval K) :=
  xs.map fun x => ⟨conv x.l, conv x.u⟩

/-- the loop of `_intersection` (union_of_intervals.hpp 129-138), transcribed as written -/
def intersectionLoop (A B : List (Interval K)) : List (Interval K) :=
  match A, B with
  | [], _ => []
  | _, [] => []
  | a :: as, b :: bs =>
    if a.l ≥ b.u then intersectionLoop as (b :: bs)
    else if b.l ≥ a.u then intersectionLoop (a :: as) bs
    else ⟨max a.l b.l, min a.u b.u⟩ ::
      (if a.u < b.u then intersectionLoop as (b :: bs) else intersectionLoop (a :: as) bs)
termination_by A.length + B.length

/-- `_intersection` (union_of_intervals.hpp 124-140) -/
def intersection (A B : List (Interval K)) : List (Interval K) := ofList (intersectionLoop A B)

/-- `_join` (union_of_intervals.hpp 142-145) -/
def join (A B : List (Interval K)) : List (Interval K) := ofList (A ++ B)

/-- `_intersect` (union_of_intervals.hpp 147-160) -/
def intersect (A B : List (Interval K)) : Bool :=
  match A, B with
  | [], _ => false
  | _, [] => false
  | a :: as, b :: bs =>
    if a.l ≥ b.u then intersect (a :: as) bs
    else if a.u ≤ b.l then intersect as (b :: bs)
    else true
termination_by A.length + B.length

/-- `_subset` (union_of_intervals.hpp 162-179) -/
def subset (A B : List (Interval K)) : Bool :=
  match A, B with
  | [], _ => true
  | _ :: _, [] => false
  | a :: as, b :: bs =>
    if a.l ≥ b.u then subset (a :: as) bs
    else if a.l ≥ b.l ∧ a.u ≤ b.u then subset as (b :: bs)
    else false
termination_by A.length + B.length

/-- `separated`, `overlaps`, `covers`, `inside` (union_of_intervals.hpp 82-85) -/
def separated (A : List (Interval K)) (b : Interval K) : Bool := !intersect A (ofList [b])
def overlaps (A : List (Interval K)) (b : Interval K) : Bool := intersect A (ofList [b])
def covers (A : List (Interval K)) (b : Interval K) : Bool := subset (ofList [b]) A
def inside (A : List (Interval K)) (b : Interval K) : Bool := subset A (ofList [b])

/-- `bounding_box` (union_of_intervals.hpp 190-193); `none`: failed assertion -/
def boundingBox (A : List (Interval K)) : Option (Interval K) :=
  match A.head?, A.getLast? with
  | some a, some b => some ⟨a.l, b.u⟩
  | _, _ => none

/-- `measure` (union_of_intervals.hpp 182-188); `none`: the first element of an empty
list is read. -/
def measure [AddCommGroup K] (A : List (Interval K)) : Option K :=
  match A with
  | [] => none
  | a :: as => some ((a :: as).foldl (fun r x => r + (x.u - x.l)) 0)

end UnionOfIntervals
end Ariadne.Geometry
