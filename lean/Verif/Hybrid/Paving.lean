import Verif.Grid.Approx
import Verif.Grid.Query
import Verif.Grid.BoxQuery
import Verif.Container.Props

/-!
# Model of hybrid pavings (`source/hybrid/hybrid_paving.{hpp,cpp}`)

A hybrid paving is a map from discrete locations to the grid tree pavings of `Verif.Grid`.  The dimension and the grid
of a location are given by the hybrid grid.  Simplifications: locations are elements of a linear order (C62 proves that
`operator<` of discrete locations is one); the assertions that two grids, or two orderings of the variables, are equal
are taken to hold; a location has at least one continuous variable.
-/

namespace Verif.Hybrid

open Verif.Container Verif.Grid

variable {L : Type*} [LinearOrder L]

/-- Models `HybridGrid` (hybrid_grid.hpp 45-82): which locations exist (`has_location`, 56-57) and the dimension of the
space of each. -/
structure HGrid (L : Type*) where
  known : L → Bool
  dim : L → ℕ
  pos : ∀ l, NeZero (dim l)

instance (G : HGrid L) (l : L) : NeZero (G.dim l) := G.pos l

/-- Models the member `_map` of `HybridGridTreePaving` (hybrid_paving.hpp 69). -/
abbrev HPaving (L : Type*) := List (L × Paving)

/-- Models `_provide_location` (hybrid_paving.cpp 276-283) followed by the update `f` of the paving returned.  `none` if
the grid has no such location (`_hgrid[q]` throws) or the update fails. -/
def updateAt (G : HGrid L) (q : L) (f : Paving → Option Paving) (h : HPaving L) : Option (HPaving L) :=
  match find q h with
  | some p => (f p).map fun r => mset q r h
  | none => if G.known q then (f (Paving.init false)).map fun r => mset q r (minsert q (Paving.init false) h) else none

/-- The loops `for(iter=hgts.locations_begin(); ...) _provide_location(iter->first).f(iter->second)`. -/
def updateAll {α : Type*} (G : HGrid L) (f : (l : L) → α → Paving → Option Paving) :
    List (L × α) → HPaving L → Option (HPaving L)
  | [], h => some h
  | (q, a) :: xs, h => (updateAt G q (f q a) h).bind (updateAll G f xs)

/-- The loops over the locations of the paving itself. -/
def mapAll (f : L → Paving → Paving) (h : HPaving L) : HPaving L := h.map fun e => (e.1, f e.1 e.2)

/-- Models `clear` (hybrid_paving.cpp 61-65). -/
def hClear (h : HPaving L) : HPaving L := mapAll (fun _ _ => Paving.init false) h

/-- Models `adjoin(HybridGridCell)` (hybrid_paving.cpp 67-69). -/
def hAdjoinCell (G : HGrid L) (q : L) (c : Cell) (h : HPaving L) : Option (HPaving L) :=
  updateAt G q (fun p => p.adjoinCell (G.dim q) c) h

/-- Models `adjoin(ListSet<HybridGridCell>)` (hybrid_paving.cpp 71-75). -/
def hAdjoinCells (G : HGrid L) : List (L × Cell) → HPaving L → Option (HPaving L)
  | [], h => some h
  | (q, c) :: xs, h => (hAdjoinCell G q c h).bind (hAdjoinCells G xs)

/-- Models `adjoin(HybridGridTreePaving)` (hybrid_paving.cpp 77-81). -/
def hAdjoin (G : HGrid L) (g h : HPaving L) : Option (HPaving L) :=
  updateAll G (fun l s p => p.adjoin (G.dim l) s.sub) g h

/-- Models `remove(HybridGridTreePaving)` (hybrid_paving.cpp 83-87). -/
def hRemove (G : HGrid L) (g h : HPaving L) : Option (HPaving L) :=
  updateAll G (fun l s p => p.remove (G.dim l) s.sub) g h

/-- Models `restrict(HybridGridTreePaving)` (hybrid_paving.cpp 89-93). -/
def hRestrict (G : HGrid L) (g h : HPaving L) : Option (HPaving L) :=
  updateAll G (fun l s p => p.restrict (G.dim l) s.sub) g h

/-- Models `restrict_to_extent` (hybrid_paving.cpp 95-99). -/
def hRestrictToExtent (G : HGrid L) (e : ℕ) (h : HPaving L) : HPaving L :=
  mapAll (fun l p => p.restrictToExtent (G.dim l) e) h

/-- Models `mince` (hybrid_paving.cpp 183-188), `GridTreeSubpaving::mince` (grid_paving.cpp 1127-1129). -/
def hMince (G : HGrid L) (n : ℕ) (h : HPaving L) : HPaving L :=
  mapAll (fun l p => ⟨p.extent, p.tree.mince (treeDepth (G.dim l) p.extent n)⟩) h

/-- Models `recombine` (hybrid_paving.cpp 190-195). -/
def hRecombine (h : HPaving L) : HPaving L := mapAll (fun _ p => ⟨p.extent, p.tree.recombine⟩) h

/-- Models `is_empty` (hybrid_paving.cpp 159-165). -/
def hIsEmpty : HPaving L → Bool
  | [] => true
  | (_, p) :: h => if !p.sub.isEmpty then false else hIsEmpty h

/-- Models `size` (hybrid_paving.cpp 167-173). -/
def hSize (h : HPaving L) : ℕ := h.foldl (fun r e => r + e.2.tree.countEnabled) 0

/-- Models `nontrivial_location` (hybrid_paving.hpp 97). -/
def hNontrivial (q : L) (h : HPaving L) : Bool := hasKey q h

/-- Models the constant `operator[]` (hybrid_paving.cpp 154-157): the paving returned, and the hybrid paving afterwards;
the call casts away `const` and inserts an entry. -/
def hGet (G : HGrid L) (q : L) (h : HPaving L) : Option (Paving × HPaving L) :=
  if G.known q then match find q h with
    | some p => some (p, h)
    | none => some (Paving.init false, minsert q (Paving.init false) h)
  else none

section Boxes

variable {K : Type*} [Field K] [LinearOrder K] [IsStrictOrderedRing K]

/-- Models `adjoin_outer_approximation(EffectiveHybridCompactSetInterface,Nat)` (hybrid_paving.cpp 129-137) and, the boxes
being sets, `adjoin_outer_approximation(HybridExactBoxes,Nat)` (139-147): `locs` are the locations of the set, `bb`, `sep`
and `cov` its bounding box and answers in each location; `o` and `len` are the grids. -/
def hAdjoinOuter (G : HGrid L) (R : Ariadne.Rounding K) (o len : (l : L) → Fin (G.dim l) → K) (fuel : ℕ)
    (bb : (l : L) → Grid.Box K (G.dim l)) (sep cov : (l : L) → Grid.Box K (G.dim l) → Bool) (k : ℕ) (locs : List L)
    (h : HPaving L) : Option (HPaving L) :=
  updateAll G (fun l (_ : Unit) p => p.adjoinOuter R (o l) (len l) fuel (bb l) (sep l) (cov l) k)
    (locs.map fun l => (l, ())) h

/-- Models `adjoin_inner_approximation` (hybrid_paving.cpp 101-107, 109-117) with given extents. -/
def hAdjoinInner (G : HGrid L) (φ : (l : L) → Fin (G.dim l) → K → K) (e : L → ℕ)
    (sep : (l : L) → Option (Grid.Box K (G.dim l) → Bool)) (cov : (l : L) → Grid.Box K (G.dim l) → Bool) (k : ℕ)
    (locs : List L) (h : HPaving L) : Option (HPaving L) :=
  updateAll G (fun l (_ : Unit) p => p.adjoinInner (φ l) (e l) (sep l) (cov l) k) (locs.map fun l => (l, ())) h

/-- Models `adjoin_lower_approximation` (hybrid_paving.cpp 119-127). -/
def hAdjoinLower (G : HGrid L) (φ : (l : L) → Fin (G.dim l) → K → K) (e : ℕ)
    (cov : (l : L) → Option (Grid.Box K (G.dim l) → Bool)) (ov : (l : L) → Grid.Box K (G.dim l) → Bool) (k : ℕ)
    (locs : List L) (h : HPaving L) : Option (HPaving L) :=
  updateAll G (fun l (_ : Unit) p => p.adjoinLower (φ l) e (cov l) (ov l) k) (locs.map fun l => (l, ())) h

/-- The maps from lattice to space coordinates in each location. -/
abbrev Scale (K : Type*) (G : HGrid L) := (l : L) → Fin (G.dim l) → K → K

/-- Models `separated` (hybrid_paving.cpp 197-200).  `none`: the iterator `end()` is dereferenced. -/
def hSeparated (G : HGrid L) (R : Ariadne.Rounding K) (ε : K) (φ : Scale K G) (q : L) (b : Grid.Box K (G.dim q))
    (h : HPaving L) : Option Bool :=
  let iter := find q h
  if iter.isSome then some true else iter.map fun p => p.sub.separated R ε (φ q) b

/-- Models `overlaps` (hybrid_paving.cpp 202-205). -/
def hOverlaps (G : HGrid L) (R : Ariadne.Rounding K) (ε : K) (φ : Scale K G) (q : L) (b : Grid.Box K (G.dim q))
    (h : HPaving L) : Bool :=
  match find q h with
  | some p => p.sub.overlaps R ε (φ q) b
  | none => false

/-- Models `covers` (hybrid_paving.cpp 207-210). -/
def hCovers (G : HGrid L) (R : Ariadne.Rounding K) (ε : K) (φ : Scale K G) (q : L) (b : Grid.Box K (G.dim q))
    (h : HPaving L) : Bool :=
  match find q h with
  | some p => p.sub.covers R ε (φ q) b
  | none => false

/-- Boxes in some locations: models `HybridExactBoxes` (hybrid_set.hpp 244-279), a map. -/
abbrev HBoxes (K : Type*) (G : HGrid L) := (l : L) → Option (Grid.Box K (G.dim l))

/-- Models `inside` (hybrid_paving.cpp 212-221).  `none`: there is no box for the location (`operator[]` of the constant
map asserts). -/
def hInside (G : HGrid L) (R : Ariadne.Rounding K) (ε : K) (φ : Scale K G) (bs : HBoxes K G) : HPaving L → Option Bool
  | [] => some true
  | (l, p) :: h => if !p.sub.isEmpty then (bs l).map fun b => p.sub.inside R ε (φ l) b else hInside G R ε φ bs h

/-- Models the loop of `GridTreeSubpaving::bounding_box` (grid_paving.cpp 1100-1106) in one coordinate: the lower and
upper bounds are replaced if the box of the cell goes beyond them. -/
def extendBox {d : ℕ} (bb c : Grid.Box K d) : Grid.Box K d := fun j =>
  (if (c j).1 < (bb j).1 then (c j).1 else (bb j).1, if (c j).2 > (bb j).2 then (c j).2 else (bb j).2)

/-- Models `GridTreeSubpaving::bounding_box` (grid_paving.cpp 1094-1110) for a paving which is not empty (`none` if it
is). -/
def boundingBox {d : ℕ} [NeZero d] (φ : Fin d → K → K) (p : Paving) : Option (Grid.Box K d) :=
  match p.tree.enabledLeaves with
  | [] => none
  | w :: ws => some ((w :: ws).foldl (fun bb v => extendBox bb (spaceBox φ p.extent v)) (spaceBox φ p.extent w))

/-- Models `HybridGridTreePaving::bounding_box` (hybrid_paving.cpp 223-233): the entry for a location, if any. -/
def hBoundingBox (G : HGrid L) (φ : Scale K G) (h : HPaving L) : HBoxes K G := fun l =>
  match find l h with
  | some p => if !p.sub.isEmpty then boundingBox (φ l) p else none
  | none => none

end Boxes

/-- Models `subset(HybridGridTreePaving,HybridGridTreePaving)` (hybrid_paving.cpp 235-246).  `none`: the second paving has
no entry for the location (the assertion in container.hpp 247). -/
def hSubset (G : HGrid L) (g : HPaving L) : HPaving L → Option Bool
  | [] => some true
  | (l, p) :: h => if !p.sub.isEmpty then (find l g).bind fun s =>
      if !pavingSubset (G.dim l) p.sub s.sub then some false else hSubset G g h
    else hSubset G g h

/-- Models `intersect(HybridGridTreePaving,HybridGridTreePaving)` (hybrid_paving.cpp 248-259).  `none` as for `hSubset`. -/
def hIntersect (G : HGrid L) (g : HPaving L) : HPaving L → Option Bool
  | [] => some false
  | (l, p) :: h => if !p.sub.isEmpty then (find l g).bind fun s =>
      if pavingIntersect (G.dim l) p.sub s.sub then some true else hIntersect G g h
    else hIntersect G g h

/-! ## Iteration -/

/-- The state of `HybridSpaceSetConstIterator` (hybrid_set.hpp 503-528): the locations from `_loc_iter` on,
with the cells from `_bs_iter` on in the first. -/
abbrev HIter (L : Type*) := List (L × List Cell)

/-- The cells of a paving in the order of its iterator (C17). -/
def cellsOf (p : Paving) : List Cell := p.tree.enabledLeaves.map fun w => ⟨p.extent, w⟩

/-- Models `increment_loc` (hybrid_set.cpp 595-604). -/
def HIter.skip : HIter L → HIter L
  | [] => []
  | (l, []) :: s => HIter.skip s
  | (l, c :: cs) :: s => (l, c :: cs) :: s

/-- Models the constructor (hybrid_set.cpp 581-593). -/
def HIter.begin (h : HPaving L) : HIter L := HIter.skip (h.map fun e => (e.1, cellsOf e.2))

/-- Models `dereference` (hybrid_set.hpp 539-545); `none` at the end. -/
def HIter.get : HIter L → Option (L × Cell)
  | (l, c :: _) :: _ => some (l, c)
  | _ => none

/-- Models `increment` (hybrid_set.hpp 548-554). -/
def HIter.next : HIter L → HIter L
  | (l, _ :: cs) :: s => HIter.skip ((l, cs) :: s)
  | s => s

/-- A loop `for(iter=begin(); iter!=end(); ++iter)` collecting the cells, of at most `n` steps. -/
def HIter.run : ℕ → HIter L → List (L × Cell)
  | 0, _ => []
  | n + 1, s => match s.get with
    | none => []
    | some x => x :: HIter.run n s.next

end Verif.Hybrid
