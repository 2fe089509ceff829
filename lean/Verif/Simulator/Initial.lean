import Verif.Simulator.Model
import Verif.Grid.Approx
import Verif.Rounding.Props

/-!
# The initial points of a simulation from a box

Model of `create_paving`, `create_point_list` and `VectorFieldSimulator::orbit(UpperBoxType&,..)`,
`source/dynamics/vector_field_simulator.cpp` lines 97-128 and 155-180; the functions of the same kind in
`source/hybrid/hybrid_simulator.cpp` lines 111-143 and 303-328.
-/

namespace Verif.Simulator

open Verif.Grid
open Ariadne.BinaryTree (Tree)
open Ariadne.BinaryTree.Tree
open Ariadne.Logical.LV

variable {K : Type*} [Field K] [LinearOrder K] [IsStrictOrderedRing K] {d : ℕ} [NeZero d]

/-- The midpoint of a box, rounded to nearest. -/
def midpoint (R : Ariadne.Rounding K) (b : Box K d) : Fin d → K := fun j => R.near (R.near ((b j).1 + (b j).2) / 2)

/-- The widths of a box, rounded up. -/
def widths (R : Ariadne.Rounding K) (b : Box K d) : Fin d → K := fun j => R.up ((b j).2 - (b j).1)

/-- `mince` or `recombine`, `vector_field_simulator.cpp` lines 113-114, with `GridTreeSubpaving::mince`,
`grid_paving.cpp` lines 1127-1129. -/
def discretise (mince : Bool) (k : ℕ) (p : Paving) : Paving :=
  if mince then ⟨p.extent, p.tree.mince (treeDepth d p.extent k)⟩ else ⟨p.extent, p.tree.recombine⟩

/-- `create_point_list`, lines 111-128: the midpoints of the cells. -/
def pointList (R : Ariadne.Rounding K) (o l : Fin d → K) (p : Paving) : List (Fin d → K) :=
  p.tree.enabledLeaves.map fun w => midpoint R (spaceBox (gridMap R o l) p.extent w)

/-- The initial points for a box of positive widths, lines 175-179: the grid has its origin at the centre of
the box and the widths of the box as lengths. -/
def initialPoints (R : Ariadne.Rounding K) (fuel : ℕ) (b : Box K d) (mince : Bool) (k : ℕ) :
    Option (List (Fin d → K)) :=
  ((Paving.init false).adjoinOuter R (midpoint R b) (widths R b) fuel b (boxDisjoint b) (boxCovers b) k).map fun p =>
    pointList R (midpoint R b) (widths R b) (discretise (d := d) mince k p)

theorem mem_enabledLeaves (t : Tree) : ∀ w, w ∈ t.enabledLeaves ↔ t.leafAt w = some true_ := by
  induction t with
  | leaf v =>
    intro w
    cases w <;> cases v <;> simp [Tree.enabledLeaves, Tree.leafAt]
  | node v l r ihl ihr =>
    intro w
    cases w with
    | nil => simp [Tree.enabledLeaves, Tree.leafAt]
    | cons b w => cases b <;> simp [Tree.enabledLeaves, Tree.leafAt, ihl, ihr]

theorem closed_discretise (φ : Fin d → K → K) (hφ : ∀ j, Monotone (φ j)) (m : Bool) (k : ℕ) (p : Paving) :
    (discretise (d := d) m k p).closed φ = p.closed φ := by
  rw [Paving.closed_eq φ hφ, Paving.closed_eq φ hφ]
  cases m <;> simp [discretise, Ariadne.BinaryTree.C16_mince_points, Ariadne.BinaryTree.C16_recombine_points]

/-- Every point of the initial box is in a cell of the grid whose midpoint is one of the initial points.
The initial points themselves need not be in the box: see `C100_initial_points_outside`. -/
theorem C100_initial_points_partial [Archimedean K] (R : Ariadne.Rounding K) (b : Box K d)
    (hb : ∀ j, (b j).1 < (b j).2) (hrep : ∀ j, R.Rep (b j).1 ∧ R.Rep (b j).2) (m : Bool) (k : ℕ) :
    ∃ n, ∀ fuel, n ≤ fuel → ∃ L N, initialPoints R fuel b m k = some L ∧
      (∀ x ∈ b.closed, ∃ w, x ∈ (spaceBox (gridMap R (midpoint R b) (widths R b)) N w).closed ∧
        midpoint R (spaceBox (gridMap R (midpoint R b) (widths R b)) N w) ∈ L) ∧ L ≠ [] := by
  have hl : ∀ j, 0 < widths R b j := fun j =>
    lt_of_lt_of_le (sub_pos.2 (hb j)) (R.le_up _)
  obtain ⟨n, hn⟩ := C21_outer_box R (midpoint R b) (widths R b) hl (Paving.init false)
    (by simp [Paving.init, Paving.WF, Ariadne.BinaryTree.Tree.WF, ofBool]) b (fun j => (hb j).le) hrep k
  refine ⟨n, fun fuel hf => ?_⟩
  obtain ⟨q, -, h1, -, -, h4, -⟩ := hn fuel hf
  have hφ := gridMap_mono R (midpoint R b) (widths R b) fun j => (hl j).le
  have key : ∀ x ∈ b.closed, ∃ w,
      x ∈ (spaceBox (gridMap R (midpoint R b) (widths R b)) (discretise (d := d) m k q).extent w).closed ∧
      midpoint R (spaceBox (gridMap R (midpoint R b) (widths R b)) (discretise (d := d) m k q).extent w) ∈
        pointList R (midpoint R b) (widths R b) (discretise (d := d) m k q) := by
    intro x hx
    have hx' := h4 hx
    rw [← closed_discretise _ hφ m k q] at hx'
    obtain ⟨w, hw, hxw⟩ := hx'
    exact ⟨w, by simpa [Paving.sub] using hxw, List.mem_map.2 ⟨w, (mem_enabledLeaves _ _).2 hw, rfl⟩⟩
  refine ⟨_, (discretise (d := d) m k q).extent, by rw [initialPoints, h1, Option.map_some], key, ?_⟩
  obtain ⟨w, -, hw⟩ := key (fun j => (b j).1) fun j => ⟨le_rfl, (hb j).le⟩
  exact List.ne_nil_of_mem hw

/-- Two of the four initial points for the interval `[-1/2,1/2]` and one subdivision are `-3/4` and `3/4`,
which are outside: the cells which only touch the interval are used as well. -/
theorem C100_initial_points_outside :
    let b : Box ℚ 1 := fun _ => (-1 / 2, 1 / 2)
    (initialPoints (Ariadne.PBit.rounding (K := ℚ) 53 (by norm_num)) 10 b true 1).map
        (fun L => L.map fun x => x 0) = some [-3 / 4, -1 / 4, 1 / 4, 3 / 4] ∧
      (fun _ => 3 / 4 : Fin 1 → ℚ) ∉ b.closed := by
  constructor
  · decide +kernel
  · intro h
    have := (h 0).2
    norm_num at this

/-- With no subdivisions the initial points for the interval are its end points, or, recombined, its
midpoint. -/
example : let b : Box ℚ 1 := fun _ => (-1 / 2, 1 / 2)
    (initialPoints (Ariadne.PBit.rounding (K := ℚ) 53 (by norm_num)) 10 b true 0).map
        (fun L => L.map fun x => x 0) = some [-1 / 2, 1 / 2] ∧
    (initialPoints (Ariadne.PBit.rounding (K := ℚ) 53 (by norm_num)) 10 b false 0).map
        (fun L => L.map fun x => x 0) = some [0] := by
  constructor <;> decide +kernel

end Verif.Simulator
