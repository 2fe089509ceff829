import Verif.BinaryTree.Model
import Mathlib.Data.Set.Basic
/-!
# Specification vocabulary for binary trees

A tree denotes a set of infinite bit sequences (a point of a cell is addressed by infinitely many
bisections): those that pass through an enabled leaf.
-/
namespace Ariadne.BinaryTree
open Ariadne.Logical (LV)
open Ariadne.Logical.LV

abbrev Path := Nat → Bool

/-- The flag of the leaf at address `w`, if the tree has a leaf there. -/
def Tree.leafAt : Tree → List Bool → Option LV
  | leaf v, [] => some v
  | leaf _, _ :: _ => none
  | node _ _ _, [] => none
  | node _ l r, b :: w => if b then r.leafAt w else l.leafAt w

/-- The infinite path `p` starts with the finite word `w`. -/
def Extends (p : Path) (w : List Bool) : Prop := ∀ i (h : i < w.length), p i = w[i]

/-- The rest of a path after `n` steps. -/
def Path.drop (n : Nat) (p : Path) : Path := fun i => p (n + i)

/-- The set denoted by a tree: the paths through an enabled leaf. -/
def Tree.points (t : Tree) : Set Path := {p | ∃ w, t.leafAt w = some true_ ∧ Extends p w}

/-- The documented representation invariant (binary_tree.hpp:72-78, 193-195): leaves are definitely
enabled or definitely disabled and inner nodes are marked indeterminate. -/
def Tree.WF : Tree → Prop
  | leaf v => v = true_ ∨ v = false_
  | node v l r => v = indeterminate ∧ l.WF ∧ r.WF

/-- Addresses of the enabled leaves from left to right. -/
def Tree.enabledLeaves : Tree → List (List Bool)
  | leaf v => if v = true_ then [[]] else []
  | node _ l r => l.enabledLeaves.map (false :: ·) ++ r.enabledLeaves.map (true :: ·)

end Ariadne.BinaryTree
