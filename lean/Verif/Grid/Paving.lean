import Verif.Grid.Model
/-!
# Model of grid tree pavings (`source/geometry/grid_paving.cpp`)

A subpaving is a cell (the *root cell*) together with a binary tree; a paving is a subpaving whose
root cell is a primary cell.  Nodes updated in place through a pointer are modelled by functions on
the whole tree.  The grid is left implicit: every operation asserts that both grids are equal.
-/
namespace Verif.Grid
open Ariadne.BinaryWord (Word)
open Ariadne.BinaryTree
open Ariadne.Logical (LV)
open Ariadne.Logical.LV

/-- Models `GridTreeSubpaving` (grid_paving.hpp): root cell and binary tree. -/
structure Subpaving where
  cell : Cell
  tree : Tree
  deriving DecidableEq, Repr

/-- Models `GridTreePaving` (grid_paving.hpp): the word of the root cell is empty. -/
structure Paving where
  extent : ℕ
  tree : Tree
  deriving DecidableEq, Repr

/-- A paving is a subpaving. -/
def Paving.sub (p : Paving) : Subpaving := ⟨⟨p.extent, []⟩, p.tree⟩

/-- Models the constructors `GridTreePaving(Grid,Bool)` and `GridTreePaving(dimension,Bool)`
(grid_paving.cpp:2095-2097, 2108-2116); with `false` also `clear` (2740-2744). -/
def Paving.init (enable : Bool) : Paving := ⟨0, .leaf (ofBool enable)⟩

/-- Models `up_to_primary_cell` (grid_paving.cpp:2163-2174); `none` if `prepend_tree` gets an empty
path (the code then runs out of range). -/
def Paving.upTo (d : ℕ) (p : Paving) (e : ℕ) : Option Paving :=
  (Tree.prepend (primaryPath d e p.extent) p.tree).map fun t => ⟨e, t⟩

/-- The loop of `align_with_cell` (grid_paving.cpp:2189-2200) followed by the update `f` of the node
it returns; the update is left out if the loop stopped. -/
def walk (stopEnabled stopDisabled : Bool) (f : Tree → Tree) : Word → Tree → Tree
  | [], t => f t
  | b :: path, t =>
    if (t.isEnabled && stopEnabled) || (t.isDisabled && stopDisabled) then t
    else match t with
      | .leaf v => if b then .node indeterminate (.leaf v) (walk stopEnabled stopDisabled f path (.leaf v))
                   else .node indeterminate (walk stopEnabled stopDisabled f path (.leaf v)) (.leaf v)
      | .node v l r => if b then .node v l (walk stopEnabled stopDisabled f path r)
                       else .node v (walk stopEnabled stopDisabled f path l) r

/-- Models `align_with_cell` (grid_paving.cpp:2176-2211) followed by the update `f` of the node. -/
def Paving.align (d : ℕ) (p : Paving) (e : ℕ) (stopEnabled stopDisabled : Bool) (f : Tree → Tree) :
    Option Paving :=
  if p.extent > e then some ⟨p.extent, walk stopEnabled stopDisabled f (primaryPath d p.extent e) p.tree⟩
  else if p.extent < e then (p.upTo d e).map fun q => ⟨q.extent, f q.tree⟩
  else some ⟨p.extent, f p.tree⟩

/-- Models `adjoin(GridCell)` (grid_paving.cpp:2050-2061) and `_adjoin_cell` (2213-2220). -/
def Paving.adjoinCell (d : ℕ) (p : Paving) (c : Cell) : Option Paving :=
  p.align d c.extent true false (Tree.addEnabledPath c.word)

/-- Models `adjoin(GridTreeSubpaving)` (grid_paving.cpp:2063-2077). -/
def Paving.adjoin (d : ℕ) (p : Paving) (s : Subpaving) : Option Paving :=
  p.align d s.cell.extent true false (Tree.addEnabledSubtree s.tree s.cell.word)

/-- The loop of `restrict_to_lower` and what follows it (grid_paving.cpp:2639-2690). -/
def restrictWalk (u : Tree) : Word → Tree → Tree
  | [], t => if t.isEnabled then u else if t.isDisabled then t else t.restrict u
  | b :: path, .leaf v =>
    if (Tree.leaf v).isDisabled then .leaf v
    else if b then .node indeterminate (.leaf false_) (restrictWalk u path (.leaf v))
    else .node indeterminate (restrictWalk u path (.leaf v)) (.leaf false_)
  | b :: path, .node v l r =>
    if b then .node v (.leaf false_) (restrictWalk u path r)
    else .node v (restrictWalk u path l) (.leaf false_)

/-- Models `restrict_to_lower` (grid_paving.cpp:2626-2691). -/
def Paving.restrictToLower (d : ℕ) (p : Paving) (s : Subpaving) : Paving :=
  ⟨p.extent, restrictWalk s.tree (primaryPath d p.extent s.cell.extent ++ s.cell.word) p.tree⟩

/-- Models `restrict` (grid_paving.cpp:2747-2762). -/
def Paving.restrict (d : ℕ) (p : Paving) (s : Subpaving) : Option Paving :=
  if p.extent < s.cell.extent then (p.upTo d s.cell.extent).map fun q => q.restrictToLower d s
  else some (p.restrictToLower d s)

/-- The loop of `remove_from_lower` and what follows it (grid_paving.cpp:2705-2737). -/
def removeWalk (u : Tree) : Word → Tree → Tree
  | [], t => if t.isDisabled then t else t.remove u
  | b :: path, .leaf v =>
    if (Tree.leaf v).isDisabled then .leaf v
    else if b then .node indeterminate (.leaf v) (removeWalk u path (.leaf v))
    else .node indeterminate (removeWalk u path (.leaf v)) (.leaf v)
  | b :: path, .node v l r =>
    if b then .node v l (removeWalk u path r) else .node v (removeWalk u path l) r

/-- Models `remove_from_lower` (grid_paving.cpp:2693-2738). -/
def Paving.removeFromLower (d : ℕ) (p : Paving) (s : Subpaving) : Paving :=
  ⟨p.extent, removeWalk s.tree (primaryPath d p.extent s.cell.extent ++ s.cell.word) p.tree⟩

/-- Models `remove(GridTreeSubpaving)` (grid_paving.cpp:2812-2827). -/
def Paving.remove (d : ℕ) (p : Paving) (s : Subpaving) : Option Paving :=
  if p.extent < s.cell.extent then (p.upTo d s.cell.extent).map fun q => q.removeFromLower d s
  else some (p.removeFromLower d s)

/-- The part of `remove(GridCell)` after the alignment (grid_paving.cpp:2775-2805): both loops over
the path, the second one splitting an enabled leaf. -/
def removePath : Word → Tree → Tree
  | [], .leaf v => if v.definitely then .leaf false_ else .leaf v
  | [], .node _ _ _ => .leaf false_
  | b :: path, .leaf v =>
    if v.definitely then
      if b then .node indeterminate (.leaf v) (removePath path (.leaf v))
      else .node indeterminate (removePath path (.leaf v)) (.leaf v)
    else .leaf v
  | b :: path, .node v l r =>
    if b then .node v l (removePath path r) else .node v (removePath path l) r

/-- Models `remove(GridCell)` (grid_paving.cpp:2764-2810). -/
def Paving.removeCell (d : ℕ) (p : Paving) (c : Cell) : Option Paving :=
  p.align d c.extent false true (removePath c.word)

/-- The loop of `restrict_to_extent` (grid_paving.cpp:2840-2863). -/
def extentWalk : Word → Tree → Tree
  | [], t => t
  | b :: path, .leaf v =>
    if v.definitely then
      if b then .node indeterminate (.leaf false_) (extentWalk path (.leaf v))
      else .node indeterminate (extentWalk path (.leaf v)) (.leaf false_)
    else .leaf v
  | b :: path, .node v l r =>
    if b then .node v (.leaf false_) (extentWalk path r)
    else .node v (extentWalk path l) (.leaf false_)

/-- Models `restrict_to_extent` (grid_paving.cpp:2829-2865). -/
def Paving.restrictToExtent (d : ℕ) (p : Paving) (e : ℕ) : Paving :=
  if p.extent > e then ⟨p.extent, extentWalk (primaryPath d p.extent e) p.tree⟩ else p

/-- Models `join` (grid_paving.cpp:2919-2937).  `new BinaryTreeNode()` is a disabled leaf
(binary_tree.hpp:104, 296-298). -/
def join (d : ℕ) (s t : Subpaving) : Option Paving :=
  ((⟨max s.cell.extent t.cell.extent, .leaf false_⟩ : Paving).adjoin d s).bind fun p => p.adjoin d t

/-- Models `intersection` (grid_paving.cpp:2939-2958). -/
def intersection (d : ℕ) (s t : Subpaving) : Option Paving :=
  ((⟨max s.cell.extent t.cell.extent, .leaf false_⟩ : Paving).adjoin d s).bind fun p => p.restrict d t

/-- Models `difference` (grid_paving.cpp:2960-2979). -/
def difference (d : ℕ) (s t : Subpaving) : Option Paving :=
  ((⟨max s.cell.extent t.cell.extent, .leaf false_⟩ : Paving).adjoin d s).bind fun p => p.remove d t

/-- Models `GridTreeSubpaving::branch` (grid_paving.cpp:1189-1194): one half of a subpaving; `none`
if the root is a leaf (null child pointer). -/
def Subpaving.branch (s : Subpaving) (b : Bool) : Option Subpaving :=
  match s.tree with
  | .leaf _ => none
  | .node _ l r => some ⟨s.cell.split b, if b then r else l⟩

/-- Models `GridTreeSubpaving::clone` (grid_paving.cpp:1183-1186): the constructor called with the
grid and a pointer to the tree is `GridTreePaving(Grid,Bool)` (grid_paving.hpp:527), the non-null
pointer being converted to `true`. -/
def Subpaving.clone (_ : Subpaving) : Paving := Paving.init true

/-- Models the copy constructor, assignment and `clone` of `GridTreePaving` (grid_paving.cpp:2132-2154). -/
def Paving.clone (p : Paving) : Paving := ⟨p.extent, p.tree⟩

end Verif.Grid
