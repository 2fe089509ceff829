import Verif.Logical.Model
/-!
# Model of `source/geometry/binary_tree.hpp` and `source/geometry/binary_tree.cpp`

A node has a three-valued flag and either no children or two (the comment in binary_tree.hpp:72-78;
nodes with exactly one child are not representable here).  Pointers are replaced by values: a
function updating a node in place is modelled as a function returning the new tree.
-/
namespace Ariadne.BinaryTree
open Ariadne.Logical (LV)
open Ariadne.Logical.LV

/-- Models class `BinaryTreeNode` (binary_tree.hpp:67-286): `leaf flag` has null children. -/
inductive Tree where
  | leaf (flag : LV)
  | node (flag : LV) (left right : Tree)
  deriving DecidableEq, Repr

namespace Tree

/-- The field `_isEnabled`. -/
def flag : Tree → LV
  | leaf v => v
  | node v _ _ => v

/-- Models `is_leaf` (binary_tree.hpp:340-342). -/
def isLeaf : Tree → Bool
  | leaf _ => true
  | node _ _ _ => false

/-- Models `is_enabled()` (binary_tree.hpp:332-334): looks at the node's own flag only. -/
def isEnabled (t : Tree) : Bool := t.flag.definitely
/-- Models `is_disabled()` (binary_tree.hpp:336-338). -/
def isDisabled (t : Tree) : Bool := !t.flag.possibly

/-- Models `split` (binary_tree.hpp:406-412). -/
def split : Tree → Tree
  | leaf v => node indeterminate (leaf v) (leaf v)
  | node v l r => node v l r

/-- Models `has_enabled` (binary_tree.cpp:42-48). -/
def hasEnabled : Tree → Bool
  | leaf v => v.definitely
  | node _ l r => l.hasEnabled || r.hasEnabled

/-- Models `all_enabled` (binary_tree.cpp:50-56). -/
def allEnabled : Tree → Bool
  | leaf v => v.definitely
  | node _ l r => l.allEnabled && r.allEnabled

/-- Models `is_enabled(path,position)` (binary_tree.cpp:58-85); `path` is the part of the word from
`position` on. -/
def isEnabledAt : Tree → List Bool → Bool
  | leaf v, _ => v.definitely
  | node _ l r, b :: path => if b then r.isEnabledAt path else l.isEnabledAt path
  | node v l r, [] => (node v l r).allEnabled

/-- Models `operator==` with `is_equal_nodes` (binary_tree.cpp:87-112). -/
def eqNodes : Tree → Tree → Bool
  | leaf v, leaf w =>
      (eq_ v w).definitely || (v.isIndeterminate && w.isIndeterminate)
  | node v l r, node w l' r' =>
      ((eq_ v w).definitely || (v.isIndeterminate && w.isIndeterminate)) && l.eqNodes l' && r.eqNodes r'
  | _, _ => false

/-- Models `restrict(pThisNode,pOtherNode)` (binary_tree.cpp:114-145). -/
def restrict : Tree → Tree → Tree
  | leaf v, leaf w => leaf (and_ v w)
  | node v l r, leaf w => if w.definitely then node v l r else leaf false_
  | leaf v, node w l' r' => if v.definitely then node w l' r' else leaf v
  | node v l r, node _ l' r' => node v (l.restrict l') (r.restrict r')

/-- Models `remove(pThisNode,pOtherNode)` (binary_tree.cpp:147-186). -/
def remove : Tree → Tree → Tree
  | leaf v, leaf w => if v.definitely && w.definitely then leaf false_ else leaf v
  | node v l r, leaf w => if w.definitely then leaf false_ else node v l r
  | leaf v, node _ l' r' =>
      if v.definitely then node indeterminate (remove (leaf v) l') (remove (leaf v) r') else leaf v
  | node v l r, node _ l' r' => node v (l.remove l') (r.remove r')

/-- Models `mince_node` and `mince` (binary_tree.cpp:210-229, binary_tree.hpp:418-420). -/
def mince : Nat → Tree → Tree
  | 0, t => t
  | d+1, t => if t.isDisabled then t else
    match t with
    | leaf v => node indeterminate (mince d (leaf v)) (mince d (leaf v))
    | node v l r => node v (mince d l) (mince d r)

/-- Models `recombine_node` and `recombine` (binary_tree.cpp:231-254, binary_tree.hpp:422-424). -/
def recombine : Tree → Tree
  | leaf v => leaf v
  | node v l r =>
    match l.recombine, r.recombine with
    | leaf a, leaf b => if (eq_ a b).definitely then leaf a else node v (leaf a) (leaf b)
    | l', r' => node v l' r'

/-- Models `depth` (binary_tree.cpp:256-270). -/
def depth : Tree → Nat
  | leaf _ => 0
  | node _ l r => max l.depth r.depth + 1

/-- Models `count_enabled_leaf_nodes` (binary_tree.cpp:272-279). -/
def countEnabled : Tree → Nat
  | leaf v => if v.definitely then 1 else 0
  | node _ l r => l.countEnabled + r.countEnabled

/-- Models `tree_to_binary_words` (binary_tree.cpp:281-290): bits appended to `tree` and `leaves`. -/
def toWords : Tree → List Bool × List Bool
  | leaf v => ([false], [v.definitely])
  | node _ l r => (true :: (l.toWords.1 ++ r.toWords.1), l.toWords.2 ++ r.toWords.2)

/-- Models `restore_node` (binary_tree.cpp:188-208).  `tr` is the part of `theTree` from `arr_index`
on, `cells` the part of `theEnabledCells` from `leaf_counter` on; `flag` is the flag of the current
(leaf) node.  Returns the tree, the part of `theTree` after the new `arr_index` and the remaining
leaves; `none` is the out-of-range access `theEnabledCells[leaf_counter]`. -/
def restoreNode (flag : LV) (tr cells : List Bool) :
    Option {p : Tree × List Bool × List Bool // p.2.1.length ≤ tr.length - 1} :=
  match tr with
  | [] => some ⟨(leaf flag, [], cells), by simp⟩
  | true :: tr' =>
    match restoreNode flag tr' cells with
    | none => none
    | some ⟨(l, r1, c1), h1⟩ =>
      have : r1.length < tr'.length + 1 := by simp at h1; omega
      match restoreNode flag r1 c1 with
      | none => none
      | some ⟨(r, r2, c2), h2⟩ =>
        some ⟨(node indeterminate l r, r2, c2), by simp at h1 h2 ⊢; omega⟩
  | false :: tr' =>
    match cells with
    | [] => none
    | b :: cs => some ⟨(leaf (ofBool b), tr', cs), by simp⟩
termination_by tr.length

/-- Models the constructor from Boolean arrays (binary_tree.hpp:309-321). -/
def ofWords (tr cells : List Bool) : Option Tree :=
  if tr.length > 0 ∧ cells.length > 0 then
    (restoreNode false_ tr cells).map (fun p => p.1.1)
  else some (leaf false_)

/-- Models `add_enabled(pToTreeRoot,pFromTreeRoot)` (binary_tree.cpp:311-350). -/
def addEnabled : Tree → Tree → Tree
  | leaf v, leaf w => if v.definitely then leaf v else if w.definitely then leaf true_ else leaf v
  | leaf v, node _ l' r' => if v.definitely then leaf v else node indeterminate l' r'
  | node v l r, leaf w => if w.definitely then leaf true_ else node v l r
  | node v l r, node _ l' r' => node v (l.addEnabled l') (r.addEnabled r')

/-- Models `add_enabled(pOtherSubTree,path)` (binary_tree.cpp:292-309). -/
def addEnabledSubtree (sub : Tree) : List Bool → Tree → Tree
  | [], t => if t.isEnabled then t else t.addEnabled sub
  | b :: path, t => if t.isEnabled then t else
    match t with
    | leaf v => if b then node indeterminate (leaf v) (addEnabledSubtree sub path (leaf v))
                else node indeterminate (addEnabledSubtree sub path (leaf v)) (leaf v)
    | node v l r => if b then node v l (addEnabledSubtree sub path r)
                    else node v (addEnabledSubtree sub path l) r

/-- Models `add_enabled(pRootTreeNode,path,position)` (binary_tree.cpp:352-377) and
`add_enabled(path)` (binary_tree.hpp:414-416). -/
def addEnabledPath : List Bool → Tree → Tree
  | [], _ => leaf true_
  | b :: path, t =>
    match t with
    | leaf v => if v.definitely then leaf v else
        if b then node indeterminate (leaf v) (addEnabledPath path (leaf v))
        else node indeterminate (addEnabledPath path (leaf v)) (leaf v)
    | node v l r => if b then node v l (addEnabledPath path r) else node v (addEnabledPath path l) r

/-- Models `prepend_tree` (binary_tree.cpp:379-401); `none` for the empty path, for which the code
computes `size()-1` in unsigned arithmetic and runs out of range. -/
def prepend : List Bool → Tree → Option Tree
  | [], _ => none
  | [b], t => some (if b then node indeterminate (leaf false_) t else node indeterminate t (leaf false_))
  | b :: c :: path, t => (prepend (c :: path) t).map (fun s =>
      if b then node indeterminate (leaf false_) s else node indeterminate s (leaf false_))

/-- Models `intersect` (binary_tree.cpp:403-432). -/
def intersect : Tree → Tree → Bool
  | leaf v, leaf w => v.definitely && w.definitely
  | node v l r, leaf w => w.definitely && (node v l r).hasEnabled
  | leaf v, node w l r => v.definitely && (node w l r).hasEnabled
  | node _ l r, node _ l' r' => l.intersect l' || r.intersect r'

/-- Models `subset` (binary_tree.cpp:434-468). -/
def subset : Tree → Tree → Bool
  | leaf v, leaf w => (!v.definitely) || w.definitely
  | node v l r, leaf w => w.definitely || !(node v l r).hasEnabled
  | leaf v, node w l r => (!v.definitely) || (node w l r).allEnabled
  | node _ l r, node _ l' r' => l.subset l' && r.subset r'

end Tree
end Ariadne.BinaryTree
