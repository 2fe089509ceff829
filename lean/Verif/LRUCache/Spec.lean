import Verif.LRUCache.Model
/-!
# Specification of least-recently-used caching in terms of the history of calls
-/
namespace Ariadne.LRU
variable {L V : Type} [DecidableEq L]

/-- The last call concerning `l` in the history (oldest first) is call number `i`. -/
def IsLastUse (ops : List (Op L V)) (l : L) (i : Nat) : Prop :=
  (∃ op, ops[i]? = some op ∧ op.label = l) ∧ ∀ (j : Nat) op, i < j → ops[j]? = some op → op.label ≠ l

/-- The value most recently put for `l` is `v`. -/
def IsLastPut (ops : List (Op L V)) (l : L) (v : V) : Prop :=
  ∃ i : Nat, ops[i]? = some (Op.put l v) ∧ ∀ (j : Nat) (w : V), i < j → ops[j]? ≠ some (Op.put l w)

/-- Labels of a history given newest first, each listed once, most recently used first. -/
def recencyRev : List (Op L V) → List L
  | [] => []
  | op :: h => op.label :: (recencyRev h).filter (· ≠ op.label)

/-- All labels ever used in a history (oldest first), most recently used first. -/
def recency (ops : List (Op L V)) : List L := recencyRev ops.reverse

end Ariadne.LRU
