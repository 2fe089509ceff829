/-!
# Model of `source/utility/lru_cache.hpp`
-/
namespace Ariadne.LRU

/-- Outcome of an operation: normal return, a failed `ARIADNE_PRECONDITION`/`ARIADNE_ASSERT`
(exception), or undefined behaviour (`std::map::erase(end())`). -/
inductive Outcome (α : Type) where
  | ok (a : α)
  | failed
  | undefined
  deriving DecidableEq, Repr

/-- Models class `LRUCache` (lru_cache.hpp:38-103).  The `std::map<L,AgeValuePair>` is an association
list `(label, age, value)`; the order of iteration of the map is not modelled (it could only matter
if two entries had the same age). -/
structure Cache (L V : Type) where
  maxSize : Nat
  elems : List (L × Nat × V)
  deriving DecidableEq, Repr

variable {L V : Type} [DecidableEq L]

/-- Models the constructor with its precondition (lru_cache.hpp:47). -/
def new (m : Nat) : Outcome (Cache L V) := if m > 0 then .ok ⟨m, []⟩ else .failed

/-- Models `has_label` (lru_cache.hpp:50). -/
def Cache.hasLabel (c : Cache L V) (l : L) : Bool := (c.elems.find? (fun e => e.1 = l)).isSome

/-- Models `age` (lru_cache.hpp:66-70). -/
def Cache.age (c : Cache L V) (l : L) : Outcome Nat :=
  match c.elems.find? (fun e => e.1 = l) with
  | none => .failed
  | some e => .ok e.2.1

/-- Models `current_size` (lru_cache.hpp:90-92). -/
def Cache.currentSize (c : Cache L V) : Nat := c.elems.length

/-- Models `get` (lru_cache.hpp:54-63): ages smaller than the entry's are incremented, then the
entry's age is set to zero. -/
def Cache.get (c : Cache L V) (l : L) : Outcome (Cache L V × V) :=
  match c.elems.find? (fun e => e.1 = l) with
  | none => .failed
  | some e =>
    .ok (⟨c.maxSize, c.elems.map (fun o =>
            if o.1 = l then (o.1, 0, o.2.2)
            else if o.2.1 < e.2.1 then (o.1, o.2.1 + 1, o.2.2) else o)⟩, e.2.2)

/-- Models `put` (lru_cache.hpp:74-87). -/
def Cache.put (c : Cache L V) (l : L) (v : V) : Outcome (Cache L V) :=
  if c.hasLabel l then .failed
  else if c.elems.length < c.maxSize then
    .ok ⟨c.maxSize, (l, 0, v) :: c.elems.map (fun o => (o.1, o.2.1 + 1, o.2.2))⟩
  else
    match c.elems.find? (fun o => o.2.1 = c.maxSize - 1) with
    | none => .undefined
    | some r =>
      .ok ⟨c.maxSize,
        (l, 0, v) :: (c.elems.map (fun o => (o.1, o.2.1 + 1, o.2.2))).filter (fun o => o.1 ≠ r.1)⟩

/-- A call made by the user. -/
inductive Op (L V : Type) where
  | put (l : L) (v : V)
  | get (l : L)
  deriving DecidableEq, Repr

def Op.label : Op L V → L
  | .put l _ => l
  | .get l => l

/-- Effect of one call on the cache. -/
def Cache.step (c : Cache L V) : Op L V → Outcome (Cache L V)
  | .put l v => c.put l v
  | .get l => match c.get l with
    | .ok (c', _) => .ok c'
    | .failed => .failed
    | .undefined => .undefined

/-- Effect of a history of calls (oldest first) on a new cache of capacity `m`. -/
def run (m : Nat) (ops : List (Op L V)) : Outcome (Cache L V) :=
  ops.foldl (fun o op => match o with
    | .ok c => c.step op
    | .failed => .failed
    | .undefined => .undefined) (new m)

end Ariadne.LRU
