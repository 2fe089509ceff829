import Mathlib.Data.Nat.Notation

/-!
# Arrays and their memory

Model of the class `Array` of /repo/source/utility/array.hpp (lines 48-221): arrays hold a size and a pointer to a block of
memory which they allocate and free themselves; and of `complement` (249-260). `UniformArray`
(/repo/source/utility/uniform_array.hpp) has the same code with a configuration stored beside.

Simplifications: the memory is a list of blocks, which are never reused: `none` is a freed block, and a live block is the
list of its elements. Elements are values without effects of their own; constructors fill a new block at once. Undefined
behaviour (reading or freeing memory which is not live, reading past the end) is `none`. `operator new` does not fail.
-/

namespace Verif.ArrayMemory

variable {T : Type}

/-- The members `_size` and `_ptr` (array.hpp 219-220). -/
structure Arr where
  size : ℕ
  ptr : Option ℕ
  deriving DecidableEq

/-- The blocks, and the arrays which exist (the variables of the program). -/
structure Mem (T : Type) where
  heap : List (Option (List T))
  vars : ℕ → Option Arr

def upd {A : Type} (f : ℕ → A) (v : ℕ) (x : A) : ℕ → A := fun w => if w = v then x else f w

/-- The default constructed array (76). -/
def null : Arr := ⟨0, none⟩

/-- The elements from `begin()` to `end()` (181-187). -/
def read (m : Mem T) (a : Arr) : Option (List T) :=
  if a.size = 0 then some []
  else a.ptr.bind fun p => m.heap[p]?.bind fun b => b.bind fun xs =>
    if a.size ≤ xs.length then some (xs.take a.size) else none

/-- `uninitialized_new` (51) and filling (208-217). -/
def extend (m : Mem T) (xs : List T) : Mem T := { m with heap := m.heap ++ [some xs] }

/-- `uninitialized_delete` (52); deleting a null pointer does nothing. -/
def free (m : Mem T) : Option ℕ → Option (Mem T)
  | none => some m
  | some p => m.heap[p]?.bind fun b => b.map fun _ => { m with heap := m.heap.set p none }

/-- `_destroy_elements` (207), which goes over the elements, and `uninitialized_delete`. -/
def release (m : Mem T) (a : Arr) : Option (Mem T) := (read m a).bind fun _ => free m a.ptr

def setVar (m : Mem T) (v : ℕ) (a : Option Arr) : Mem T := { m with vars := upd m.vars v a }

/-- The constructors with elements (78-104). -/
def make (m : Mem T) (v : ℕ) (xs : List T) : Mem T := setVar (extend m xs) v (some ⟨xs.length, some m.heap.length⟩)

/-- `fill` from a sequence (201-202). -/
def fill (m : Mem T) (a : Arr) (ys : List T) : Option (Mem T) :=
  if a.size = 0 then some m
  else a.ptr.bind fun p => m.heap[p]?.bind fun b => b.bind fun xs =>
    if a.size ≤ xs.length ∧ a.size ≤ ys.length then
      some { m with heap := m.heap.set p (some (ys.take a.size ++ xs.drop a.size)) }
    else none

/-- The operations on arrays. -/
inductive Op (T : Type)
  | default (i : ℕ)
  | make (i : ℕ) (xs : List T)
  | copy (i j : ℕ)
  | move (i j : ℕ)
  | assign (i j : ℕ)
  | moveAssign (i j : ℕ)
  | resize (i n : ℕ) (t : T)
  | reallocate (i n : ℕ) (t : T)
  | swap (i j : ℕ)
  | set (i k : ℕ) (x : T)
  | destroy (i : ℕ)

/-- What an operation does. -/
def step (m : Mem T) : Op T → Option (Mem T)
  -- the default constructor (76)
  | .default i => some (setVar m i (some null))
  -- the constructors with elements (78-104)
  | .make i xs => some (make m i xs)
  -- the copy constructor (123-124)
  | .copy i j => (m.vars j).bind fun a => (read m a).map fun xs => make m i xs
  -- the move constructor (126-127)
  | .move i j => (m.vars j).map fun a => setVar (setVar m i (some a)) j (some null)
  -- copy assignment (129-132)
  | .assign i j => (m.vars i).bind fun a => (m.vars j).bind fun b =>
    if a.size = b.size then (read m b).bind fun ys => fill m a ys
    else (release m a).bind fun m => (read m b).map fun ys => make m i ys
  -- move assignment (134-135)
  | .moveAssign i j => (m.vars i).bind fun _ => (m.vars j).map fun b =>
    if i = j then m else setVar (setVar m i (some b)) j (some null)
  -- `resize` (144-155)
  | .resize i n t => (m.vars i).bind fun a =>
    if a.size = n then some m
    else (read m a).bind fun xs =>
      (release (extend m (xs.take n ++ List.replicate (n - xs.length) t)) a).map fun m' =>
        setVar m' i (some ⟨n, some m.heap.length⟩)
  -- `reallocate` (157-158)
  | .reallocate i n t => (m.vars i).bind fun a =>
    if a.size = n then some m else (release m a).map fun m => make m i (List.replicate n t)
  -- `swap` (160)
  | .swap i j => (m.vars i).bind fun a => (m.vars j).map fun b => setVar (setVar m i (some b)) j (some a)
  -- assignment through `at` (167), which throws and changes nothing when the index is out of range
  | .set i k x => (m.vars i).bind fun a => (read m a).bind fun xs => if k < a.size then fill m a (xs.set k x) else some m
  -- the destructor (73)
  | .destroy i => (m.vars i).bind fun a => (release m a).map fun m => setVar m i none

/-- A program. -/
def run (m : Mem T) : List (Op T) → Option (Mem T)
  | [] => some m
  | o :: os => (step m o).bind fun m => run m os

/-- `complement` (249-260), with writes past the end of the result as `none`: the loop over `j`, the part of the variables
not yet passed, and the places left in the result. -/
def complementLoop : List ℕ → List ℕ → ℕ → Option (List ℕ)
  | [], _, left => some (List.replicate left 0)
  | j :: js, [], left => match left with
    | 0 => none
    | left + 1 => (complementLoop js [] left).map (j :: ·)
  | j :: js, v :: vs, left =>
    if j ≠ v then match left with
      | 0 => none
      | left + 1 => (complementLoop js (v :: vs) left).map (j :: ·)
    else complementLoop js vs left

/-- `complement`; with more variables than `nmax` the size of the result underflows (250), `none`. -/
def complement (nmax : ℕ) (vars : List ℕ) : Option (List ℕ) :=
  if vars.length ≤ nmax then complementLoop (List.range nmax) vars (nmax - vars.length) else none

end Verif.ArrayMemory
