import Verif.Matrix.Model

/-!
# Symmetric matrices, diagonal matrices and tensors

Model of `source/algebra/symmetric_matrix.hpp`, `source/algebra/diagonal_matrix.hpp` and
`source/algebra/tensor.hpp`.  Arrays are lists; the outcome `none` is a failed assertion or an access
outside an array.  The zero element stored with a matrix, which carries the precision, is left out, and
so are conversions between number types and precisions.
-/

namespace Verif.Structured

open Verif.Matrix (Mat)

variable {X Y : Type*}

/-! ## Symmetric matrices -/

/-- `SymmetricMatrix`, symmetric_matrix.hpp lines 56-61. -/
structure Sym (X : Type*) where
  s : ℕ
  ary : List X

/-- `_fast_position`, line 146, without the assertion `i<=j`. -/
def fastPosition (n i j : ℕ) : ℕ := i * (2 * n - i - 1) / 2 + j

/-- `_position`, line 147. -/
def position (n i j : ℕ) : ℕ := if i ≤ j then fastPosition n i j else fastPosition n j i

/-- The constructor filling with a value, lines 159-162. -/
def Sym.filled (n : ℕ) (z : X) : Sym X := ⟨n, List.replicate (n * (n + 1) / 2) z⟩

/-- `at` and `get`, lines 208-218. -/
def Sym.at (S : Sym X) (i j : ℕ) : Option X := S.ary[position S.s i j]?

/-- `set`, lines 220-222, and writing to the reference given by `at`. -/
def Sym.set (S : Sym X) (i j : ℕ) (x : X) : Option (Sym X) :=
  if position S.s i j < S.ary.length then some ⟨S.s, S.ary.set (position S.s i j) x⟩ else none

/-- `resize`, lines 203-206; the new array keeps the first entries, and is filled with zeros. -/
def Sym.resize (S : Sym X) (z : X) (n : ℕ) : Sym X :=
  ⟨n, (S.ary ++ List.replicate (n * (n - 1) / 2) z).take (n * (n - 1) / 2)⟩

/-- The indices of the loops `for i, for j from i`, lines 168-174, 320-328, 336-344 and 352-357. -/
def upper (n : ℕ) : List (ℕ × ℕ) := (List.range n).flatMap fun i => (List.range' i (n - i)).map fun j => (i, j)

/-- Assigning `v i j` at each of the indices, in turn. -/
def Sym.fill (v : ℕ → ℕ → X) (l : List (ℕ × ℕ)) (S : Sym X) : Option (Sym X) :=
  l.foldlM (fun S p => S.set p.1 p.2 (v p.1 p.2)) S

/-- The constructor from a square matrix, lines 164-175: `ne` is `decide(x!=y)`. -/
def Sym.ofMatrix (ne : X → X → Bool) (z : X) (n : ℕ) (A : ℕ → ℕ → X) : Option (Sym X) :=
  (upper n).foldlM (fun S p => if p.1 ≠ p.2 ∧ ne (A p.1 p.2) (A p.2 p.1) = true then none
    else S.set p.1 p.2 (A p.1 p.2)) (Sym.filled n z)

/-- `identity`, lines 182-189. -/
def Sym.identity (zero one : X) (n : ℕ) : Option (Sym X) :=
  (List.range n).foldlM (fun S i => S.set i i one) (Sym.filled n zero)

/-- The entries of the conversion to a matrix, lines 251-262. -/
def Sym.toMatrix (S : Sym X) (i j : ℕ) : Option X := if i ≤ j then S.at i j else S.at j i

/-- `operator+` and `operator-`, lines 269-287. -/
def Sym.zip (f : X → X → X) (S T : Sym X) : Option (Sym X) :=
  if S.s = T.s then
    if S.s * (S.s + 1) / 2 ≤ S.ary.length ∧ S.s * (S.s + 1) / 2 ≤ T.ary.length then
      some ⟨S.s, (List.zipWith f S.ary T.ary).take (S.s * (S.s + 1) / 2)⟩ else none
  else none

/-- Multiplication and division by a scalar, lines 289-314: `f` is `x1*·`, `·*x2` or `·/x2`. -/
def Sym.map (f : X → X) (S : Sym X) : Option (Sym X) :=
  if S.s * (S.s + 1) / 2 ≤ S.ary.length then some ⟨S.s, (S.ary.map f).take (S.s * (S.s + 1) / 2)⟩ else none

/-- `outer`, lines 316-330 and 332-346, for a matrix with `m` rows and `n` columns. -/
def Sym.outer (zero : X) (add mul : X → X → X) (m n : ℕ) (A : ℕ → ℕ → X) : Option (Sym X) :=
  Sym.fill (fun i j => (List.range m).foldl (fun s k => add s (mul (A k i) (A k j))) zero) (upper n)
    (Sym.filled n zero)

/-- `symmetrize`, lines 348-359. -/
def Sym.symmetrize (zero : X) (add : X → X → X) (hlf : X → X) (n : ℕ) (A : ℕ → ℕ → X) : Option (Sym X) :=
  Sym.fill (fun i j => if i = j then A i i else hlf (add (A i j) (A j i))) (upper n) (Sym.filled n zero)

/-! ## Diagonal matrices

`DiagonalMatrix`, diagonal_matrix.hpp lines 192-216, is the list of its diagonal entries.  Operators on
matrices of different sizes fail; those on a matrix are given for sizes which agree. -/

/-- `at` and `get`, lines 260-266. -/
def diagAt (zero : X) (D : List X) (i j : ℕ) : Option X := if i = j then D[i]? else some zero

/-- The constructor from an array, lines 223-225, which reads the first entry. -/
def diagOfArray (l : List X) : Option (List X) := if l = [] then none else some l

/-- `operator-`, `inverse` and multiplication and division by a scalar, lines 55-58, 72-85, 101-104. -/
def diagMap (f : X → X) (D : List X) : List X := D.map f

/-- Sum, difference, product and quotient, lines 60-70 and 87-99. -/
def diagZip (f : X → X → X) (D E : List X) : Option (List X) :=
  if D.length = E.length then some (List.zipWith f D E) else none

/-- `A+D`, `D+A` and `A-D`, lines 106-122: `f` is `+` or `-`. -/
def matDiag {n : ℕ} (f : X → X → X) (A : Mat n n X) (D : Fin n → X) : Mat n n X :=
  fun i j => if i = j then f (A i i) (D i) else A i j

/-- `D-A`, lines 124-131. -/
def diagSubMat {n : ℕ} (neg : X → X) (add : X → X → X) (D : Fin n → X) (A : Mat n n X) : Mat n n X :=
  fun i j => if i = j then add (neg (A i i)) (D i) else neg (A i j)

/-- `A*D`, lines 133-141. -/
def matMulDiag {m n : ℕ} (mul : X → X → X) (A : Mat m n X) (D : Fin n → X) : Mat m n X :=
  fun i j => mul (A i j) (D j)

/-- `D*A`, lines 143-151. -/
def diagMulMat {m n : ℕ} (mul : X → X → X) (D : Fin m → X) (A : Mat m n X) : Mat m n X :=
  fun i j => mul (A i j) (D i)

/-- `D*transpose(A)`, lines 153-162. -/
def diagMulTranspose {m n : ℕ} (mul : X → X → X) (D : Fin m → X) (A : Mat n m X) : Mat m n X :=
  fun i j => mul (D i) (A j i)

/-- `D*v`, `v*D` and `v/D`, lines 164-186: `f` is `*` or `/`. -/
def vecDiag {n : ℕ} (f : X → X → X) (v D : Fin n → X) : Fin n → X := fun i => f (v i) (D i)

/-- The conversion to a matrix, lines 277-281. -/
def diagToMat {n : ℕ} (zero : X) (D : Fin n → X) : Mat n n X := fun i j => if i = j then D i else zero

/-! ## Tensors -/

/-- `Tensor`, tensor.hpp lines 50-57. -/
structure Tensor (X : Type*) where
  ns : List ℕ
  a : List X

/-- `_total_size`, line 83. -/
def totalSize (ns : List ℕ) : ℕ := ns.foldl (fun r n => r * n) 1

/-- `_index`, line 82: `none` for no indices or more indices than the rank. -/
def tensorIndex (ns is : List ℕ) : Option ℕ :=
  match is with
  | [] => none
  | i :: is => if is.length ≤ ns.tail.length then some ((is.zip ns.tail).foldl (fun r e => r * e.2 + e.1) i)
    else none

/-- The constructor filling with a value, line 61. -/
def Tensor.filled (ns : List ℕ) (z : X) : Tensor X := ⟨ns, List.replicate (totalSize ns) z⟩

/-- `operator[]`, line 66. -/
def Tensor.at (t : Tensor X) (is : List ℕ) : Option X := (tensorIndex t.ns is).bind fun k => t.a[k]?

/-- Assigning to `operator[]`, line 67. -/
def Tensor.set (t : Tensor X) (is : List ℕ) (x : X) : Option (Tensor X) :=
  (tensorIndex t.ns is).bind fun k => if k < t.a.length then some ⟨t.ns, t.a.set k x⟩ else none

/-- All indices of a tensor of rank two, in the order of the loops of lines 89 and 98-99. -/
def indices2 (n m : ℕ) : List (ℕ × ℕ) := (List.range n).flatMap fun i => (List.range m).map fun j => (i, j)

/-- The constructor from a function, lines 93-103, for rank two. -/
def Tensor.generate (n m : ℕ) (g : ℕ → ℕ → X) : Option (Tensor X) :=
  (indices2 n m).foldlM (fun t p => if p.1 * m + p.2 < t.a.length then
    some ⟨t.ns, t.a.set (p.1 * m + p.2) (g p.1 p.2)⟩ else none) (Tensor.filled [n, m] (g 0 0))

/-- `transform`, lines 87-91, for rank two: the entry at the origin is read first. -/
def Tensor.transform (n m : ℕ) (f : X → Y) (t : Tensor X) : Option (Tensor Y) :=
  (t.at [0, 0]).bind fun x => (indices2 n m).foldlM (fun r p => (t.at [p.1, p.2]).bind fun x =>
    r.set [p.1, p.2] (f x)) (Tensor.filled [n, m] (f x))

/-- The entries printed by `write_tensor` for a rank above three, lines 148-165, from the dimension
below `m` on: indices and the position read. -/
def writeEntries (ns : List ℕ) : ℕ → ℕ → List (List ℕ × ℕ)
  | 0, _ => []
  | m + 1, p => ((List.range (ns.getD m 0)).map fun i => ((List.replicate ns.length 0).set m i, p + i)) ++
      writeEntries ns m (p + ns.getD m 0)

/-- `write_tensor` for a rank above three: `none` when it reads beyond the end of the array. -/
def Tensor.write (t : Tensor X) : Option (List (List ℕ × X)) :=
  (writeEntries t.ns t.ns.length 0).mapM fun e => (t.a[e.2]?).map fun x => (e.1, x)

end Verif.Structured
