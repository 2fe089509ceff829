import Mathlib.Data.Nat.Notation
import Mathlib.Algebra.Field.Defs

/-!
# Tensors, and the equation of a string

Model of the class `Tensor` (/repo/source/algebra/tensor.hpp 50-103), which stores its elements in one array; and of
`linspace1d` and `pde_1d_solver` (/repo/source/dynamics/1D_pde.hpp), which solve the equation of a string with it.

Simplifications: arithmetic is exact. Access past the end of the array, which is not checked, is `none`.
-/

namespace Verif.Tensor

variable {X Y : Type}

/-- The loop of `_index` (tensor.hpp 82). -/
def indexLoop : ℕ → List ℕ → List ℕ → ℕ
  | r, n :: ns, i :: is => indexLoop (r * n + i) ns is
  | r, _, _ => r

/-- `_index` (82); only for as many indices as sizes. -/
def index : List ℕ → List ℕ → ℕ
  | _ :: ns, i :: is => indexLoop i ns is
  | _, _ => 0

/-- `_total_size` (83). -/
def totalSize (ns : List ℕ) : ℕ := ns.foldl (· * ·) 1

/-- The members `_ns` and `_a` (56-57). -/
structure Tensor (X : Type) where
  ns : List ℕ
  a : List X

/-- The constructor with one value (61). -/
def constant (ns : List ℕ) (z : X) : Tensor X := ⟨ns, List.replicate (totalSize ns) z⟩

/-- `operator[]` for reading (66). -/
def get (t : Tensor X) (is : List ℕ) : Option X := t.a[index t.ns is]?

/-- `operator[]` for writing (67). -/
def set (t : Tensor X) (is : List ℕ) (x : X) : Option (Tensor X) :=
  if index t.ns is < t.a.length then some { t with a := t.a.set (index t.ns is) x } else none

/-- The loops of the constructor from a function (98-102) on the array. -/
def generateLoop (n0 n1 : ℕ) (g : ℕ → ℕ → X) (a : List X) : List X :=
  (List.range n0).foldl (fun a i0 => (List.range n1).foldl (fun a i1 => a.set (i0 * n1 + i1) (g i0 i1)) a) a

/-- The constructor from a function, for rank 2 (93-103). -/
def generate (n0 n1 : ℕ) (g : ℕ → ℕ → X) : Tensor X :=
  ⟨[n0, n1], generateLoop n0 n1 g (List.replicate (totalSize [n0, n1]) (g 0 0))⟩

/-- `transform` (87-91), for rank 2. -/
def transform (t : Tensor X) (n0 n1 : ℕ) (f : X → Y) : Option (Tensor Y) :=
  (get t [0, 0]).bind fun x =>
    (List.range n0).foldlM (fun r i0 => (List.range n1).foldlM (fun r i1 =>
      (get t [i0, i1]).bind fun x => set r [i0, i1] (f x)) r) (constant [n0, n1] (f x))

variable {K : Type} [Field K]

/-- `linspace1d` (1D_pde.hpp 36-54). -/
def linspace (L : K) (n : ℕ) : List K :=
  if n = 0 then [] else if n = 1 then [L] else ((List.range (n - 1)).map fun i : ℕ => L / n * (i : K)) ++ [L]

/-- The inner points of one step of the main loop of `pde_1d_solver` (1D_pde.hpp 117-124): `a` is `1/(damping*dt/2+1)`, `b` is
`damping*dt/2`, `s` the source. -/
def stringStep (Nx : ℕ) (a b C2 : K) (s : ℕ → ℕ → K) (u : Tensor K) (n : ℕ) : Option (Tensor K) :=
  (set u [0, n] 0).bind fun u => (set u [Nx - 1, n] 0).bind fun u =>
    ((List.range (Nx - 2)).map (· + 1)).foldlM (fun u i =>
      (get u [i, n]).bind fun c => (get u [i, n - 1]).bind fun p => (get u [i - 1, n]).bind fun l => (get u [i + 1, n]).bind fun r =>
        set u [i, n + 1] (a * (2 * c - p + b * p + C2 * (l - 2 * c + r)) + s i n)) u

/-- The first step (1D_pde.hpp 104-112). -/
def stringFirst (Nx : ℕ) (C2 : K) (s : ℕ → ℕ → K) (u : Tensor K) : Option (Tensor K) :=
  (set u [0, 0] 0).bind fun u => (set u [Nx - 1, 0] 0).bind fun u =>
    ((List.range (Nx - 2)).map (· + 1)).foldlM (fun u i =>
      (get u [i, 0]).bind fun c => (get u [i - 1, 0]).bind fun l => (get u [i + 1, 0]).bind fun r =>
        set u [i, 1] (c - C2 * (l - 2 * c + r) / 2 + s i 0)) u

/-- `pde_1d_solver` (1D_pde.hpp 100-126) after the computation of the numbers of points and steps, with the initial data (58-77). -/
def stringSolve (Nx Nt : ℕ) (a b C2 : K) (s : ℕ → ℕ → K) (ic : ℕ → K) : Option (Tensor K) :=
  ((List.range Nx).foldlM (fun u i => set u [i, 0] (ic i)) (constant [Nx, Nt] 0)).bind fun u =>
    (stringFirst Nx C2 s u).bind fun u =>
      ((List.range (Nt - 1)).map (· + 1)).foldlM (fun u n => stringStep Nx a b C2 s u n) u

end Verif.Tensor
