import Mathlib.Data.Matrix.Mul
import Mathlib.Analysis.SpecialFunctions.Log.Base

/-!
# First-order partial differential equations

Model of the finite-difference scheme of `first_order_pde` (/repo/source/dynamics/first_order_pde.cpp 98-243) for
`A u_t + B_0 u_x + B_1 u_y = f` on a periodic grid of `M×M` cells with `M = 2^N`.

Simplifications: the arithmetic is exact (the code computes with `Bounds`, which enclose exact results: C01-C12); the inverses
of `A` and of the matrices of eigenvectors are given; grids are functions of two indices, of which only those below `M`
matter. The choice of `N` and the error bound (131-142, 153) are not modelled.
-/

namespace Verif.PDE

variable {K : Type} [Field K] {n : ℕ}

/-- The data of the scheme: the inverse of `A`, the matrices `B_j` and `T_j` with the inverse of `T_j`, for each eigenvalue
whether it is decided to be nonnegative (first_order_pde.cpp 206, 216), and the right-hand side (105). -/
structure Pde (K : Type) (n : ℕ) where
  invA : Matrix (Fin n) (Fin n) K
  B0 : Matrix (Fin n) (Fin n) K
  B1 : Matrix (Fin n) (Fin n) K
  T0 : Matrix (Fin n) (Fin n) K
  T1 : Matrix (Fin n) (Fin n) K
  invT0 : Matrix (Fin n) (Fin n) K
  invT1 : Matrix (Fin n) (Fin n) K
  lower0 : Fin n → Bool
  lower1 : Fin n → Bool
  f : (Fin n → K) → Fin n → K

/-- Values in the cells. -/
abbrev Cells (K : Type) (n : ℕ) := ℕ → ℕ → Fin n → K

/-- `next_i0`, `next_i1` (208, 218): the cell from which the value on the face before cell `i` is taken. -/
def next (M : ℕ) (useLower : Bool) (i : ℕ) : ℕ :=
  if useLower then (if i = 0 then M - 1 else i - 1) else (if i = M then 0 else i)

/-- `UF0s` (200, 205-213, 225). -/
def face0 (M : ℕ) (p : Pde K n) (u : Cells K n) (i j : ℕ) : Fin n → K :=
  p.T0.mulVec fun k => p.invT0.mulVec (u (next M (p.lower0 k) i) j) k

/-- `UF1s` (201, 215-223, 226). -/
def face1 (M : ℕ) (p : Pde K n) (u : Cells K n) (i j : ℕ) : Fin n → K :=
  p.T1.mulVec fun k => p.invT1.mulVec (u i (next M (p.lower1 k) j)) k

/-- `new_u` (228), with `r = tau/h`. -/
def step (M : ℕ) (r : K) (p : Pde K n) (u : Cells K n) : Cells K n := fun i j =>
  u i j - r • p.invA.mulVec (p.B0.mulVec (face0 M p u (i + 1) j - face0 M p u i j) +
    p.B1.mulVec (face1 M p u i (j + 1) - face1 M p u i j))

/-- `uts` (183-188, 198-238): the values after each number of steps. -/
def uts (M : ℕ) (r : K) (p : Pde K n) (u : Cells K n) : ℕ → Cells K n
  | 0 => u
  | k + 1 => step M r p (uts M r p u k)

/-- `courant_nrm` (147) from the norms of `A⁻¹B_0` and `A⁻¹B_1`. -/
noncomputable def courant (c0 c1 : ℝ) : ℝ := 1 / (1 / c0 + 1 / c1)

/-- `L` (148), so that `tau/h` is `2^-L` (145, 149). The conversion of a number below zero, undefined from -1 downwards,
is 0 here. -/
noncomputable def level (c : ℝ) : ℕ := ⌊Real.logb 2 c + 1⌋₊

/-- The index and the weight of `multiaffine_interpolate` in one direction (91-94): `m` is the number of cells, `two_pow_N`. -/
noncomputable def cellOf (m : ℕ) (x : ℝ) : ℕ × ℝ :=
  let i := if ⌊x * m⌋₊ = m then ⌊x * m⌋₊ - 1 else ⌊x * m⌋₊
  (i, x * m - i)

/-- `multiaffine_interpolate` (86-95), for one component of values at the `(m+1)×(m+1)` corners of cells. Simplification: the
code takes the floor of negative coordinates as a large index; the coordinates here are at least 0. -/
noncomputable def interpolate (m : ℕ) (us : ℕ → ℕ → ℝ) (x0 x1 : ℝ) : ℝ :=
  let (i0, a0) := cellOf m x0
  let (i1, a1) := cellOf m x1
  us i0 i1 + a0 * (us (i0 + 1) i1 - us i0 i1) + a1 * (us i0 (i1 + 1) - us i0 i1) +
    a0 * (us (i0 + 1) (i1 + 1) - us (i0 + 1) i1 - us i0 (i1 + 1) + us i0 i1)

end Verif.PDE
