import Mathlib.Algebra.BigOperators.Group.Finset.Basic
import Mathlib.Algebra.Order.Field.Basic
import Mathlib.Algebra.Order.Group.Abs
import Mathlib.Order.Interval.Finset.Nat

/-!
# Orthogonal decompositions

Model of `orthogonal_decomposition(A)` (/repo/source/algebra/matrix.tpl.hpp 968-1047), which gives matrices `O`, with orthogonal
columns, and `R`.

Simplifications: arithmetic is exact, in an ordered field; a division by zero is `none` (in the code the result is not a number).
Matrices are functions of row and column, of which only those within the sizes matter. The search for a pivot (983-996) is
omitted, since its result is overwritten (997); the square of the norm (1008-1012) is not used, so that the swaps (1001-1006) do nothing.
-/

namespace Verif.Orthogonal

variable {K : Type} [Field K] [LinearOrder K]

/-- The matrices `O` and `R` (976-977). -/
structure State (K : Type) where
  O : ℕ → ℕ → K
  R : ℕ → ℕ → K

/-- The inner product of columns (1016-1019). -/
def inner (m : ℕ) (O : ℕ → ℕ → K) (c k : ℕ) : K := ∑ i ∈ Finset.range m, O i c * O i k

/-- `inner_product_sum` (1014-1022). -/
def innerSum (m n : ℕ) (O : ℕ → ℕ → K) (c : ℕ) : K := ∑ k ∈ Finset.Ico c n, |inner m O c k|

/-- The loop body for column `c` (1008-1035): the row of `R` (1024-1026), the later columns of `O` (1028-1032) and the column
itself (1033-1035). -/
def step (m n : ℕ) (s : State K) (c : ℕ) : Option (State K) :=
  if innerSum m n s.O c = 0 then none
  else
    let r := fun k => inner m s.O c k / innerSum m n s.O c
    some ⟨fun i k => if k = c then s.O i c / r c else if c < k ∧ k < n then s.O i k - s.O i c * (r k / r c) else s.O i k,
      fun j k => if j = c ∧ c ≤ k ∧ k < n then r k else s.R j k⟩

/-- The loop over the columns (976-981), up to `min(m,n)`; the restriction of the result for `m<n` (1039-1044) is left to
the reader of the matrices. -/
def decompose (m n : ℕ) (A : ℕ → ℕ → K) : Option (State K) :=
  (List.range (min m n)).foldlM (step m n) ⟨A, fun j k => if j = k then 1 else 0⟩

end Verif.Orthogonal
