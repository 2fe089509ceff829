import Verif.TaylorModel.Compose
import Mathlib.Data.Fin.VecNotation

/-!
# Error bounds of the approximations of differential inclusions

Model of the error bounds of `InclusionIntegrator` (source/solvers/inclusion_integrator.cpp and .hpp) for
`ZeroApproximation` and `ConstantApproximation`.  The system is `x' = f(x) + Σᵢ gᵢ(x) vᵢ` with inputs
`|vᵢ| ≤ Vᵢ`.  The integrator replaces the inputs by zero, or by constants, computes the flow of the
resulting differential equation, and adds a uniform error that is to account for the replacement.

The constants are computed from the differentials of `f` and of the `gᵢ` over the box that bounds the
flow (inclusion_integrator.cpp 110, 137): for each component a list of indices with coefficients that are
intervals.  Errors are rounded upwards; overflow is not modelled.  The second derivatives only serve the
approximations with two parameters, which are not modelled, and neither are the constants `H`, `pH`, `pL`.
-/

namespace Verif.Inclusion

open Ariadne

variable {K : Type*} [Field K] [LinearOrder K] [IsStrictOrderedRing K]

/-- The end points of a `FloatDPBounds`. -/
structure Coef (K : Type*) where
  l : K
  u : K
deriving DecidableEq

/-- `mag(Bounds)` (source/numeric/float_bounds.hpp 273-274). -/
def Coef.mag (c : Coef K) : K := max (-c.l) c.u

/-- The expansion of one component of a differential: indices and coefficients. -/
abbrev Terms (n : ℕ) (K : Type*) := List ((Fin n → ℕ) × Coef K)

/-- `MultiIndex::degree()`. -/
def degree {n : ℕ} (a : Fin n → ℕ) : ℕ := ∑ i, a i

variable (R : Rounding K)

/-- `K_j`, `L_j` and `Lambda_j` for one component (inclusion_integrator.cpp 113). -/
structure Row (K : Type*) where
  k : K
  l : K
  lam : K

/-- One term in the loop over the terms of a component of `f` (inclusion_integrator.cpp 114-127). -/
def rowStep {n : ℕ} (j : Fin n) (r : Row K) (t : (Fin n → ℕ) × Coef K) : Row K :=
  if degree t.1 = 0 then { r with k := t.2.mag }
  else if degree t.1 = 1 then
    { r with
      l := R.up (r.l + t.2.mag)
      lam := if t.1 j = 1 then R.up (r.lam + t.2.u) else R.up (r.lam + t.2.mag) }
  else r

/-- The loop over the terms of component `j` of `f` (inclusion_integrator.cpp 112-127). -/
def row {n : ℕ} (j : Fin n) (ts : Terms n K) : Row K := ts.foldl (rowStep R j) ⟨0, 0, 0⟩

/-- `g_ij` and `pL_ij` for one component of the derivative by one input (inclusion_integrator.cpp
134, 141, 148). -/
structure Entry (K : Type*) where
  g : K
  l : K

/-- One term in the loop over the terms of a component of `gᵢ` (inclusion_integrator.cpp 142-157). -/
def entryStep {n : ℕ} (e : Entry K) (t : (Fin n → ℕ) × Coef K) : Entry K :=
  if degree t.1 = 0 then { e with g := t.2.mag }
  else if degree t.1 = 1 then { e with l := max e.l t.2.mag }
  else e

/-- The loop over the terms of component `j` of `gᵢ` (inclusion_integrator.cpp 140-157). -/
def entry {n : ℕ} (ts : Terms n K) : Entry K := ts.foldl entryStep ⟨0, 0⟩

/-- `max` over the components, starting from zero (inclusion_integrator.cpp 106, 128, 158, 170-171). -/
def maxOf {n : ℕ} (f : Fin n → K) : K := (List.finRange n).foldl (fun a j => max a (f j)) 0

/-- `max` with a number that may be minus infinity (inclusion_integrator.cpp 128). -/
def maxWith (x : K) : Option K → K
  | none => x
  | some b => max b x

/-- `max` over the components, starting from minus infinity (inclusion_integrator.cpp 108, 128). -/
def maxOf? {n : ℕ} (f : Fin n → K) : Option K :=
  (List.finRange n).foldl (fun a j => some (maxWith (f j) a)) none

/-- Sums that are rounded upwards (inclusion_integrator.cpp 160, 167-168). -/
def sumUp {n : ℕ} (f : Fin n → K) : K := (List.finRange n).foldl (fun a j => R.up (a + f j)) 0

/-- The system with its differentials over the box of the flow bounds. -/
structure System (n m : ℕ) (K : Type*) where
  /-- the differential of `noise_independent_component(f)` -/
  f : Fin n → Terms n K
  /-- the differentials of `input_derivatives(f)` -/
  g : Fin m → Fin n → Terms n K
  /-- `abs(inputs[i]).upper_bound()` -/
  V : Fin m → K
  /-- `is_additive_in(f,input_idx)` -/
  additive : Bool

/-- The constants that the error bounds are computed from (`ErrorConstants`, inclusion_integrator.hpp). -/
structure Constants (n : ℕ) (K : Type*) where
  Km : K
  Kj : Fin n → K
  pK : K
  pKv : K
  pKw : K
  pKjv : Fin n → K
  L : K
  Lj : Fin n → K
  pLv : K
  pLw : K
  pLjv : Fin n → K
  pLjw : Fin n → K
  Lam : Option K
  expLam : K
  expL : K

/-- `dexp(UpperBound)` for non-negative arguments (inclusion_integrator.hpp 79-80); `exp` is the
exponential function rounded upwards. -/
def dexp (exp : K → K) (x : K) : K := R.up (R.up (exp x - 1) / x)

/-- `expLambda` (inclusion_integrator.cpp 174). -/
def expLamOf (exp : K → K) (h : K) : Option K → K
  | none => 1
  | some l => if 0 < l then dexp R exp (R.up (l * h)) else 1

/-- `compute_constants` (inclusion_integrator.cpp 100-181) and the correction of `pK` for additive inputs
(inclusion_integrator.cpp 256-257); `w` is `wstar_multiplier<A>()`. -/
def constants (exp : K → K) (w : K) {n m : ℕ} (S : System n m K) (h : K) : Constants n K :=
  let r : Fin n → Row K := fun j => row R j (S.f j)
  let e : Fin m → Fin n → Entry K := fun i j => entry (S.g i j)
  let pKjv : Fin n → K := fun j => sumUp R fun i => R.up (S.V i * (e i j).g)
  let pLjv : Fin n → K := fun j => sumUp R fun i => R.up (S.V i * (e i j).l)
  let pKjw : Fin n → K := fun j => sumUp R fun i => R.up (R.up (S.V i * w) * (e i j).g)
  let pLjw : Fin n → K := fun j => sumUp R fun i => R.up (R.up (S.V i * w) * (e i j).l)
  let lam : Option K := maxOf? fun j => (r j).lam
  let L : K := maxOf fun j => (r j).l
  { Km := maxOf fun j => (r j).k
    Kj := fun j => (r j).k
    pK := if S.additive then maxOf S.V else sumUp R fun i => maxOf fun j => (e i j).g
    pKv := maxOf pKjv
    pKw := maxOf pKjw
    pKjv := pKjv
    L := L
    Lj := fun j => (r j).l
    pLv := maxOf pLjv
    pLw := maxOf pLjw
    pLjv := pLjv
    pLjw := pLjw
    Lam := lam
    expLam := expLamOf R exp h lam
    expL := exp (R.up (L * h)) }

/-- `zeroparam_worstcase_error` (inclusion_integrator.cpp 183-184). -/
def zeroWorst {n : ℕ} (c : Constants n K) (h : K) : K :=
  min (R.up (R.up (c.pK * c.expLam) * h)) (R.up (R.up (R.up (c.Km * 2) + c.pK) * h))

/-- `zeroparam_component_error` (inclusion_integrator.cpp 185-187). -/
def zeroComponent {n : ℕ} (c : Constants n K) (h : K) (j : Fin n) : K :=
  min (R.up (R.up (c.pKv * c.expL) * h))
    (min (R.up (R.up (R.up (c.Kj j * 2) + c.pKjv j) * h)) (R.up (R.up (c.pKv * c.expLam) * h)))

/-- `ApproximationErrorProcessor<ZeroApproximation,R>::process` (inclusion_integrator.cpp 233-259):
the error that is added to component `j` of the flow without inputs. -/
def zeroError (exp : K → K) {n m : ℕ} (S : System n m K) (h : K) (j : Fin n) : K :=
  let c := constants R exp 0 S h
  min (zeroWorst R c h) (zeroComponent R c h j)

/-- `oneparam_worstcase_error` (inclusion_integrator.cpp 189-190). -/
def constantWorst {n : ℕ} (c : Constants n K) (h : K) : K :=
  R.up (R.up (R.up (h * h) * R.up (R.up (R.up (c.Km + c.pKv) * c.pLv) +
    R.up (R.up (c.pKv * R.up (c.L + c.pLw)) * c.expLam))) * 2)

/-- `oneparam_component_error` (inclusion_integrator.cpp 191-192); `none` if the division is by zero.
The `cast_positive` and `cast_exact` do nothing to the numbers. -/
def constantComponent {n : ℕ} (c : Constants n K) (h : K) (j : Fin n) : Option K :=
  match c.Lam with
  | none => none
  | some l =>
    if R.down (l * h) = 0 then none
    else some (R.up (R.up (h * h) * R.up (R.up (R.up (c.pLjv j * R.up (c.Km + c.pKv)) / 2) +
      R.up (R.up (R.up (R.up (c.Lj j + c.pLjw j) * R.up (c.pKv + c.pKw)) * R.up (c.expLam - 1)) /
        R.down (l * h)))))

/-- `ApproximationErrorProcessor<ConstantApproximation,R>::process` (inclusion_integrator.cpp 233-259):
the error that is added to component `j` of the flow with constant inputs. -/
def constantError (exp : K → K) {n m : ℕ} (S : System n m K) (h : K) (j : Fin n) : Option K :=
  let c := constants R exp 1 S h
  (constantComponent R c h j).map (min (constantWorst R c h))

/-- `add_errors` (inclusion_integrator.cpp 385-391, source/function/scaled_function_patch.hpp 1217): the
error is added to the error of the flow. -/
def addError (err e : K) : K := R.up (err + e)

end Verif.Inclusion
