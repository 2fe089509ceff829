import Mathlib.Algebra.Module.Defs
import Mathlib.Algebra.Field.Defs
import Mathlib.Order.Defs.LinearOrder
import Mathlib.Data.List.Basic
import Mathlib.Data.Nat.Notation

/-!
# The Runge-Kutta integrator, simulated curves and the vector field simulator

Model of `source/solvers/runge_kutta_integrator.cpp`, of `InterpolatedCurve`
(`source/geometry/curve.hpp` lines 121-177, `curve.cpp` lines 111-145), of the orbits of lists of points
(`source/dynamics/orbit.cpp` lines 68-78) and of `source/dynamics/vector_field_simulator.cpp`.

Simplifications: a step is computed in the exact arithmetic of a vector space instead of with
`FloatDPApproximation`; the theorem on convergence allows an error in every step.  Progress messages are
left out.  Points of a curve have the dimension of the space, so the assertion on dimensions is not
modelled.
-/

namespace Verif.Simulator

section Step

variable {K V : Type*} [Field K] [AddCommGroup V] [Module K V]

/-- `RungeKutta4Integrator::step`, `runge_kutta_integrator.cpp` lines 49-58. -/
def step (f : V → V) (h : K) (x : V) : V :=
  let k1 := f x
  let k2 := f (x + (h / 2) • k1)
  let k3 := f (x + (h / 2) • k2)
  let k4 := f (x + h • k3)
  x + (h / 6) • (k1 + (2 : K) • k3 + (2 : K) • k4 + k2)

end Step

section Loop

variable {T V P : Type*}

/-- The loop of `RungeKutta4Integrator::evolve`, `runge_kutta_integrator.cpp` lines 70-74, and of
`VectorFieldSimulator::_simulate_from_point`, `vector_field_simulator.cpp` lines 225-231: the times and
points which are recorded.  `add` is the (rounded) addition of times and `lt` the comparison.  The number
bounds the iterations; `none` if the loop has not ended. -/
def march (add : T → T → T) (lt : T → T → Bool) (st : V → V) (h tmax : T) : ℕ → T → V → Option (List (T × V))
  | 0, _, _ => none
  | n + 1, t, x =>
    if lt t tmax then (march add lt st h tmax n (add t h) (st x)).map ((add t h, st x) :: ·) else some []

/-- `RungeKutta4Integrator::evolve`, lines 60-76, for an integrator of step size `size`.  `static` is the
variable `h` declared `static` in line 63: it is initialised by the first call in the program.  The second
component is its value afterwards. -/
def evolve (zero : T) (add : T → T → T) (lt : T → T → Bool) (st : T → V → V) (static : Option T) (size tmax : T)
    (fuel : ℕ) (x0 : V) : Option (List (T × V)) × Option T :=
  let h := static.getD size
  ((march add lt (st h) h tmax fuel zero x0).map ((zero, x0) :: ·), some h)

variable [LinearOrder T]

/-- `InterpolatedCurve::insert`, `curve.cpp` lines 117-121: `std::map::insert` keeps an existing entry. -/
def insert (t : T) (p : P) : List (T × P) → List (T × P)
  | [] => [(t, p)]
  | (s, q) :: c => if t < s then (t, p) :: (s, q) :: c else if s < t then (s, q) :: insert t p c else (s, q) :: c

/-- `Orbit<List<LabelledPoint>>::insert`, `orbit.cpp` lines 76-78: `at` throws if there is no such curve. -/
def insertAt (i : ℕ) (t : T) (p : P) (o : List (List (T × P))) : Option (List (List (T × P))) :=
  if i < o.length then some (o.modify i (insert t p)) else none

/-- A sequence of insertions in an orbit; each one is atomic by the lock of `SynchronisedOrbit::insert`,
`vector_field_simulator.hpp` lines 85-86. -/
def insertAll : List (ℕ × T × P) → List (List (T × P)) → Option (List (List (T × P)))
  | [], o => some o
  | (i, t, p) :: w, o => (insertAt i t p o).bind (insertAll w)

/-- The orders in which the insertions of concurrent tasks can happen: those of one task in its order. -/
inductive Shuffle {A : Type*} : List (List A) → List (ℕ × A) → Prop
  | done {ts : List (List A)} : (∀ l ∈ ts, l = []) → Shuffle ts []
  | next {ts : List (List A)} {w : List (ℕ × A)} (i : ℕ) (a : A) (l : List A) :
      ts[i]? = some (a :: l) → Shuffle (ts.set i l) w → Shuffle ts ((i, a) :: w)

end Loop

section Labels

variable {X : Type*}

/-- `make_state_auxiliary_point`, `vector_field_simulator.cpp` lines 52-61: the variables of the joint
space are looked up by their names; `none` where a variable is not found. -/
def statePoint (sspc aspc saspc : List String) (spt apt : List X) : Option (List X) :=
  saspc.mapM fun v => if v ∈ sspc then spt[sspc.idxOf v]? else apt[aspc.idxOf v]?

end Labels

section Box

variable {K : Type*} [LinearOrder K]

/-- `hull(bx,pt)` in each coordinate, as used by `InterpolatedCurve::bounding_box`. -/
def hullPoint (b : List (K × K)) (p : List K) : List (K × K) :=
  List.zipWith (fun i x => (min i.1 x, max i.2 x)) b p

/-- `InterpolatedCurve::bounding_box`, `curve.cpp` lines 135-145: the first point is read without testing
whether there is one; `none` is undefined behaviour. -/
def boundingBox {T : Type*} (c : List (T × List K)) : Option (List (K × K)) :=
  match c with
  | [] => none
  | (t, p) :: c => some (((t, p) :: c).foldl (fun b q => hullPoint b q.2) (p.map fun x => (x, x)))

end Box

/-- The number of zero widths, `VectorFieldSimulator::orbit(UpperBoxType&,..)`,
`vector_field_simulator.cpp` lines 158-163. -/
def nullWidths {K : Type*} [LinearOrder K] [Zero K] (w : List K) : ℕ := (w.filter fun x => ¬ 0 < x).length

end Verif.Simulator
