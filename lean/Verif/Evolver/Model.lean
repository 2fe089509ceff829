import Verif.Enclosure.Props
import Verif.Evolver.Workload

/-!
# Evolution of vector fields and of maps

Model of source/dynamics/vector_field_evolver.cpp and iterated_map_evolver.cpp, on the enclosures of
`Verif.Enclosure`.

Simplifications.

* Enclosures are unlabelled; logging and the progress indicator are not modelled.
* The integrator is a parameter: `flowStep B` is the flow model returned for the box `B` and the maximum step
  size.  Exceptions raised by it are not modelled.
* `maximum_time` is a real number; `reached t` is the answer of `definitely(t>=maximum_time)`.
* `radius` is the radius of a box.  The comparison `radius > maximum` has an upper bound on its left, so that both
  `possibly` and `decide` are true of it unless the bound is at most the maximum
  (float_lower_bound.hpp lines 198-200).
* `kuhn` stands for `kuhn_recondition` (see `Verif.Enclosure.Kuhn`).
-/

namespace Verif.Evolver

open Ariadne Ariadne.Logical Verif.ConstraintSolver Verif.Enclosure
open Ariadne.Ext (fin)

variable {m : ℕ} {K : Type*} [Field K] [LinearOrder K] [IsStrictOrderedRing K]

/-- Enclosures with any number of parameters. -/
abbrev ESet (m : ℕ) (K : Type*) [Field K] [LinearOrder K] [IsStrictOrderedRing K] := Σ n, Encl n m K

/-- The operations used by the evolvers, and the options. -/
structure Tools (m : ℕ) (K : Type*) [Field K] [LinearOrder K] [IsStrictOrderedRing K] where
  X : XRounding K
  C : Calc K
  up : K → K
  rad : Bounds K → K
  full : Bool
  radius : Box m K → Ext K
  kuhn : ESet m K → ESet m K
  /-- `MAXIMUM_ERROR` (enclosure.cpp line 1018) -/
  errorTolerance : K
  maximumRadius : K
  maximumError : K
  reconditioning : Bool
  subdivisions : Bool
  premature : Bool
  /-- whether the semantics is `UPPER` -/
  upper : Bool

variable (τ : Tools m K)

/-- The tests on lines 117, 147 and 154 of vector_field_evolver.cpp, and 139 and 146 of
iterated_map_evolver.cpp. -/
def Tools.tooLarge (E : ESet m K) : Bool := !Ext.le (τ.radius (E.2.boundingBox τ.C)) (fin τ.maximumRadius)

/-- `subdivide(enclosure)` (vector_field_evolver.cpp lines 61-67, iterated_map_evolver.cpp lines 50-56). -/
def Tools.subdivide (E : ESet m K) : Option (List (ESet m K)) :=
  (E.2.split τ.X τ.C τ.up τ.rad τ.full).map fun P => [⟨E.1, P.1⟩, ⟨E.1, P.2⟩]

/-- `norm(errors)` of line 184. -/
def Tools.errorNorm (E : ESet m K) : K := (List.finRange m).foldl (fun s i => max s (τ.C.error (E.2.fn i))) 0

/-- `recondition()` (enclosure.cpp lines 1007-1012). -/
def Tools.recondition (E : ESet m K) : ESet m K := τ.kuhn (E.2.uniformErrorRecondition τ.C τ.errorTolerance)

/-! ## Vector fields -/

/-- `VectorFieldEvolver::_process_timed_enclosure_step` (lines 161-225). -/
def Tools.fieldStep (flowStep : Box m K → Flow m K) (t : K) (E : ESet m K) : List (Action (ESet m K) (K × ESet m K)) :=
  if τ.reconditioning && decide (τ.maximumError < τ.errorNorm E) then [.push (t, τ.recondition E)]
  else
    let φ := flowStep (E.2.boundingBox τ.C)
    let next : ESet m K := ⟨E.1, E.2.applyFixedEvolveStep τ.C true φ.fn φ.h⟩
    [.reach ⟨E.1 + 1, E.2.applyFullReachStep τ.C φ⟩, .inter next, .push (t + φ.h, next)]

/-- `VectorFieldEvolver::_process_timed_enclosure` (lines 127-159). -/
def Tools.field (flowStep : Box m K → Flow m K) (reached : K → Bool) (x : K × ESet m K) :
    Option (List (Action (ESet m K) (K × ESet m K))) :=
  if reached x.1 then some [.final x.2]
  else if τ.upper && τ.subdivisions && τ.tooLarge x.2 then
    (τ.subdivide x.2).map fun l => l.map fun E => .push (x.1, E)
  else if !τ.upper && τ.tooLarge x.2 then some [.drop x]
  else some (τ.fieldStep flowStep x.1 x.2)

/-- `VectorFieldEvolver::_append_initial_set` (lines 114-125).  The recursion of the code has no bound; `none` also
stands for running out of fuel. -/
def Tools.appendInitial {n : ℕ} : ℕ → Encl n m K → Option (List (K × ESet m K))
  | 0, _ => none
  | fuel + 1, E =>
    if τ.tooLarge ⟨n, E⟩ then
      (E.split τ.X τ.C τ.up τ.rad τ.full).bind fun P =>
        (P.1.isEmpty τ.X τ.C).bind fun r₁ => (P.2.isEmpty τ.X τ.C).bind fun r₂ =>
          (if LV.definitely r₁.1 then some [] else Tools.appendInitial fuel r₁.2).bind fun l₁ =>
            (if LV.definitely r₂.1 then some [] else Tools.appendInitial fuel r₂.2).map fun l₂ => l₁ ++ l₂
    else some [(0, ⟨n, E⟩)]

/-- `VectorFieldEvolver::orbit` (lines 98-112): the state before `workload.process()`. -/
def Tools.fieldInit {n : ℕ} (fuel : ℕ) (E : Encl n m K) : Option (WState (ESet m K) (K × ESet m K)) :=
  (τ.appendInitial fuel E).map fun w => ⟨w, [], Orbit.none⟩

/-! ## Maps -/

/-- `IteratedMapEvolver::_evolution_step` (lines 156-193). -/
def Tools.mapStep (f : Fin m → Patch m K) (t : ℤ) (E : ESet m K) : List (Action (ESet m K) (ℤ × ESet m K)) :=
  let next : ESet m K := ⟨E.1, E.2.applyMapStep τ.C f⟩
  [.reach next, .inter next, .push (t + 1, next)]

/-- The body of the loop of `IteratedMapEvolver::_evolution` (lines 133-151). -/
def Tools.mapItem (f : Fin m → Patch m K) (T : ℤ) (x : ℤ × ESet m K) :
    Option (List (Action (ESet m K) (ℤ × ESet m K))) :=
  if T ≤ x.1 then some [.final x.2]
  else if τ.upper && τ.subdivisions && τ.tooLarge x.2 then
    (τ.subdivide x.2).map fun l => l.map fun E => .push (x.1, E)
  else if !τ.upper && τ.premature && τ.tooLarge x.2 then some [.drop x]
  else some (τ.mapStep f x.1 x.2)

/-- Carrying out the actions of one item. -/
def runActions {S I : Type*} (as : List (Action S I)) (s : List I × Orbit S I) : List I × Orbit S I :=
  as.foldl (fun s a => a.run s.1 s.2) s

/-- The loop of `IteratedMapEvolver::_evolution` (lines 130-152): the last item of the list is taken. -/
def loop {S I : Type*} (proc : I → Option (List (Action S I))) : ℕ → List I × Orbit S I → Option (Orbit S I)
  | 0, _ => none
  | fuel + 1, s =>
    match s.1.getLast? with
    | none => some s.2
    | some x => (proc x).bind fun as => loop proc fuel (runActions as (s.1.dropLast, s.2))

/-- `IteratedMapEvolver::orbit` (lines 87-104). -/
def Tools.mapOrbit (f : Fin m → Patch m K) (T : ℤ) (fuel : ℕ) (E : ESet m K) : Option (Orbit (ESet m K) (ℤ × ESet m K)) :=
  loop (τ.mapItem f T) fuel ([(0, E)], Orbit.none)

end Verif.Evolver
