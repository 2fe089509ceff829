import Verif.Bounds.Props
import Verif.Logical.Props
import Mathlib.Algebra.BigOperators.Fin
import Mathlib.Data.List.FinRange

/-!
# Contracting boxes under constraints, and testing feasibility

Model of source/solvers/constraint_solver.cpp.

Simplifications.

* `UpperIntervalType` and `ExactIntervalType` are both the pairs of floating-point data of
  `Verif.Bounds.Model`; a box of dimension `n` is a function on `Fin n`.
* `ValidatedScalarMultivariateFunction` is given by its interval evaluation `Fn n K`.  The real
  function it stands for appears only in the specification.
* `hull_reduce` is a parameter (`Contractor`): it is `simple_hull_reduce` of procedure.tpl.hpp, whose
  model is `Verif.Procedure.hullReduce`.
* Unbounded loops and the unbounded recursion of `feasible` are given fuel.  The result `none` stands
  for a failed assertion, an access out of range, and for an execution that has not ended.
* `NonlinearInteriorPointOptimiser` is a parameter: an arbitrary function giving the final value of
  its iteration.
* Logging is left out.
-/

namespace Verif.ConstraintSolver

open Ariadne Ariadne.Logical
open Ariadne.Ext (fin)

variable {n m : ℕ} {K : Type*} [Field K] [LinearOrder K] [IsStrictOrderedRing K]

/-- `Box<UpperIntervalType>`, `Box<ExactIntervalType>` (box.hpp 60-210). -/
abbrev Box (n : ℕ) (K : Type*) := Fin n → Bounds K

/-- Interval evaluation of a function. -/
abbrev Fn (n : ℕ) (K : Type*) := Box n K → Bounds K

/-- What `hull_reduce(domain,function,bounds)` makes of the domain. -/
abbrev Contractor (n : ℕ) (K : Type*) := Box n K → Box n K

/-- `definitely(ivl.is_empty())` (interval.inl.hpp 56): the lower bound exceeds the upper bound. -/
def isEmpty (x : Bounds K) : Bool := Ext.lt x.u x.l

/-- `definitely(bx.is_empty())` (box.tpl.hpp 36-45). -/
def boxEmpty (B : Box n K) : Bool := (List.finRange n).any fun i => isEmpty (B i)

/-- `empty_interval()` (interval.inl.hpp 52). -/
def emptyInterval : Bounds K := ⟨.pinf, .ninf⟩

/-- `apply(f,bx)` (box.cpp 54-56, and component by component 57-59). -/
def apply (F : Fn n K) (B : Box n K) : Bounds K := if boxEmpty B then emptyInterval else F B

/-- `definitely(disjoint(ivl1,ivl2))` (interval.inl.hpp 99-100). -/
def disjoint (x y : Bounds K) : Bool := Ext.lt y.u x.l || Ext.lt x.u y.l

variable (R : XRounding K)

/-- `affine(l,u,i,n)` (constraint_solver.cpp 50-52), rounding to nearest. -/
def affinePt (l u : Ext K) (i n : ℕ) : Ext K :=
  Ext.div R.near (Ext.add R.near (Ext.mul R.near l (fin ((n - i : ℕ) : K))) (Ext.mul R.near u (fin (i : K))))
    (fin (n : K))

/-- The `i`-th slice and the test whether its image misses the bounds
(constraint_solver.cpp 451-454, 469-472). -/
def sliceEmpty (F : Fn n K) (b : Bounds K) (v : Fin n) (B : Box n K) (i : ℕ) : Bool :=
  isEmpty (Bounds.refinement
    (apply F (Function.update B v ⟨affinePt R (B v).l (B v).u i 8, affinePt R (B v).l (B v).u (i + 1) 8⟩)) b)

/-- The loop from below (constraint_solver.cpp 449-459), at slice `8 - fuel`: the index of the first
slice not shown to be empty, and the lower bound reached. -/
def lowPass (F : Fn n K) (b : Bounds K) (v : Fin n) (B : Box n K) : ℕ → ℕ → Ext K → ℕ × Ext K
  | 0, i, lo => (i, lo)
  | k + 1, i, lo =>
    if sliceEmpty R F b v B i then lowPass F b v B k (i + 1) (affinePt R (B v).l (B v).u (i + 1) 8)
    else (i, lo)

/-- The loop from above (constraint_solver.cpp 468-477): `k` slices remain below index `imax + k`,
counting from `imax + 1`. -/
def highPass (F : Fn n K) (b : Bounds K) (v : Fin n) (B : Box n K) (imax : ℕ) : ℕ → Ext K → Ext K
  | 0, up => up
  | k + 1, up =>
    if sliceEmpty R F b v B (imax + (k + 1)) then
      highPass F b v B imax k (affinePt R (B v).l (B v).u (imax + (k + 1)) 8)
    else up

/-- `box_reduce(domain,function,bounds,variable)` (constraint_solver.cpp 427-487): the value returned
and the new domain; `none` if the assertion on line 482 fails. -/
def boxReduce (F : Fn n K) (b : Bounds K) (v : Fin n) (B : Box n K) : Option (Bool × Box n K) :=
  if Ext.le (B v).u (B v).l then some (false, B)
  else
    let lo := lowPass R F b v B 8 0 (B v).l
    if lo.1 = 8 then some (true, Function.update B v emptyInterval)
    else
      let up := highPass R F b v B lo.1 (7 - lo.1) (B v).u
      if isEmpty (⟨lo.2, up⟩ : Bounds K) then none
      else some (false, Function.update B v ⟨lo.2, up⟩)

/-- `width()` of an `UpperInterval` (interval.inl.hpp 50), rounded upwards. -/
def width (x : Bounds K) : Ext K := Ext.sub R.up x.u x.l

/-- `domain_magnitude` (constraint_solver.cpp 225-228, 244-247). -/
def magnitude (B : Box n K) : Ext K :=
  (List.finRange n).foldl (fun s j => Ext.add R.up s (width R (B j))) (fin 0)

/-- The loops over constraints and variables (constraint_solver.cpp 235-240): `some (true, _)` as soon
as the domain is empty. -/
def boxReduceAll : List (Fn n K × Bounds K × Fin n) → Box n K → Option (Bool × Box n K)
  | [], B => some (false, B)
  | (F, b, v) :: rest, B =>
    (boxReduce R F b v B).bind fun r =>
      if boxEmpty r.2 then some (true, r.2) else boxReduceAll rest r.2

/-- All the pairs (constraint, variable) in the order of lines 235-236. -/
def jobs (cs : List (Fn n K × Bounds K)) : List (Fn n K × Bounds K × Fin n) :=
  cs.flatMap fun c => (List.finRange n).map fun j => (c.1, c.2, j)

/-- The loop of `reduce(domain,function,codomain)` (constraint_solver.cpp 231-250). -/
def reduceLoop (H : Contractor n K) (cs : List (Fn n K × Bounds K)) :
    ℕ → Box n K → Ext K → Option (Bool × Box n K)
  | 0, _, _ => none
  | fuel + 1, B, mag =>
    let B1 := H B
    if boxEmpty B1 then some (true, B1)
    else
      (boxReduceAll R (jobs cs) B1).bind fun r =>
        if r.1 then some (true, r.2)
        else if boxEmpty r.2 then some (true, r.2)
        else
          let mag' := magnitude R r.2
          if Ext.lt mag' (Ext.mul R.near mag (fin (3 / 4))) then reduceLoop H cs fuel r.2 mag'
          else some (false, r.2)

/-- `reduce(domain,function,codomain)` (constraint_solver.cpp 217-251). -/
def reduce (H : Contractor n K) (cs : List (Fn n K × Bounds K)) (fuel : ℕ) (B : Box n K) :
    Option (Bool × Box n K) :=
  if boxEmpty B then some (true, B) else reduceLoop R H cs fuel B (magnitude R B)

/-- The loop of `reduce(domain,constraints)` (constraint_solver.cpp 274-296); `USE_BOX_REDUCE` is
false, so that lines 280-287 are never executed. -/
def reduceListLoop (Hs : List (Contractor n K)) : ℕ → Box n K → Ext K → Option (Bool × Box n K)
  | 0, _, _ => none
  | fuel + 1, B, mag =>
    let B1 := Hs.foldl (fun D H => H D) B
    if boxEmpty B1 then some (true, B1)
    else
      let mag' := magnitude R B1
      if Ext.lt mag' (Ext.mul R.near mag (fin (3 / 4))) then reduceListLoop Hs fuel B1 mag'
      else some (false, B1)

/-- `reduce(domain,constraints)` (constraint_solver.cpp 260-297). -/
def reduceList (Hs : List (Contractor n K)) (fuel : ℕ) (B : Box n K) : Option (Bool × Box n K) :=
  if boxEmpty B then some (true, B) else reduceListLoop R Hs fuel B (magnitude R B)

/-- The Newton contractor of lines 366-368 and 373-375: `slice[variable]=splitpoint` and
`splitpoint+(bounds-apply(function,slice))/apply(derivative,subdomain)`. -/
def newton (F dF : Fn n K) (b : Bounds K) (v : Fin n) (B sub : Box n K) (s : Ext K) : Bounds K :=
  Bounds.add R ⟨s, s⟩
    (Bounds.div R (Bounds.sub R b (apply F (Function.update B v ⟨s, s⟩))) (apply dF sub))

/-- The loop of `monotone_reduce` (constraint_solver.cpp 361-380); `B` is the original domain.  The
midpoint is `hlf(_l+_u)` rounded to nearest (interval.inl.hpp 48). -/
def monotoneLoop (F dF : Fn n K) (b : Bounds K) (v : Fin n) (B : Box n K) (thr : Ext K) :
    ℕ → Bounds K → Bounds K → Box n K → Option (Box n K)
  | 0, _, _, _ => none
  | fuel + 1, lower, upper, sub =>
    let lower' :=
      if Ext.lt thr (width R lower) then
        let new := newton R F dF b v B sub (Bounds.value R lower)
        if Ext.lt new.u lower.l then ⟨lower.l, lower.l⟩ else Bounds.refinement lower new
      else lower
    let upper' :=
      if Ext.lt thr (width R upper) then
        let new := newton R F dF b v B sub (Bounds.value R upper)
        if Ext.lt upper.u new.l then ⟨upper.u, upper.u⟩ else Bounds.refinement upper new
      else upper
    let sub' := Function.update sub v ⟨lower'.l, upper'.u⟩
    if Ext.lt thr (width R lower') && Ext.lt thr (width R upper') then
      monotoneLoop F dF b v B thr fuel lower' upper' sub'
    else some sub'

/-- `monotone_reduce(domain,function,bounds,variable)` (constraint_solver.cpp 344-384). -/
def monotoneReduce (F dF : Fn n K) (b : Bounds K) (v : Fin n) (fuel : ℕ) (B : Box n K) :
    Option (Bool × Box n K) :=
  (monotoneLoop R F dF b v B (Ext.div R.near (width R (B v)) (fin 8)) fuel (B v) (B v) B).map
    fun D => (boxEmpty D, D)

/-- `lyapunov_reduce` (constraint_solver.cpp 395-425), from the range `dg` of the gradient of the
combined function `g` (line 404), its value `gc` at the centre (405) and the combined bounds `C0`
(402).  Simplification: the Taylor model arithmetic by which they are computed is not modelled here. -/
def lyapunovReduce (dg : Fin n → Bounds K) (gc C0 : Bounds K) (c : Fin n → K) (B : Box n K) :
    Bool × Box n K :=
  let C := Bounds.sub R C0 gc
  let ranges : Fin n → Bounds K := fun j => Bounds.mul R (dg j) (Bounds.subBF R (B j) (fin (c j)))
  let E : Fin n → Bounds K := fun j =>
    (List.finRange n).foldl (fun E k => if j ≠ k then Bounds.sub R E (ranges k) else E) C
  let D : Box n K := fun j =>
    Bounds.refinement (B j) (Bounds.addBF R (Bounds.div R (E j) (dg j)) (fin (c j)))
  (boxEmpty D, D)

/-- The combined bounds of lines 399-402. -/
def combinedBounds (mult : Fin m → K) (b : Fin m → Bounds K) : Bounds K :=
  (List.finRange m).foldl
    (fun C i => Bounds.add R C (Bounds.mul R ⟨fin (mult i), fin (mult i)⟩ (b i))) ⟨fin 0, fin 0⟩

/-- The loop of `check_feasibility` (constraint_solver.cpp 507-512). -/
def checkLoop (fy c : Fin m → Bounds K) : List (Fin m) → LV → LV
  | [], res => res
  | j :: js, res =>
    if Ext.lt (c j).u (fy j).l || Ext.lt (fy j).u (c j).l then .false_
    else checkLoop fy c js
      (if Ext.le (c j).u (fy j).u || Ext.le (fy j).l (c j).l then .indeterminate else res)

/-- `check_feasibility(d,f,c,y)` (constraint_solver.cpp 496-513). -/
def checkFeasibility (d : Box n K) (F : Fin m → Fn n K) (c : Fin m → Bounds K) (y : Fin n → K) : LV :=
  if (List.finRange n).any fun i => Ext.lt (fin (y i)) (d i).l || Ext.lt (d i).u (fin (y i)) then .false_
  else checkLoop (fun j => F j fun i => ⟨fin (y i), fin (y i)⟩) c (List.finRange m) .true_

/-- The coordinate with the largest width (`irmax`, box.tpl.hpp 60-67); `none` for a box of dimension
zero, where `bx[0]` is read out of range. -/
def irmax (B : Box n K) : Option (Fin n) :=
  (List.finRange n).foldl (fun r i =>
    match r with
    | none => some i
    | some k => if Ext.lt (width R (B k)) (width R (B i)) then some i else some k) none

/-- `split(k)` (box.tpl.hpp 79-88). -/
def splitAt (B : Box n K) (k : Fin n) : Box n K × Box n K :=
  (Function.update B k ⟨(B k).l, Bounds.value R (B k)⟩,
   Function.update B k ⟨Bounds.value R (B k), (B k).u⟩)

/-- `split()` (box.tpl.hpp 95-98). -/
def split (B : Box n K) : Option (Box n K × Box n K) := (irmax R B).map (splitAt R B)

/-- How the iteration of the optimiser ends (constraint_solver.cpp 153-164): with `t>=TERR` at the
point `y`; with `t<TERR` and multipliers `x`; or with neither, `t` being NaN. -/
inductive OptResult (n m : ℕ) (K : Type*)
  | hit (y : Fin n → K)
  | dual (x : Fin ((m + n) * 2) → K)
  | stuck

/-- The loop over the variables of lines 193-197. -/
def boxReduceVars (F : Fn n K) (b : Bounds K) : List (Fin n) → Box n K → Option (Bool × Box n K)
  | [], B => some (false, B)
  | v :: vs, B =>
    (boxReduce R F b v B).bind fun r =>
      if boxEmpty r.2 then some (true, r.2) else boxReduceVars F b vs r.2

/-- `feasible(domain,function,codomain)` (constraint_solver.cpp 99-214).  The parameters are the
optimiser, the contractor `hull_reduce` for the combined function, and the interval evaluation `txg`
of the combined function of lines 171-181.  The point returned is `none` where the code returns an
empty point. -/
def feasible (opt : Box n K → OptResult n m K)
    (txg : Box n K → (Fin ((m + n) * 2) → K) → Fn n K)
    (H : Box n K → (Fin ((m + n) * 2) → K) → Contractor n K)
    (F : Fin m → Fn n K) (c : Fin m → Bounds K) :
    ℕ → Box n K → Option (LV × Option (Fin n → K))
  | 0, _ => none
  | fuel + 1, d =>
    if m = 0 then none
    else if (List.finRange m).any fun i =>
        disjoint (apply (F i) d) (c i) then some (.false_, none)
    else
      match opt d with
      | .hit y =>
        if checkFeasibility d F c y = .true_ then some (.true_, some y) else some (.indeterminate, some y)
      | .stuck => some (.indeterminate, none)
      | .dual x =>
        let sub := H d x d
        if boxEmpty sub then some (.false_, none)
        else
          (boxReduceVars R (txg d x) ⟨fin 0, .pinf⟩ (List.finRange n) sub).bind fun r =>
            if r.1 then some (.false_, none)
            else
              (split R d).bind fun sd =>
                (feasible opt txg H F c fuel sd.1).bind fun r1 =>
                  (feasible opt txg H F c fuel sd.2).map fun r2 => (LV.or_ r1.1 r2.1, none)

/-- `feasible(domain,constraints)` (constraint_solver.cpp 82-96). -/
def feasibleList (opt : Box n K → OptResult n m K)
    (txg : Box n K → (Fin ((m + n) * 2) → K) → Fn n K)
    (H : Box n K → (Fin ((m + n) * 2) → K) → Contractor n K)
    (F : Fin m → Fn n K) (c : Fin m → Bounds K) (fuel : ℕ) (d : Box n K) :
    Option (LV × Option (Fin n → Ext K)) :=
  if m = 0 then
    some (LV.not_ (LV.ofBool (boxEmpty d)), some fun i => Bounds.value R (d i))
  else (feasible R opt txg H F c fuel d).map fun r => (r.1, r.2.map fun y i => fin (y i))

end Verif.ConstraintSolver
