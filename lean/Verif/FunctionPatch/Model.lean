import Verif.TaylorModel.Canonical

/-!
# Function patches

Model of `source/function/scaled_function_patch.hpp` (abbreviated `sfp` below),
`source/function/scaled_function_patch.tpl.hpp` (`tpl`), `source/function/scaling.hpp` and the
scaling and unscaling of `source/function/taylor_model.tpl.hpp` (`tm`).  A patch is a box and a Taylor
model on the unit box, to which the box is scaled.

Simplifications: as for Taylor models, the rounded arithmetic is an arbitrary `Rounding K`; the
endpoints of a domain are numbers which the working precision represents exactly (`convert_interval`
is the identity); the sweeper is passed explicitly.  `none` is a failed assertion or an exception.
-/

namespace Verif.FunctionPatch

open Ariadne (Rounding XRounding Bounds Ext)
open Verif.Expansion
open Verif.TaylorModel

variable {K : Type*} [Field K] [LinearOrder K] [IsStrictOrderedRing K]

/-- `BoxDomainType`: the lower and upper bounds of the intervals. -/
abbrev Dom (K : Type*) := List (K × K)

/-- `med(IntervalDomainType)`, `scaling.hpp` lines 58-60; exact, being computed with `Dyadic`s. -/
def med (i : K × K) : K := (i.1 + i.2) / 2

/-- `rad(IntervalDomainType)`, `scaling.hpp` lines 62-64; exact. -/
def rad (i : K × K) : K := (i.2 - i.1) / 2

/-- `ScaledFunctionPatch<M>`, sfp lines 184-185: `_domain` and `_model`. -/
structure SPatch (K : Type*) where
  dom : Dom K
  model : TM K

/-- `VectorScaledFunctionPatch<M>`, sfp lines 745-746. -/
structure VPatch (K : Type*) where
  dom : Dom K
  models : List (TM K)

/-! ## Intervals -/

/-- `Interval::centre`, `source/geometry/interval.inl.hpp` line 47: a `Bounds`. -/
def centre (R : Rounding K) (i : K × K) : Num K := ⟨R.down (i.1 + i.2) / 2, R.up (i.1 + i.2) / 2⟩

/-- `Interval::midpoint`, `interval.inl.hpp` line 48: the value of the centre. -/
def midpoint (R : Rounding K) (i : K × K) : K := (centre R i).value R

/-- `Interval::radius`, `interval.inl.hpp` line 49: a `Bounds` for the largest distance from the
midpoint. -/
def radius (R : Rounding K) (i : K × K) : Num K :=
  ⟨max (R.down (i.2 - midpoint R i)) (R.down (midpoint R i - i.1)),
    max (R.up (i.2 - midpoint R i)) (R.up (midpoint R i - i.1))⟩

/-- `subset` of intervals and boxes, `interval.inl.hpp` lines 93-94,
`source/geometry/box.hpp` lines 393-397. -/
def subset (d e : Dom K) : Bool :=
  (List.zipWith (fun i j : K × K => decide (j.1 ≤ i.1 ∧ i.2 ≤ j.2)) d e).all id

/-- `intersection` of boxes, `interval.inl.hpp` lines 119-122, `box.hpp` lines 344-348. -/
def intersection (d e : Dom K) : Dom K := List.zipWith (fun i j => (max i.1 j.1, min i.2 j.2)) d e

/-- `is_empty(Box)`: some interval is empty, `interval.inl.hpp` line 77. -/
def isEmpty (d : Dom K) : Bool := d.any (fun i => decide (i.2 < i.1))

/-! ## Scaling -/

/-- `TaylorModel::scaling`, tm lines 472-479: `r.set_gradient(j,1); r*=ivl.radius();
r+=ivl.midpoint()`. -/
def scaling (R : Rounding K) (n j : Nat) (i : K × K) : TM K :=
  acc R n (scal R (coordinate n j) (radius R i)) (Num.exact (midpoint R i))

/-- `TaylorModel::scalings`, tm lines 2089-2096. -/
def scalings (R : Rounding K) (d : Dom K) : List (TM K) :=
  d.mapIdx (fun j i => scaling R d.length j i)

/-- `rec(Bounds)` of a positive number, `source/numeric/float_bounds.hpp` lines 218-221; for other
bounds the result is infinite there, and `none` here. -/
def recNum (R : Rounding K) (c : Num K) : Option (Num K) :=
  if 0 < c.l then some ⟨R.down (1 / c.u), R.up (1 / c.l)⟩ else none

/-- `TaylorModel::unscale`, tm lines 1751-1777: subtract the centre, multiply by the reciprocal of
the radius; a singleton is mapped to zero.  The assertion on line 1765 fails for an empty interval. -/
def unscale (R : Rounding K) (n : Nat) (i : K × K) (t : TM K) : Option (TM K) :=
  if i.2 < i.1 then none
  else if i.1 = i.2 then some (assign R n (Num.exact 0))
  else
    let c := centre R i
    (recNum R (radius R i)).map (fun q => scal R (acc R n t ⟨-c.u, -c.l⟩) q)

/-- `unscale(Vector<TaylorModel>,BoxDomainType)`, `scaling.hpp` lines 95-98. -/
def unscales (R : Rounding K) (n : Nat) : Dom K → List (TM K) → Option (List (TM K))
  | i :: d, t :: ts =>
    match unscale R n i t, unscales R n d ts with
    | some r, some rs => some (r :: rs)
    | _, _ => none
  | [], [] => some []
  | _, _ => none

/-- `unscale(x,d)` for `Bounds`, `scaling.hpp` lines 71-79: the exact centre and radius are rounded
outwards to the working precision. -/
def unscaleB (R : Rounding K) (i : K × K) (x : Bounds K) : Bounds K :=
  let X := XRounding.ofRounding R
  if i.1 = i.2 then Bounds.mul X x ⟨.fin 0, .fin 0⟩
  else Bounds.div X (Bounds.sub X x ⟨.fin (R.down (med i)), .fin (R.up (med i))⟩)
    ⟨.fin (R.down (rad i)), .fin (R.up (rad i))⟩

/-! ## Evaluation -/

/-- `definitely(contains(domain,x))`, `interval.inl.hpp` lines 87-88 and `box.hpp` lines 358-362. -/
def definitelyContains (d : Dom K) (x : List (Bounds K)) : Bool :=
  (List.zipWith (fun (i : K × K) (b : Bounds K) => Ext.le (.fin i.1) b.l && Ext.le b.u (.fin i.2)) d
    x).all id

/-- `evaluate(f,x)` and `operator()`, sfp lines 414-427 and tpl lines 406-414: a `DomainException` if
`x` is not definitely in the domain. -/
def SPatch.evaluate (R : Rounding K) (f : SPatch K) (x : List (Bounds K)) : Option (Bounds K) :=
  if x.length = f.dom.length ∧ definitelyContains f.dom x then
    TaylorModel.evaluate R f.dom.length f.model (List.zipWith (unscaleB R) f.dom x)
  else none

/-- `evaluate` for vectors, sfp lines 918-929. -/
def VPatch.evaluate (R : Rounding K) (f : VPatch K) (x : List (Bounds K)) :
    Option (List (Bounds K)) :=
  if x.length = f.dom.length ∧ definitelyContains f.dom x then
    f.models.mapM (fun t => TaylorModel.evaluate R f.dom.length t (List.zipWith (unscaleB R) f.dom x))
  else none

/-- `range`, sfp line 307. -/
def SPatch.range (R : Rounding K) (f : SPatch K) : Bounds K := TaylorModel.range R f.dom.length f.model

/-- `norm`, sfp lines 431-432. -/
def SPatch.norm (R : Rounding K) (f : SPatch K) : K := TaylorModel.norm R f.model

/-- `norm` of a vector, sfp lines 991-997. -/
def VPatch.norm (R : Rounding K) (f : VPatch K) : K :=
  f.models.foldl (fun r t => max r (TaylorModel.norm R t)) (TaylorModel.norm R ⟨[], 0⟩)

/-! ## Constructors -/

/-- `ScaledFunctionPatch::constant`, tpl lines 249-252. -/
def SPatch.constant (R : Rounding K) (d : Dom K) (c : Num K) : SPatch K :=
  ⟨d, TaylorModel.constant R d.length c⟩

/-- `ScaledFunctionPatch::coordinate`, tpl lines 264-268. -/
def SPatch.coordinate (R : Rounding K) (d : Dom K) (j : Nat) : SPatch K :=
  ⟨d, scaling R d.length j (d.getD j (0, 0))⟩

/-- `ScaledFunctionPatch::identity`, tpl lines 284-287, and `VectorScaledFunctionPatch::identity`,
lines 699-702. -/
def identity (R : Rounding K) (d : Dom K) : VPatch K := ⟨d, scalings R d⟩

/-- The constructor from a function, tpl lines 220-231 without the final sweep: the function, which
can be evaluated on models, is applied to the scalings. -/
def SPatch.ofFunction (R : Rounding K) (d : Dom K) (F : List (TM K) → TM K) : SPatch K :=
  ⟨d, F (scalings R d)⟩

/-! ## Arithmetic -/

/-- `AlgebraOperations::apply(op,f1,f2)`, sfp lines 471-474: equal domains are asserted. -/
def SPatch.apply2 (op : TM K → TM K → TM K) (f g : SPatch K) : Option (SPatch K) :=
  if f.dom = g.dom then some ⟨f.dom, op f.model g.model⟩ else none

/-- `f+g`. -/
def SPatch.add (R : Rounding K) (s : Sweeper K) (f g : SPatch K) : Option (SPatch K) :=
  f.apply2 (TaylorModel.add R s) g

/-- `f-g`. -/
def SPatch.sub (R : Rounding K) (s : Sweeper K) (f g : SPatch K) : Option (SPatch K) :=
  f.apply2 (TaylorModel.sub R s) g

/-- `f*g`. -/
def SPatch.mul (R : Rounding K) (s : Sweeper K) (f g : SPatch K) : Option (SPatch K) :=
  f.apply2 (TaylorModel.mul R s) g

/-- `-f`, sfp lines 475-477. -/
def SPatch.neg (R : Rounding K) (f : SPatch K) : SPatch K := ⟨f.dom, TaylorModel.neg R f.model⟩

/-- `c*f`, sfp lines 481-483. -/
def SPatch.scal (R : Rounding K) (c : Num K) (f : SPatch K) : SPatch K :=
  ⟨f.dom, TaylorModel.scal R f.model c⟩

/-- `distance(f1,f2)`, sfp lines 433-434. -/
def SPatch.distance (R : Rounding K) (s : Sweeper K) (f g : SPatch K) : Option K :=
  (f.sub R s g).map (SPatch.norm R)

/-- `operator+=` of vectors, sfp lines 823-829: the assertions, and `f.models()+=g.models()`. -/
def VPatch.iadd (R : Rounding K) (s : Sweeper K) (f g : VPatch K) : Option (VPatch K) :=
  if f.models.length = g.models.length ∧ f.dom = g.dom then
    some ⟨f.dom, List.zipWith (TaylorModel.add R s) f.models g.models⟩
  else none

/-- `operator-=` of vectors, sfp lines 830-836: line 834 reads `f.models()+=g.models()`. -/
def VPatch.isub (R : Rounding K) (s : Sweeper K) (f g : VPatch K) : Option (VPatch K) :=
  if f.models.length = g.models.length ∧ f.dom = g.dom then
    some ⟨f.dom, List.zipWith (TaylorModel.add R s) f.models g.models⟩
  else none

/-! ## Composition and restriction -/

/-- `_unchecked_compose(g,f)`, tpl lines 430-432. -/
def composeU (R : Rounding K) (s : Sweeper K) (g : SPatch K) (f : VPatch K) : Option (SPatch K) :=
  match unscales R f.dom.length g.dom f.models with
  | none => none
  | some y => (TaylorModel.compose R s f.dom.length g.dom.length g.model y).map (fun r => ⟨f.dom, r⟩)

/-- The test of sfp line 938: `subset(f.codomain(),g.domain())`; the codomain consists of the ranges
of the models (tpl lines 785-792, tm lines 1313-1317). -/
def codomainIn (R : Rounding K) (f : VPatch K) (d : Dom K) : Bool :=
  (List.zipWith (fun (i : K × K) (t : TM K) =>
    let r := TaylorModel.range R f.dom.length t
    Ext.le (.fin i.1) r.l && Ext.le r.u (.fin i.2)) d f.models).all id

/-- `compose(g,f)`, sfp lines 937-942; `none` includes the `DomainException`. -/
def compose (R : Rounding K) (s : Sweeper K) (g : SPatch K) (f : VPatch K) : Option (SPatch K) :=
  if codomainIn R f g.dom then composeU R s g f else none

/-- `restriction(f,dom)`, sfp lines 369-371; `none` includes the `DomainException`. -/
def SPatch.restriction (R : Rounding K) (s : Sweeper K) (f : SPatch K) (d : Dom K) :
    Option (SPatch K) :=
  if subset d f.dom then composeU R s f (identity R d) else none

/-- `VectorScaledFunctionPatch::get`, tpl lines 870-873. -/
def VPatch.get (f : VPatch K) (k : Nat) : SPatch K := ⟨f.dom, f.models.getD k ⟨[], 0⟩⟩

/-- `VectorScaledFunctionPatch::set`, tpl lines 875-884: the domains must agree unless the domain of
the vector has dimension zero. -/
def VPatch.set (f : VPatch K) (k : Nat) (e : SPatch K) : Option (VPatch K) :=
  if k < f.models.length then
    if f.dom.length ≠ 0 then
      if e.dom = f.dom then some ⟨f.dom, f.models.set k e.model⟩ else none
    else some ⟨e.dom, f.models.set k e.model⟩
  else none

/-- The loops `for(i...) { r.set(i,op(f[i])); }`, sfp lines 800-802, 807-809 and 967-969: `m`
components remain, from `k`. -/
def VPatch.setAll (op : SPatch K → Option (SPatch K)) (f : VPatch K) : Nat → Nat → VPatch K →
    Option (VPatch K)
  | 0, _, r => some r
  | m + 1, k, r =>
    match op (f.get k) with
    | none => none
    | some e =>
      match r.set k e with
      | none => none
      | some r => VPatch.setAll op f m (k + 1) r

/-- `restriction(f,d)` of vectors, sfp lines 796-804. -/
def VPatch.restriction (R : Rounding K) (s : Sweeper K) (f : VPatch K) (d : Dom K) :
    Option (VPatch K) :=
  if subset d f.dom then
    if d = f.dom then some f
    else f.setAll (fun g => g.restriction R s d) f.models.length 0
      ⟨d, List.replicate f.models.length ⟨[], 0⟩⟩
  else none

/-- `partial_restriction(f,k,ivl)`, sfp lines 379-380. -/
def SPatch.partialRestriction (R : Rounding K) (s : Sweeper K) (f : SPatch K) (k : Nat) (i : K × K) :
    Option (SPatch K) := f.restriction R s (f.dom.set k i)

/-- `partial_restriction(tf,k,d)` of vectors, sfp lines 805-811: the result is created with the domain
of `tf` (line 806). -/
def VPatch.partialRestriction (R : Rounding K) (s : Sweeper K) (f : VPatch K) (k : Nat) (i : K × K) :
    Option (VPatch K) :=
  f.setAll (fun g => g.partialRestriction R s k i) f.models.length 0
    ⟨f.dom, List.replicate f.models.length ⟨[], 0⟩⟩

/-- `f1+f2` and `f1-f2` of vectors, sfp lines 1029-1038: on different domains both are restricted to
the intersection, which must not be empty (lines 464-468). -/
def VPatch.apply2 (R : Rounding K) (s : Sweeper K) (op : TM K → TM K → TM K) (f g : VPatch K) :
    Option (VPatch K) :=
  if isEmpty (intersection f.dom g.dom) then none
  else if f.dom = g.dom then some ⟨f.dom, List.zipWith op f.models g.models⟩
  else
    match f.restriction R s (intersection f.dom g.dom),
      g.restriction R s (intersection f.dom g.dom) with
    | some f', some g' => some ⟨f'.dom, List.zipWith op f'.models g'.models⟩
    | _, _ => none

/-! ## Structure -/

/-- `TaylorModel::_embed`, tm lines 1832-1834: the terms stay sorted, so that sorting them again (`cleanup`) changes
nothing. -/
def embedTM (R : Rounding K) (s : Sweeper K) (as1 as3 : Nat) (t : TM K) : TM K :=
  cleanup R s (Expansion.embed as1 as3 t.terms) t.err

/-- `embed(dom1,f2,dom3)`, sfp lines 383-384. -/
def SPatch.embed (R : Rounding K) (s : Sweeper K) (d1 : Dom K) (f : SPatch K) (d3 : Dom K) :
    SPatch K := ⟨d1 ++ f.dom ++ d3, embedTM R s d1.length d3.length f.model⟩

/-- `embed` of vectors, sfp lines 792-794. -/
def VPatch.embed (R : Rounding K) (s : Sweeper K) (d1 : Dom K) (f : VPatch K) (d3 : Dom K) :
    VPatch K := ⟨d1 ++ f.dom ++ d3, f.models.map (embedTM R s d1.length d3.length)⟩

/-- `join(f1,f2)`, sfp lines 756-759. -/
def join (f g : VPatch K) : Option (VPatch K) :=
  if f.dom = g.dom then some ⟨f.dom, f.models ++ g.models⟩ else none

/-- `combine(f1,f2)`, sfp lines 779-781; `combine` of models embeds each in the product. -/
def combine (R : Rounding K) (s : Sweeper K) (f g : VPatch K) : VPatch K :=
  ⟨f.dom ++ g.dom, f.models.map (embedTM R s 0 g.dom.length) ++
    g.models.map (embedTM R s f.dom.length 0)⟩

/-- `split(f,j)`, sfp lines 387-389: the models are split at the exact centre, the box at the
midpoint (`source/geometry/box.tpl.hpp` lines 79-88). -/
def SPatch.split (R : Rounding K) (s : Sweeper K) (f : SPatch K) (j : Nat) :
    Option (SPatch K × SPatch K) :=
  match TaylorModel.split R s j .lower f.model, TaylorModel.split R s j .upper f.model with
  | some t1, some t2 =>
    let i := f.dom.getD j (0, 0)
    some (⟨f.dom.set j (i.1, midpoint R i), t1⟩, ⟨f.dom.set j (midpoint R i, i.2), t2⟩)
  | _, _ => none

/-- Finite bounds. -/
def toNum : Bounds K → Option (Num K)
  | ⟨.fin l, .fin u⟩ => some ⟨l, u⟩
  | _ => none

/-- `partial_evaluate(f,k,c)` for an exact number, sfp lines 408-410. -/
def SPatch.partialEvaluate (R : Rounding K) (s : Sweeper K) (f : SPatch K) (k : Nat) (c : K) :
    Option (SPatch K) :=
  let i := f.dom.getD k (0, 0)
  if i.1 ≤ c ∧ c ≤ i.2 then
    match toNum (unscaleB R i ⟨.fin c, .fin c⟩) with
    | some q => (TaylorModel.partialEvaluate R s (f.dom.length - 1) k q f.model).map
        (fun t => ⟨f.dom.eraseIdx k, t⟩)
    | none => none
  else none

/-! ## Calculus -/

/-- A `Dyadic` as a number of the working precision. -/
def dyadicNum (R : Rounding K) (c : K) : Num K := ⟨R.down c, R.up c⟩

/-- `antiderivative(f,k)`, sfp lines 397-398. -/
def SPatch.antiderivative (R : Rounding K) (f : SPatch K) (k : Nat) : SPatch K :=
  ⟨f.dom, TaylorModel.scal R (antidifferentiate R k f.model)
    (dyadicNum R (rad (f.dom.getD k (0, 0))))⟩

/-- `derivative(f,k)`, sfp lines 395-396; division by a number is multiplication by its
reciprocal.  On a singleton the result is infinite there and `none` here. -/
def SPatch.derivative (R : Rounding K) (f : SPatch K) (k : Nat) : Option (SPatch K) :=
  (recNum R (dyadicNum R (rad (f.dom.getD k (0, 0))))).map (fun q =>
    ⟨f.dom, TaylorModel.scal R (differentiate R k f.model) q⟩)

/-- `antiderivative(f,k,c)` for an exact number, sfp lines 399-404: `g-compose(g,h)`, where `h` is
the identity with component `k` replaced by the constant. -/
def SPatch.antiderivativeFrom (R : Rounding K) (s : Sweeper K) (f : SPatch K) (k : Nat) (c : K) :
    Option (SPatch K) :=
  let i := f.dom.getD k (0, 0)
  if k < f.dom.length ∧ i.1 ≤ c ∧ c ≤ i.2 then
    let g := f.antiderivative R k
    match (identity R f.dom).set k (SPatch.constant R f.dom (Num.exact c)) with
    | none => none
    | some h =>
      match compose R s g h with
      | none => none
      | some gh => g.sub R s gh
  else none

/-! ## Relations -/

/-- `refines`, sfp lines 495-499. -/
def SPatch.refines (R : Rounding K) (s : Sweeper K) (f g : SPatch K) : Bool :=
  if f.dom = g.dom then TaylorModel.refines R s f.model g.model
  else if subset g.dom f.dom then
    match f.restriction R s g.dom with
    | some f' => TaylorModel.refines R s f'.model g.model
    | none => false
  else false

/-- `inconsistent`, sfp lines 504-511; `none` is an exception while restricting. -/
def SPatch.inconsistent (R : Rounding K) (s : Sweeper K) (f g : SPatch K) : Option Bool :=
  if f.dom = g.dom then some (TaylorModel.inconsistent R f.dom.length f.model g.model)
  else
    let d := intersection f.dom g.dom
    match f.restriction R s d, g.restriction R s d with
    | some f', some g' => some (TaylorModel.inconsistent R d.length f'.model g'.model)
    | _, _ => none

/-- `refinement`, sfp lines 513-516. -/
def SPatch.refinement (R : Rounding K) (f g : SPatch K) : Option (SPatch K) :=
  if f.dom = g.dom then (TaylorModel.refinement R f.model g.model).map (fun t => ⟨f.dom, t⟩) else none

end Verif.FunctionPatch
