import Verif.TaylorModel.Model

/-!
# Assembling the expansion of a flow in space and time

Model of the functions of `source/solvers/integrator.cpp` (lines 581-677) which the graded Taylor
series integrator applies to the series in time, with coefficients differentials in space, computed by
`graded_flow_iterate` (`Verif.Graded`): `graded_flow_differential`, `differential`,
`flow_differential` and the conversion of the differential to a Taylor model in
`make_taylor_function_model`; and of the adaptation of the orders by `graded_series_flow_step` (lines
757-801).  Each is modelled for one component; the loops over the components do
the same for each of them.  A differential is its list of terms; the sums of the exponents are taken
not to exceed 16 bits.
-/

namespace Verif.SeriesFlow

open Verif.Expansion Verif.TaylorModel Ariadne

variable {X K : Type*}

/-- `graded_flow_differential`, lines 584-610, for the series `dphic` at the centre and `dphib` on the
bounds: below the order `ord` in time, terms of degree below `so` are those at the centre and terms of
degree `so` those on the bounds; at order `ord`, all terms are those on the bounds.  The outcome `none`
is reading beyond the end of a series. -/
def gradedFlowDifferential (so ord : ℕ) (dphic dphib : List (Terms (List ℕ) X)) :
    Option (List (Terms (List ℕ) X)) :=
  ((List.range ord).mapM fun j => (dphic[j]?).bind fun c => (dphib[j]?).map fun b =>
      c.filter (fun t => decide (t.1.sum < so)) ++ b.filter (fun t => decide (t.1.sum = so))).bind
    fun l => (dphib[ord]?).map fun b => l ++ [b]

/-- The exponents `a` of lines 625 and 628-629: that of time is at position `gind`. -/
def joinIndex (gind j : ℕ) (a : List ℕ) : List ℕ := a.take gind ++ j :: a.drop gind

/-- `differential`, lines 612-636. -/
def differential (gind : ℕ) (gdphi : List (Terms (List ℕ) X)) : Terms (List ℕ) X :=
  gdphi.zipIdx.flatMap fun e => e.1.map fun t => (joinIndex gind e.2 t.1, t.2)

/-- `flow_differential`, lines 638-644; `gind` is the number of components. -/
def flowDifferential (gind so ord : ℕ) (dphic dphib : List (Terms (List ℕ) X)) :
    Option (Terms (List ℕ) X) :=
  (gradedFlowDifferential so ord dphic dphib).map (differential gind)

/-- The composition with the scaling of the domain in `make_taylor_function_model`, lines 654-656: each
term keeps its exponents, and its coefficient is multiplied by the powers of the radii of the domain,
by `sc`. -/
def rescale (sc : List ℕ → Num K → Num K) (e : Terms (List ℕ) (Num K)) : Terms (List ℕ) (Num K) :=
  e.map fun t => (t.1, sc t.1 t.2)

/-- The loop over the terms in `make_taylor_function_model`, lines 658-673, before `cleanup`: the
coefficients are the midpoints, and the error adds their errors, rounded upwards. -/
def toModel [Field K] [LinearOrder K] [IsStrictOrderedRing K] (R : Rounding K) (e : Terms (List ℕ) (Num K)) : TM K :=
  e.foldl (fun t u => ⟨t.terms ++ [(u.1, u.2.value R)], R.up (t.err + u.2.error R)⟩) ⟨[], 0⟩

/-- The parameters of the adaptation: the greatest error allowed, the first and the last orders. -/
structure Orders (K : Type*) where
  maxErr : K
  initSo : ℕ
  initTo : ℕ
  maxSo : ℕ
  maxTo : ℕ

/-- The comparison `phi.error().raw()>max_err`, line 783; `none` is an infinite error. -/
def tooBig [LT K] [DecidableLT K] (o : Orders K) : Option K → Bool
  | none => true
  | some x => decide (o.maxErr < x)

/-- The comparison of line 787, where `old_error` has been set to the error itself at line 785: four
times the error, rounded upwards, exceeds the error; four times infinity does not exceed infinity. -/
def rises [Field K] [LinearOrder K] [IsStrictOrderedRing K] (R : Rounding K) : Option K → Bool
  | none => false
  | some x => decide (x < R.up (x * 4))

/-- The condition and the body of the loop, lines 783-796, on the orders in space and time: `none` when
the loop ends.  `err` is the error of the flow computed with given orders.  Orders are 16 bit. -/
def adaptStep [Field K] [LinearOrder K] [IsStrictOrderedRing K] (R : Rounding K) (o : Orders K)
    (err : ℕ → ℕ → Option K) (s : ℕ × ℕ) : Option (ℕ × ℕ) :=
  if tooBig o (err s.1 s.2) && (decide (s.1 < o.maxSo) || decide (s.2 < o.maxTo)) then
    if decide (s.1 < o.maxSo) && rises R (err s.1 s.2) then some (s.1 + 1, o.initTo)
    else some (s.1, (s.2 + 1) % 65536)
  else none

/-- The orders after at most `n` iterations, and whether the loop has ended. -/
def adapt [Field K] [LinearOrder K] [IsStrictOrderedRing K] (R : Rounding K) (o : Orders K)
    (err : ℕ → ℕ → Option K) : ℕ → ℕ × ℕ → (ℕ × ℕ) × Bool
  | 0, s => (s, (adaptStep R o err s).isNone)
  | n + 1, s =>
    match adaptStep R o err s with
    | none => (s, true)
    | some s' => adapt R o err n s'

end Verif.SeriesFlow
