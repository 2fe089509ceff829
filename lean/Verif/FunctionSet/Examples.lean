import Verif.FunctionSet.Image
import Verif.ConstraintSolver.Actual
import Verif.Solver.Examples

/-!
# C68, C69: counterexamples, and cases meeting the hypotheses
-/

namespace Verif.FunctionSet

open Ariadne Ariadne.Logical Verif.ConstraintSolver
open Ariadne.Ext (fin)

/-- Exact arithmetic. -/
abbrev XQ : XRounding ℚ := .ofRounding TaylorModel.exactRounding

/-- Rounding to four bits. -/
abbrev R4 : Rounding ℚ := PBit.rounding 4 (by decide)

/-- Rounding to four bits. -/
abbrev X4 : XRounding ℚ := .ofRounding R4

/-- The interval `[a,b]` as a box. -/
def ivl (a b : ℚ) : Box 1 ℚ := fun _ => ⟨fin a, fin b⟩

/-- The point of the line. -/
def pt (a : ℚ) : Fin 1 → ℚ := fun _ => a

theorem mem_ivl {a b x : ℚ} : Mem (ivl a b) (pt x) ↔ a ≤ x ∧ x ≤ b :=
  ⟨fun h => h 0, fun h _ => h⟩

theorem pt_eta (p : Fin 1 → ℚ) : p = pt (p 0) := by
  funext i
  rw [Subsingleton.elim i 0]
  rfl

/-- The function `x`. -/
def idf : Func 1 ℚ := ident 0

theorem idf_ok : idf.Ok := fun _ _ h => h 0

/-- The constraint `a ≤ x ≤ b`. -/
def between (a b : ℚ) : Constr 1 ℚ := ⟨idf, ⟨fin a, fin b⟩⟩

/-- Membership as a test. -/
def holds (b : Bounds ℚ) (x : ℚ) : Bool := Ext.le b.l (fin x) && Ext.le (fin x) b.u

theorem holds_sound {b : Bounds ℚ} {x : ℚ} (h : holds b x = true) : b.Contains x := by
  obtain ⟨l, u⟩ := b
  simp only [holds, Bool.and_eq_true] at h
  obtain ⟨h1, h2⟩ := h
  constructor
  · cases l <;> simp [Ext.le, IsLower] at h1 ⊢
    exact h1
  · cases u <;> simp [Ext.le, IsUpper] at h2 ⊢
    exact h2

/-- Tools which do nothing, with an optimiser which tries the point `x`. -/
def tools (x : ℚ) : Tools 1 ℚ where
  hull _ B := B
  opt _ _ := .stuck
  txg _ _ _ _ := ⟨.ninf, .pinf⟩
  dhull _ _ _ B := B
  fuel := 5
  optimiser d cs := if holds (d 0) x && cs.all (fun c => holds c.2 (c.1.val (pt x))) then .true_ else .indeterminate

theorem tools_hull {R : Rounding ℚ} (x : ℚ) : HullSound R (tools x) := ⟨fun _ _ _ h _ => h, fun _ _ h _ => h⟩

theorem tools_optimiser (x : ℚ) : OptimiserSound (tools x) := by
  intro d cs h
  simp only [tools] at h
  split_ifs at h with h1
  simp only [Bool.and_eq_true, List.all_eq_true] at h1
  refine ⟨pt x, fun i => ?_, fun c hc => holds_sound (h1.2 c hc)⟩
  rw [Subsingleton.elim i 0]
  exact holds_sound h1.1

theorem tools_solver {R : Rounding ℚ} (x : ℚ) : SolverSound R (tools x) := fun cs =>
  { fn := fun d y p _ h => by simp [tools] at h
    hull := fun d y p _ h => by simp [tools] at h
    rep := fun d y hd _ => hd.rep }

/-! ## Intersections -/

/-- The intersection of `{x ∈ [0,1] | 5 ≤ x+5 ≤ 6}` with itself is made on the domain `[5,6]`: none of its
points is in the set. -/
theorem C68_intersection_bounded_wrong :
    let c : Constr 1 ℚ := ⟨⟨fun p => p 0 + 5, fun B => Bounds.add XQ (B 0) ⟨fin 5, fin 5⟩⟩, ⟨fin 5, fin 6⟩⟩
    let a : BSet 1 ℚ := ⟨ivl 0 1, [c]⟩
    ∃ b, a.inter a = some b ∧ b.dom = ivl 5 6 ∧ b.pts = ∅ ∧ pt 0 ∈ a.pts := by
  refine ⟨_, rfl, ?_, ?_, ?_⟩
  · funext i
    rw [Subsingleton.elim i 0]
    decide +kernel
  · refine Set.eq_empty_iff_forall_notMem.2 ?_
    rintro p ⟨h1, h2⟩
    have h3 : (5 : ℚ) ≤ p 0 := by
      have := (h1 0).1
      have e : Ext.max (fin (5 : ℚ)) (fin 5) = fin 5 := by decide +kernel
      change IsLower (Ext.max (fin (5 : ℚ)) (fin 5)) (p 0) at this
      rw [e] at this
      exact this
    have h4 := h2 _ (List.mem_append_left _ (List.mem_singleton.2 rfl))
    have h5 : p 0 + 5 ≤ 6 := h4.2
    linarith
  · refine ⟨mem_ivl.2 ⟨le_rfl, by norm_num⟩, fun c hc => ?_⟩
    rw [List.mem_singleton.1 hc]
    exact holds_sound (by decide +kernel)

/-- The intersection of bounded sets without constraints has dimension `0` instead of `1`. -/
theorem C68_intersection_bounded_dimension : (⟨ivl 0 1, []⟩ : BSet 1 ℚ).inter ⟨ivl 0 1, []⟩ = none := rfl

/-- The intersection of `{x ∈ [0,1] | 0 ≤ x ≤ 9}` with the box `[2,3]` contains `2`, which is not in the
set. -/
theorem C68_intersection_box_wrong :
    let a : BSet 1 ℚ := ⟨ivl 0 1, [between 0 9]⟩
    ∃ b, a.interBx (ivl 2 3) = some b ∧ pt 2 ∈ b.pts ∧ pt 2 ∉ a.pts := by
  refine ⟨_, rfl, ⟨fun i => ?_, fun c hc => ?_⟩, fun h => ?_⟩
  · rw [Subsingleton.elim i 0]
    exact holds_sound (by decide +kernel)
  · rw [List.mem_singleton.1 hc]
    exact holds_sound (by decide +kernel)
  · have := (mem_ivl.1 h.1).2
    norm_num at this

/-- The intersection of `{x ∈ [0,1] | 0 ≤ x ≤ 9}` with `{x | 2 ≤ x ≤ 3}` contains `2`. -/
theorem C68_intersection_set_wrong :
    let a : BSet 1 ℚ := ⟨ivl 0 1, [between 0 9]⟩
    ∃ b, a.interCSet (CSet.ofList [between 2 3]) = some b ∧ pt 2 ∈ b.pts ∧ pt 2 ∉ a.pts := by
  refine ⟨_, rfl, ⟨fun i => ?_, fun c hc => ?_⟩, fun h => ?_⟩
  · rw [Subsingleton.elim i 0]
    exact holds_sound (by decide +kernel)
  · simp only [CSet.ofList, List.cons_append, List.nil_append, List.mem_cons, List.not_mem_nil, or_false] at hc
    rcases hc with rfl | rfl <;> exact holds_sound (by decide +kernel)
  · have := (mem_ivl.1 h.1).2
    norm_num at this

/-! ## `overlaps` -/

/-- `[0,1]` and `[1,2]` are reported to overlap, although their interiors have no common point. -/
theorem C68_overlaps_touching :
    (⟨ivl 0 1, []⟩ : BSet 1 ℚ).overlaps XQ (tools 0) (ivl 1 2) = some true ∧
    ¬ ∃ p : Fin 1 → ℚ, Inside (ivl 0 1) p ∧ Inside (ivl 1 2) p := by
  refine ⟨by decide +kernel, ?_⟩
  rintro ⟨p, h1, h2⟩
  have h3 : p 0 < 1 := not_le.1 (h1 0).1
  have h4 : 1 < p 0 := not_le.1 (h2 0).2
  linarith

/-- The domain `[9/8 + 1/64, 2]` has no point in common with the box `[1,9/8]`.  Rounding inwards to four
bits leaves the empty box `[10/8, 9/8]`, one part of which is `[10/8,10/8]` and has a point.  The answer of
`overlaps` is true, although the optimiser is right. -/
theorem C68_bounded_overlaps_wrong :
    let a : BSet 1 ℚ := ⟨ivl (9 / 8 + 1 / 64) 2, [between 1 2]⟩
    a.overlaps X4 (tools (10 / 8)) (ivl 1 (9 / 8)) = some true ∧
    OptimiserSound (tools (10 / 8)) ∧ ¬ ∃ p, Mem (ivl 1 (9 / 8)) p ∧ p ∈ a.pts := by
  refine ⟨by decide +kernel, tools_optimiser _, ?_⟩
  rintro ⟨p, h1, h2, -⟩
  have h3 : p 0 ≤ 9 / 8 := (h1 0).2
  have h4 : (9 / 8 + 1 / 64 : ℚ) ≤ p 0 := (h2 0).1
  linarith

/-- The set `{x ∈ [0,1] | 1+1/64 ≤ x ≤ 2}` is empty, but is reported to overlap the box `[0,2]`, although
the optimiser is right: the bounds of the constraint are rounded outwards to four bits. -/
theorem C69_overlaps_wrong :
    let s : VSet 1 1 ℚ := VSet.make (ivl 0 1) (fun _ => idf) [between (1 + 1 / 64) 2]
    s.overlaps X4 (tools 1) (ivl 0 2) = some true ∧ OptimiserSound (tools 1) ∧ s.pts = ∅ := by
  refine ⟨by decide +kernel, tools_optimiser _, Set.eq_empty_iff_forall_notMem.2 ?_⟩
  rintro y ⟨p, h1, h2, -⟩
  have h3 : p 0 ≤ 1 := (h1 0).2
  have h4 : (1 + 1 / 64 : ℚ) ≤ p 0 := (h2 _ (List.mem_singleton.2 rfl)).1
  linarith

/-! ## `satisfies` -/

/-- The function `x - x`. -/
def zerof : Func 1 ℚ := ⟨fun p => p 0 - p 0, fun B => Bounds.sub XQ (B 0) (B 0)⟩

theorem zerof_ok : zerof.Ok := fun _ _ h => Bounds.C05_sub XQ (h 0) (h 0)

/-- All the points of `[0,1]` satisfy `x - x ≥ -1/2`, but the answer is that they do not. -/
theorem C69_satisfies_wrong :
    let s : VSet 1 1 ℚ := VSet.make (ivl 0 1) (fun _ => idf) []
    let c : Constr 1 ℚ := ⟨zerof, ⟨fin (-1 / 2), .pinf⟩⟩
    s.satisfies XQ (tools 0) c = some .false_ ∧ zerof.Ok ∧
      ∀ y ∈ s.pts, c.bnd.Contains (c.fn.val y) := by
  refine ⟨by decide +kernel, zerof_ok, fun y _ => ⟨?_, trivial⟩⟩
  simp [zerof, IsLower]
  norm_num

/-- Tools whose solver tries the point `x`. -/
def solverTools (x : ℚ) : Tools 1 ℚ := { tools x with opt := fun _ _ => .hit (pt x) }

theorem solverTools_sound {R : Rounding ℚ} (x : ℚ) : SolverSound R (solverTools x) := fun cs =>
  { fn := fun d y p _ h => by simp [solverTools] at h
    hull := fun d y p _ h => by simp [solverTools] at h
    rep := fun d y hd _ => hd.rep }

/-- The points of `[0, 1-1/64]` satisfy `0 ≤ x ≤ 1-1/64`, but with rounding to four bits they are reported
not to: the domain is rounded outwards to `[0,1]`, and the negated bound `x ≥ 1-1/64` to `x ≥ 15/16`. -/
theorem C69_image_satisfies_wrong :
    let s : ISet 1 1 ℚ := ⟨ivl 0 (1 - 1 / 64), fun _ => idf, []⟩
    let c : Constr 1 ℚ := ⟨⟨fun p => p 0 + (p 0 - p 0), fun B => Bounds.add X4 (B 0) (Bounds.sub X4 (B 0) (B 0))⟩,
      ⟨fin 0, fin (1 - 1 / 64)⟩⟩
    s.satisfies X4 (solverTools 1) c = some .false_ ∧ SolverSound R4 (solverTools 1) ∧
      ∀ y ∈ s.pts, c.bnd.Contains (c.fn.val y) := by
  refine ⟨by decide +kernel, solverTools_sound _, ?_⟩
  rintro y ⟨p, hp, -, rfl⟩
  have h1 : 0 ≤ p 0 := (hp 0).1
  have h2 : p 0 ≤ 1 - 1 / 64 := (hp 0).2
  simp only [Bounds.Contains, IsLower, IsUpper, vval, idf, ident, sub_self, add_zero]
  exact ⟨h1, h2⟩

/-! ## Conversion -/

/-- With rounding to four bits, `[0,1-1/64]` becomes `[0,1]`. -/
theorem C69_of_bounded_wrong :
    pt 1 ∈ ((⟨ivl 0 (1 - 1 / 64), []⟩ : BSet 1 ℚ).toImage X4).pts ∧
    pt 1 ∉ (⟨ivl 0 (1 - 1 / 64), []⟩ : BSet 1 ℚ).pts := by
  refine ⟨⟨pt 1, fun i => ?_, by simp [Sat, BSet.toImage], rfl⟩, fun h => ?_⟩
  · rw [Subsingleton.elim i 0]
    exact holds_sound (by decide +kernel)
  · have := (mem_ivl.1 h.1).2
    norm_num at this

/-! ## Cases meeting the hypotheses -/

/-- `{x ∈ [0,8] | 2 ≤ x ≤ 3}`, reduced. -/
def exSet : VSet 1 1 ℚ := VSet.make (ivl 0 8) (fun _ => idf) [between 2 3]

theorem rep_ivl {a b : ℚ} : RepBox TaylorModel.exactRounding (ivl a b) := fun _ => ⟨a, b, rfl, trivial, trivial⟩

theorem good_ivl {a b : ℚ} (h : a ≤ b) : GoodBox TaylorModel.exactRounding (ivl a b) :=
  fun _ => ⟨a, b, rfl, trivial, trivial, h⟩

theorem exSet_made : Made TaylorModel.exactRounding (tools 2) exSet :=
  .make rep_ivl (fun _ => idf_ok) fun c hc => by rw [List.mem_singleton.1 hc]; exact idf_ok

/-- After reduction the set is known to be inside `[0,5]`; before, it is not. -/
example : ((exSet.reduce XQ (tools 2)).map fun s => s.inside (ivl 0 5)) = some true ∧
    exSet.inside (ivl 0 5) = false := by decide +kernel

example : exSet.separated XQ (tools 2) (ivl 5 6) = some true := by decide +kernel

example : exSet.overlaps XQ (tools 2) (ivl 1 2) = some true := by decide +kernel

example (y : Fin 1 → ℚ) (hy : y ∈ exSet.pts) : ¬ Mem (ivl 5 6) y :=
  C69_separated (tools_hull 2) exSet_made (by decide +kernel) hy

example : ∃ y ∈ exSet.pts, Mem (ivl 1 2) y :=
  C69_overlaps_partial (R := TaylorModel.exactRounding) (tools_optimiser 2) (s := exSet)
    (good_ivl (by norm_num)) (fun _ h => h)
    (fun c hc => by rw [List.mem_singleton.1 hc]; exact ⟨trivial, trivial⟩) (by decide +kernel)

example : (exSet.splitAt XQ 0).1.pts ∪ (exSet.splitAt XQ 0).2.pts = exSet.pts :=
  C69_split_at (tools_hull 2) exSet_made (good_ivl (by norm_num)) 0

example : pt (5 / 2) ∈ exSet.pts :=
  ⟨pt (5 / 2), mem_ivl.2 (by norm_num), fun c hc => by
    rw [List.mem_singleton.1 hc]; exact holds_sound (by decide +kernel), rfl⟩

/-- A definite answer of `satisfies` in both ways. -/
example : exSet.satisfies XQ (tools 2) ⟨idf, ⟨fin 0, fin 9⟩⟩ = some .true_ ∧
    exSet.satisfies XQ (tools 2) ⟨idf, ⟨fin (-1), fin 8⟩⟩ = some .true_ ∧
    exSet.satisfies XQ (solverTools (11 / 4)) ⟨idf, ⟨fin 0, fin (5 / 2)⟩⟩ = some .false_ := by decide +kernel

example : ∃ y ∈ exSet.pts, ¬ (⟨fin 0, fin (5 / 2)⟩ : Bounds ℚ).Contains (idf.val y) :=
  C69_satisfies_false_partial (R := TaylorModel.exactRounding) (T := solverTools (11 / 4)) (c := ⟨idf, ⟨fin 0, fin (5 / 2)⟩⟩)
    ⟨fun _ _ _ h _ => h, fun _ _ h _ => h⟩ (solverTools_sound _)
    (.make rep_ivl (fun _ => idf_ok) fun c hc => by rw [List.mem_singleton.1 hc]; exact idf_ok)
    (fun c hc => by rw [List.mem_singleton.1 hc]; exact ⟨trivial, trivial⟩) idf_ok
    ⟨Or.inr ⟨_, rfl⟩, Or.inr ⟨_, rfl⟩⟩ (by simp) (by decide +kernel)

/-- `{x | 2 ≤ x ≤ 3}` covers `[9/4,11/4]`, is separated from `[5,6]` and overlaps `[1,2]`. -/
example : (CSet.ofList [between 2 3]).covers XQ (ivl (9 / 4) (11 / 4)) = true ∧
    (CSet.ofList [between 2 3]).separated XQ (tools 2) (ivl 5 6) = some true ∧
    (CSet.ofList [between 2 3]).overlaps XQ (tools 2) (ivl 1 2) = some true ∧
    (⟨ivl 0 8, [between 2 3]⟩ : BSet 1 ℚ).covers XQ (ivl (9 / 4) (11 / 4)) = true ∧
    (⟨ivl 0 8, [between 2 3]⟩ : BSet 1 ℚ).inside XQ (ivl (-1) 9) = true ∧
    (⟨ivl 0 8, [between 2 3]⟩ : BSet 1 ℚ).overlaps XQ (tools 2) (ivl 1 2) = some true := by decide +kernel

example : ∃ p, Mem (ivl 1 2) p ∧ p ∈ (⟨ivl 0 8, [between 2 3]⟩ : BSet 1 ℚ).pts :=
  C68_bounded_overlaps_partial (R := TaylorModel.exactRounding) (tools_optimiser 2)
    (fun _ => ⟨⟨_, rfl⟩, _, rfl⟩) (good_ivl (by norm_num))
    (fun i => ⟨1, 2, by rw [Subsingleton.elim i 0]; decide +kernel, trivial, trivial, by norm_num⟩)
    (by decide +kernel)

/-- With the optimiser of the code (`ConstraintSolver.midOpt`) the hypothesis `SolverSound` of the theorems on
`satisfies` holds, whatever the combined function. -/
theorem solverSound_mid {n : ℕ} {K : Type*} [Field K] [LinearOrder K] [IsStrictOrderedRing K] {R : Rounding K}
    {T : Tools n K} (ho : ∀ cs, T.opt cs = midOpt (.ofRounding R))
    (hr : ∀ cs d x, GoodBox R d → boxEmpty (T.dhull cs d x d) = false → RepBox R (T.dhull cs d x d)) :
    SolverSound R T := fun cs =>
  ⟨fun _ _ _ _ h => by simp [ho, midOpt] at h, fun _ _ _ _ h => by simp [ho, midOpt] at h, hr cs⟩

end Verif.FunctionSet
