import Verif.FunctionPatch.Calculus

/-!
# Property C76: function patches, counterexamples and instances
-/

namespace Verif.FunctionPatch

open Ariadne (Rounding XRounding Bounds Ext)
open Ariadne.Rounding
open Verif.Expansion
open Verif.TaylorModel

/-- Four-bit arithmetic. -/
def fourBit : Rounding ℚ := Ariadne.PBit.rounding 4 (by decide)

/-- **C76** fails for the identity on domains of which the midpoint is rounded: on `[1,9/8]`, with
four-bit numbers, the identity patch is `1+s/8` with error zero, and misses `x` at the lower end by
`1/8`. -/
theorem C76_identity_wrong :
    ∃ (R : Rounding ℚ) (d : Dom ℚ), Proper d ∧ (∀ i ∈ d, R.Rep i.1 ∧ R.Rep i.2) ∧
      ¬ (SPatch.coordinate R d 0).Represents (fun x => x.getD 0 0) := by
  refine ⟨fourBit, [(1, 9 / 8)], ?_, ?_, ?_⟩
  · intro i hi
    simp only [List.mem_singleton] at hi
    subst hi
    norm_num
  · intro i hi
    simp only [List.mem_singleton] at hi
    subst hi
    exact ⟨⟨1, 0, by norm_num, by norm_num⟩, ⟨9, -3, by norm_num, by norm_num⟩⟩
  · intro h
    have h1 := h [-1] ⟨rfl, by simp⟩
    have e1 : (SPatch.coordinate fourBit [(1, 9 / 8)] 0).model.terms = [([1], 1 / 8), ([0], 1)] := by
      decide +kernel
    have e2 : (SPatch.coordinate fourBit [(1, 9 / 8)] 0).model.err = 0 := by decide +kernel
    rw [e1, e2] at h1
    simp [monomial, scalePt, SPatch.coordinate] at h1
    norm_num at h1

/-- **C76** fails for splitting an interval of which the midpoint is rounded: splitting `16*x-17` on
`[1,9/8]`, with four-bit numbers, gives a second half on `[1,9/8]` which is `0` at `1` with error zero,
although the function is `-1` there. -/
theorem C76_split_wrong :
    ∃ (R : Rounding ℚ) (f f1 f2 : SPatch ℚ) (F : List ℚ → ℚ), f.Ok ∧ Proper f.dom ∧
      (∀ i ∈ f.dom, R.Rep i.1 ∧ R.Rep i.2) ∧ f.Represents F ∧
      f.split R trivialSweeper 0 = some (f1, f2) ∧ ¬ f2.Represents F := by
  have hs : ((SPatch.split fourBit trivialSweeper ⟨[(1, 9 / 8)], ⟨[([1], 1)], 0⟩⟩ 0).map
      (fun p => (p.2.dom, p.2.model.terms, p.2.model.err))) =
      some ([(1, 9 / 8)], [([1], 1 / 2), ([0], 1 / 2)], 0) := by decide +kernel
  obtain ⟨⟨f1, f2⟩, e, e2⟩ := Option.map_eq_some_iff.1 hs
  refine ⟨fourBit, ⟨[(1, 9 / 8)], ⟨[([1], 1)], 0⟩⟩, f1, f2, fun x => 16 * x.getD 0 0 - 17, ?_, ?_, ?_,
    ?_, e, ?_⟩
  · exact ⟨fun u hu => by simp only [List.mem_singleton] at hu; subst hu; rfl, by simp [Sorted]⟩
  · intro i hi
    simp only [List.mem_singleton] at hi
    subst hi
    norm_num
  · intro i hi
    simp only [List.mem_singleton] at hi
    subst hi
    exact ⟨⟨1, 0, by norm_num, by norm_num⟩, ⟨9, -3, by norm_num, by norm_num⟩⟩
  · rintro z ⟨hz, -⟩
    match z, hz with
    | [z], _ =>
      simp [monomial, scalePt]
      ring_nf
  · intro h
    simp only [Prod.mk.injEq] at e2
    obtain ⟨a1, a2, a3⟩ := e2
    have h1 := h [-1] ⟨by rw [a1]; rfl, by simp⟩
    rw [a1, a2, a3] at h1
    simp [monomial, scalePt] at h1
    norm_num at h1

/-- **C76** fails for `-=` of vectors: it adds (sfp line 834).  The difference of the constants one is
two. -/
theorem C76_isub_wrong :
    (∀ (R : Rounding ℚ) (s : Sweeper ℚ) (f g : VPatch ℚ), f.isub R s g = f.iadd R s g) ∧
    ∃ (f h : VPatch ℚ), f.Ok ∧ f.Represents [fun _ => 1] ∧
      f.isub fourBit trivialSweeper f = some h ∧ ¬ h.Represents [fun _ => 1 - 1] := by
  refine ⟨fun _ _ _ _ => rfl, ?_⟩
  have e1 : (TaylorModel.add fourBit trivialSweeper ⟨[([0], 1)], 0⟩ ⟨[([0], 1)], 0⟩).terms =
      [([0], 2)] := by decide +kernel
  have e2 : (TaylorModel.add fourBit trivialSweeper ⟨[([0], 1)], 0⟩ ⟨[([0], 1)], 0⟩).err = 0 := by
    decide +kernel
  refine ⟨⟨[(0, 1)], [⟨[([0], 1)], 0⟩]⟩, ⟨[(0, 1)], _⟩, ?_, ?_, if_pos ⟨rfl, rfl⟩, ?_⟩
  · intro t ht
    simp only [List.mem_singleton] at ht
    subst ht
    exact ⟨fun u hu => by simp only [List.mem_singleton] at hu; subst hu; rfl, by simp [Sorted]⟩
  · refine .cons ?_ .nil
    rintro z ⟨hz, -⟩
    match z, hz with
    | [z], _ => simp [monomial]
  · intro hr
    unfold VPatch.Represents at hr
    cases hr with
    | cons h1 _ =>
      have h2 := h1 [0] ⟨rfl, by simp⟩
      simp only [e1, e2] at h2
      simp [monomial] at h2
      norm_num at h2

/-- **C76** fails for `inconsistent` on disjoint domains: the patch `0` on `[0,1]` and the patch `1` on
`[2,3]` are reported as inconsistent, even in exact arithmetic, although there are functions which
both represent. -/
theorem C76_inconsistent_disjoint :
    ∃ (f g : SPatch ℚ) (F : List ℚ → ℚ), f.Ok ∧ g.Ok ∧ Proper f.dom ∧ Proper g.dom ∧
      f.inconsistent exactRounding trivialSweeper g = some true ∧ f.Represents F ∧ g.Represents F := by
  refine ⟨⟨[(0, 1)], ⟨[], 0⟩⟩, ⟨[(2, 3)], ⟨[([0], 1)], 0⟩⟩,
    fun x => if x.getD 0 0 ≤ 1 then 0 else 1, ?_, ?_, ?_, ?_, by decide +kernel, ?_, ?_⟩
  · exact ⟨fun u hu => by simp at hu, by simp [Sorted]⟩
  · exact ⟨fun u hu => by simp only [List.mem_singleton] at hu; subst hu; rfl, by simp [Sorted]⟩
  · intro i hi
    simp only [List.mem_singleton] at hi
    subst hi
    norm_num
  · intro i hi
    simp only [List.mem_singleton] at hi
    subst hi
    norm_num
  · rintro z ⟨hz, hb⟩
    match z, hz with
    | [z], _ =>
      have := abs_le.1 (hb z (by simp))
      simp [scalePt]
      linarith [this.2]
  · rintro z ⟨hz, hb⟩
    match z, hz with
    | [z], _ =>
      have := abs_le.1 (hb z (by simp))
      have h1 : ¬ (2 + 3 : ℚ) / 2 + (3 - 2) / 2 * z ≤ 1 := by linarith [this.1]
      simp [scalePt, monomial, h1]

/-! ## The hypotheses are satisfied -/

/-- `x^2` on `[1,3]`, in the scaled variable `(2+s)^2`. -/
def square : SPatch ℚ := ⟨[(1, 3)], ⟨[([2], 1), ([1], 4), ([0], 4)], 0⟩⟩

example : square.Ok ∧ square.Represents (fun x => x.getD 0 0 ^ 2) := by
  refine ⟨⟨?_, by unfold Sorted square; decide⟩, ?_⟩
  · intro u hu
    simp only [square, List.mem_cons, List.not_mem_nil, or_false] at hu
    rcases hu with rfl | rfl | rfl <;> rfl
  · rintro z ⟨hz, -⟩
    match z, hz with
    | [z], _ =>
      simp [monomial, scalePt, square]
      ring_nf

/-- Evaluation at `[2,5/2]`, restriction to `[1,2]`, composition with the identity on `[1,2]`, the
antiderivative from `1`, partial evaluation at `2` and refinement succeed. -/
example : (square.evaluate exactRounding [⟨.fin 2, .fin (5 / 2)⟩]).isSome = true ∧
    ((square.restriction exactRounding trivialSweeper [(1, 2)]).map
      (fun h => (h.dom, h.model.terms))) =
        some ([(1, 2)], [([2], 1 / 4), ([1], 3 / 2), ([0], 9 / 4)]) ∧
    (compose exactRounding trivialSweeper square (identity exactRounding [(1, 2)])).isSome = true ∧
    (square.restriction exactRounding trivialSweeper [(0, 2)]).isSome = false ∧
    (square.partialEvaluate exactRounding trivialSweeper 0 2).map (fun h => (h.dom, h.model.terms)) =
      some ([], [([], 4)]) := by decide +kernel

example : ((square.antiderivativeFrom exactRounding trivialSweeper 0 1).map
    (fun h => (h.dom, h.model.terms))) =
    some ([(1, 3)], [([3], 1 / 3), ([2], 2), ([1], 4), ([0], 7 / 3)]) := by decide +kernel

example : (VPatch.partialRestriction exactRounding trivialSweeper ⟨[(1, 3)], [square.model]⟩ 0
    (1, 2)).isSome = false ∧
    (VPatch.restriction exactRounding trivialSweeper ⟨[(1, 3)], [square.model]⟩ [(1, 2)]).isSome =
      true := by decide +kernel

end Verif.FunctionPatch
