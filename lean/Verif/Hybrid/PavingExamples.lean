import Verif.Hybrid.PavingQuery
import Mathlib.Tactic.IntervalCases

/-!
# C66: examples and counterexamples
-/

namespace Verif.Hybrid

open Verif.Container Verif.Grid

/-- Three locations; location `l` has `l+1` variables. -/
def exGrid : HGrid ℕ := ⟨fun l => l < 3, fun l => l + 1, fun _ => ⟨Nat.succ_ne_zero _⟩⟩

def exScale : Scale ℚ exGrid := fun _ _ x => x

/-- The unit cell in location `0`. -/
def exOne : HPaving ℕ := [(0, Paving.init true)]

/-- The unit cells in locations `0` and `1`. -/
def exTwo : HPaving ℕ := [(0, Paving.init true), (1, Paving.init true)]

theorem exOne_wf : HWF exGrid exOne := by
  refine ⟨by unfold SortedKeys; decide, ?_, by decide⟩
  intro e he
  rcases List.mem_singleton.1 he with rfl
  exact Or.inl rfl

theorem exTwo_wf : HWF exGrid exTwo := by
  refine ⟨by unfold SortedKeys; decide, ?_, by decide⟩
  intro e he
  simp only [exTwo, List.mem_cons, List.not_mem_nil, or_false] at he
  rcases he with rfl | rfl <;> exact Or.inl rfl

/-- Calls, with a location created by the call. -/
example : (hRunAll exGrid [] [.adjoinCell 1 ⟨1, [true]⟩, .adjoinCell 0 ⟨0, [false]⟩, .get 2, .mince 1,
      .remove [(1, ⟨0, .leaf .true_⟩)]]).map (fun h => (h.map Prod.fst, hSize h, hIsEmpty h)) = some ([0, 1, 2], 5, false) := by
  decide +kernel

example : HIter.run 5 (HIter.begin (L := ℕ) [(0, Paving.init false), (1, ⟨0, .node .indeterminate (.leaf .true_) (.leaf .false_)⟩),
    (2, Paving.init true)]) = [(1, ⟨0, [false]⟩), (2, ⟨0, []⟩)] := by decide

/-- C66: `restrict` keeps the points of a location in which the argument is empty, if the argument has no entry for it
(hybrid_paving.cpp 89-93). -/
theorem C66_restrict_wrong : ∃ g h : HPaving ℕ, HWF exGrid g ∧ HWF exGrid h ∧ hRestrict exGrid g h = some h ∧
    hPoints ℚ exGrid g 0 = ∅ ∧ (hPoints ℚ exGrid h 0).Nonempty := by
  refine ⟨[], exOne, hwf_nil _, exOne_wf, rfl, by ext x; simp [hPoints], fun _ => 0, Paving.init true, by decide, ?_⟩
  rw [C19_init.2]
  intro j
  norm_num

/-- C66: `separated` answers `true` for a box which the paving covers and overlaps. -/
theorem C66_separated_covered : ∃ (h : HPaving ℕ) (b : Grid.Box ℚ (exGrid.dim 0)), HWF exGrid h ∧
    hSeparated exGrid (Ariadne.Sqrt.exactRounding ℚ) (1/8) exScale 0 b h = some true ∧
    hCovers exGrid (Ariadne.Sqrt.exactRounding ℚ) (1/8) exScale 0 b h = true ∧
    hOverlaps exGrid (Ariadne.Sqrt.exactRounding ℚ) (1/8) exScale 0 b h = true := by
  refine ⟨exOne, fun _ => (1/4, 3/4), exOne_wf, rfl, ?_, ?_⟩ <;> decide +kernel

/-- C66: `inside` answers `true` although the cells of the second location are outside its box. -/
theorem C66_inside_wrong : ∃ (h : HPaving ℕ) (bs : HBoxes ℚ exGrid), HWF exGrid h ∧ (∀ l, (bs l).isSome = true) ∧
    hInside exGrid (Ariadne.Sqrt.exactRounding ℚ) (1/8) exScale bs h = some true ∧
    ∃ b, bs 1 = some b ∧ ¬ hClosed exGrid exScale h 1 ⊆ b.interior := by
  refine ⟨exTwo, fun l => some fun _ => if l = 0 then (-1, 2) else (5, 6), exTwo_wf, fun _ => rfl, by decide +kernel, _, rfl, ?_⟩
  intro hc
  have h0 : (fun _ => 0 : Fin (exGrid.dim 1) → ℚ) ∈ hClosed exGrid exScale exTwo 1 := by
    refine ⟨Paving.init true, by decide, [], rfl, fun j => ?_⟩
    have e : (spaceBox (exScale 1) (Paving.init true).sub.cell.extent ((Paving.init true).sub.cell.word ++ []) j) = (0, 1) := by
      simp [spaceBox, toSpace, latticeBox, descend, primaryBox, primaryCorners, exScale, Paving.init, Paving.sub]
    rw [e]
    norm_num
  have := (hc h0 0).1
  norm_num at this

/-- C66: `subset` and `intersect` fail if the first paving is not empty in a location for which the second has no entry. -/
theorem C66_subset_fails : ∃ g h : HPaving ℕ, HWF exGrid g ∧ HWF exGrid h ∧ hSubset exGrid g h = none ∧
    hIntersect exGrid g h = none ∧ hIntersect exGrid h g = some false :=
  ⟨[], exOne, hwf_nil _, exOne_wf, rfl, rfl, rfl⟩

/-- C66: a constant lookup adds an entry. -/
theorem C66_lookup_inserts : ∃ h h' : HPaving ℕ, HWF exGrid h ∧ (hGet exGrid 1 h).map Prod.snd = some h' ∧
    hNontrivial 1 h = false ∧ hNontrivial 1 h' = true :=
  ⟨exOne, [(0, Paving.init true), (1, Paving.init false)], exOne_wf, by decide, by decide, by decide⟩

/-- The bounding box of a paving with cells in two places. -/
example : (hBoundingBox exGrid exScale [(0, ⟨1, .node .indeterminate (.node .indeterminate (.leaf .true_) (.leaf .false_))
    (.node .indeterminate (.leaf .true_) (.leaf .false_))⟩)] 0).map (fun b => b 0) = some (-1, 1/2) := by
  decide +kernel

end Verif.Hybrid
