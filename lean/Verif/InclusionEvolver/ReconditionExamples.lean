import Verif.InclusionEvolver.Recondition
import Mathlib.Tactic.NormNum

/-!
# Reconditioning: examples and lost points
-/

namespace Verif.InclusionEvolver

open Ariadne (Rounding)
open Ariadne.Rounding
open Verif.Expansion Verif.TaylorModel Verif.FunctionPatch

/-- The identity on the interval from minus one to one, with error one eighth. -/
def inflated : VPatch ℚ := ⟨[(-1, 1)], [⟨[([1], 1)], 1 / 8⟩]⟩

theorem inflated_point : Point inflated [9 / 8] := by
  refine ⟨[1], ⟨rfl, by simp⟩, ?_⟩
  refine List.Forall₂.cons ?_ List.Forall₂.nil
  norm_num [value, monomial, Terms]

/-- The hypotheses of `C84_incorporate_partial` hold for this set, and the error becomes a parameter. -/
example : ∃ g, incorporate exactRounding trivialSweeper inflated = some g ∧ (∀ t ∈ g.models, t.err = 0) ∧
    Point g [9 / 8] := by
  obtain ⟨g, h1, h2, h3⟩ := C84_incorporate_partial exactRounding trivialSweeper inflated
    (by
      intro t ht
      obtain rfl := List.mem_singleton.1 ht
      exact ⟨by intro u hu; obtain rfl := List.mem_singleton.1 hu; rfl, List.pairwise_singleton _ _⟩)
    (by intro i hi; obtain rfl := List.mem_singleton.1 hi; norm_num)
    (by intro t ht; obtain rfl := List.mem_singleton.1 ht; exact ⟨trivial, by norm_num⟩)
    (fun _ _ _ _ _ => rfl) (fun _ _ _ _ => rfl)
  exact ⟨g, h1, h2, h3 _ inflated_point⟩

/-- **C84** (a point is lost).  If the sweeper discards terms that are smaller than one quarter, then the term for the
error is discarded, which adds the error to the error of the sum, and that is set to zero (382).  The point is lost. -/
theorem C84_incorporate_swept : ∃ g, incorporate exactRounding (thresholdSweeper (1 / 4)) inflated = some g ∧
    Point inflated [9 / 8] ∧ ¬ Point g [9 / 8] := by
  have h : incorporate exactRounding (thresholdSweeper (1 / 4)) inflated =
      some ⟨[(-1, 1), (-(1 / 8), 1 / 8)], [⟨[([1, 0], 1)], 0⟩]⟩ := by
    have h1 : ((incorporate exactRounding (thresholdSweeper (1 / 4)) inflated).map fun g => g.dom) =
        some [(-1, 1), (-(1 / 8), 1 / 8)] := by decide +kernel
    have h2 : ((incorporate exactRounding (thresholdSweeper (1 / 4)) inflated).map fun g =>
        g.models.map fun t => t.terms) = some [[([1, 0], 1)]] := by decide +kernel
    have h3 : ((incorporate exactRounding (thresholdSweeper (1 / 4)) inflated).map fun g =>
        g.models.map fun t => t.err) = some [0] := by decide +kernel
    obtain ⟨⟨d, ms⟩, hg, he⟩ := Option.map_eq_some_iff.1 h1
    rw [hg] at h2 h3 ⊢
    simp only at he
    subst he
    simp only [Option.map_some, Option.some.injEq] at h2 h3
    match ms, h2, h3 with
    | [⟨ts, e⟩], h2, h3 =>
      simp only [List.map_cons, List.map_nil, List.cons.injEq, and_true] at h2 h3
      subst h2 h3
      rfl
  refine ⟨_, h, inflated_point, ?_⟩
  rintro ⟨z, ⟨hz, hb⟩, hp⟩
  obtain ⟨hp, -⟩ := List.forall₂_cons.1 hp
  match z, hz with
  | [a, b], _ =>
    have ha := hb a (by simp)
    norm_num [value, monomial, Terms] at hp
    have : a = 9 / 8 := by linarith [sub_eq_zero.1 hp]
    rw [this] at ha
    norm_num at ha

/-- Two parameters, of which the second has little effect. -/
def twoParameters : VPatch ℚ := ⟨[(-1, 1), (-1, 1)], [⟨[([0, 1], 1 / 8), ([1, 0], 1)], 0⟩]⟩

/-- The hypotheses of `C84_reduce_points_partial` hold for this set, and one parameter is left. -/
example : ∃ g, reduce exactRounding trivialSweeper [1, 0] 1 twoParameters = some g ∧ g.dom.length = 1 ∧
    Point g [9 / 8] := by
  have ho : IsOrder exactRounding twoParameters [1, 0] := by
    refine ⟨?_, ?_⟩
    · exact List.Perm.swap 0 1 []
    · refine List.Pairwise.cons ?_ (List.pairwise_singleton _ _)
      intro k hk
      obtain rfl := List.mem_singleton.1 hk
      norm_num [totalEffect, effect, twoParameters, exactRounding]
  have hf : twoParameters.Ok := by
    intro t ht
    obtain rfl := List.mem_singleton.1 ht
    refine ⟨?_, ?_⟩
    · intro u hu
      simp only [List.mem_cons, List.not_mem_nil, or_false] at hu
      rcases hu with rfl | rfl <;> rfl
    · refine List.Pairwise.cons ?_ (List.pairwise_singleton _ _)
      intro k hk
      obtain rfl := List.mem_singleton.1 hk
      rfl
  have hd : ∀ i ∈ twoParameters.dom, i.1 < i.2 := by
    intro i hi
    simp only [twoParameters, List.mem_cons, List.not_mem_nil, or_false, or_self] at hi
    rw [hi]
    norm_num
  have hM : twoParameters.DegLe 1 := by
    intro t ht
    obtain rfl := List.mem_singleton.1 ht
    intro u hu
    simp only [List.mem_cons, List.not_mem_nil, or_false] at hu
    rcases hu with rfl | rfl <;> decide
  refine C84_reduce_points_partial (fun _ => trivial) trivialSweeper twoParameters hf hd hM (by norm_num) ho 1 _ ?_
  refine ⟨[1, 1], ⟨rfl, by simp⟩, ?_⟩
  refine List.Forall₂.cons ?_ List.Forall₂.nil
  norm_num [value, monomial, Terms]

end Verif.InclusionEvolver
