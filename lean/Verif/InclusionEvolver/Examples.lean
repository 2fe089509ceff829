import Verif.InclusionEvolver.Orbit
import Verif.TaylorModel.Compose

/-!
# Examples and counterexamples for the evolver for differential inclusions
-/

namespace Verif.InclusionEvolver

open Ariadne (Ext Rounding)
open Verif.TaylorModel (exactRounding)

/-- A sort for the schedule. -/
def stepSort : List Entry → List Entry := List.insertionSort fun a b => b.step ≤ a.step

theorem stepSort_sorts : Sorts stepSort := fun l =>
  ⟨List.perm_insertionSort _ l, by
    haveI : Std.Total fun a b : Entry => b.step ≤ a.step := ⟨fun a b => le_total _ _⟩
    haveI : IsTrans Entry fun a b : Entry => b.step ≤ a.step := ⟨fun a b c h1 h2 => le_trans h2 h1⟩
    exact List.pairwise_insertionSort _ l⟩

theorem Round.of_best {sort : List Entry → List Entry} {s s' : State} {best : Kind} (hb : best ∈ toUse s)
    (h : nextStep (updateWithBest sort s best) = some s') : Round sort s s' := ⟨best, hb, _, h⟩

/-- If affine is the best of three approximations in the first step, then zero is not tried in the second step. -/
example : (nextStep (updateWithBest stepSort (init [.zero, .constant, .affine]) .affine)).map
    (fun s => (toUse s, s.schedule)) =
      some ([.constant, .affine], [⟨2, .zero⟩, ⟨1, .affine⟩, ⟨1, .constant⟩]) := by
  decide +kernel

/-- **C82** fails for overflow if an approximation is given often: after the first step its delay is 32, and the code
shifts a number of 32 bits by 32. -/
theorem C82_overflow : ∃ (as : List Kind) (s : State), Round stepSort (init as) s ∧ s.delay .affine = 32 := by
  have h : (nextStep (updateWithBest stepSort (init (.zero :: List.replicate 32 .affine)) .zero)).map
      (fun s => s.delay .affine) = some 32 := by decide +kernel
  obtain ⟨s, hs, hd⟩ := Option.map_eq_some_iff.1 h
  exact ⟨_, s, Round.of_best (by decide +kernel) hs, hd⟩

/-- **C82** fails for reached sets if the volumes of the rigorous approximations are infinite: the evolved set is
that of another approximation, and there is no reached set. -/
theorem C82_no_reach : ∃ cs : List (Cand ℕ ℕ ℚ), (∃ c ∈ cs, c.appr.rigorous = true) ∧
    (select .zero cs).2.2 = some 1 ∧ (select .zero cs).2.1 = none :=
  ⟨[⟨.zero, 0, 0, .pinf⟩, ⟨.affine, 1, 1, .fin 1⟩], ⟨_, List.mem_cons_self .., rfl⟩, by decide +kernel,
    by decide +kernel⟩

/-- An evolver for `x'=1` from a point, without errors. -/
def clock (h : ℚ) : Method ℚ Unit ℚ where
  stepSize _ := h
  reach _ _ _ _ := ()
  evolve _ _ t := t
  volume _ := .fin 0
  reduce _ f := f
  incorporate f := f
  sort := stepSort

theorem clock_sound (h : ℚ) (R : Rounding ℚ) :
    Sound R (clock h) (fun f => {f}) (fun _ _ => Set.univ) (fun t : ℚ => t) where
  evolve _ _ _ _ := rfl
  reach _ _ _ _ _ _ _ _ := Set.mem_univ _
  reduce _ _ := subset_rfl
  incorporate _ := subset_rfl

/-- **C83** fails for the final time: steps are not cut at the end, so that the final set need not have the solution at
the given time. -/
theorem C83_overshoot : ∃ (M : Method ℚ Unit ℚ) (r : Run ℚ Unit ℚ),
    Sound exactRounding M (fun f => ({f} : Set ℚ)) (fun _ _ => Set.univ) (fun t => t) ∧
      orbit exactRounding M 0 [.zero] (1 / 2) 0 2 = some r ∧ r.time = 1 ∧ (1 / 2 : ℚ) ∉ ({r.evolve} : Set ℚ) := by
  have h : (orbit exactRounding (clock 1) 0 [.zero] (1 / 2) 0 2).map (fun r => (r.time, r.evolve)) = some (1, 1) := by
    decide +kernel
  obtain ⟨r, hr, he⟩ := Option.map_eq_some_iff.1 h
  obtain ⟨h1, h2⟩ := Prod.mk.inj he
  refine ⟨clock 1, r, clock_sound 1 _, hr, h1, ?_⟩
  rw [h2]
  norm_num

/-- The hypotheses of `C83_orbit_partial` and `C83_terminates` are met by the clock. -/
example : ∃ r : Run ℚ Unit ℚ, orbit exactRounding (clock 1) 3 [.affine] 4 0 5 = some r :=
  C83_terminates stepSort_sorts (fun _ => rfl) 3 [.affine] (δ := 1) 0 (fun t f _ _ => le_rfl) zero_le_one
    (by simp [exactRounding])

/-- **C83** fails for termination: with two-bit numbers and steps of one, time stops at four. -/
theorem C83_infinite_loop (n : ℕ) :
    orbit (Ariadne.PBit.rounding 2 (by norm_num)) (clock 1) 0 [.zero] 8 0 n = none := by
  set R : Rounding ℚ := Ariadne.PBit.rounding 2 (by norm_num) with hR
  have d8 : R.down 8 = 8 := by decide +kernel
  have h4 : ∀ (r : Run ℚ Unit ℚ) n, r.time = 4 → orbitLoop R (clock 1) 0 8 n r = none := by
    intro r n hr
    refine C83_stuck ?_ ?_ n
    · rw [d8, hr]
      norm_num
    · intro f
      rw [hr]
      show R.down (4 + 1) = 4
      decide +kernel
  have step : ∀ t : ℚ, t < 8 → R.down (t + 1) = t + 1 →
      (∀ (r : Run ℚ Unit ℚ) n, r.time = t + 1 → orbitLoop R (clock 1) 0 8 n r = none) →
      ∀ (r : Run ℚ Unit ℚ) n, r.time = t → orbitLoop R (clock 1) 0 8 n r = none := by
    intro t ht hd hn r n hr
    cases n with
    | zero => rfl
    | succ n =>
      unfold orbitLoop
      rw [if_pos (by rw [d8, hr]; exact ht)]
      cases h : orbitStep R (clock 1) 0 r with
      | none => rfl
      | some r' =>
        rw [Option.bind_some]
        refine hn r' n ?_
        obtain ⟨first, g, f, s', -, -, -, -, rfl⟩ := orbitStep_some h
        show R.down (r.time + 1) = _
        rw [hr, hd]
  have h3 := step 3 (by norm_num) (by decide +kernel) (by norm_num; exact h4)
  have h2 := step 2 (by norm_num) (by decide +kernel) (by norm_num; exact h3)
  have h1 := step 1 (by norm_num) (by decide +kernel) (by norm_num; exact h2)
  have h0 := step 0 (by norm_num) (by decide +kernel) (by norm_num; exact h1)
  exact h0 _ n rfl

end Verif.InclusionEvolver
