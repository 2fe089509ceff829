import Verif.Flow.PicardProps
import Verif.TaylorModel.Compose
import Mathlib.Analysis.SpecialFunctions.ExpDeriv
import Mathlib.Analysis.Complex.ExponentialBounds

/-!
# The Picard integrators on the equation `x' = 1+x`

The initial state is zero, so that the solution is `exp(s)-1`.  Arithmetic is exact.
-/

namespace Verif.Flow

open Set Verif.TaylorModel Ariadne Verif.ConstraintSolver
open Verif.Expansion (Terms value monomial wrap degree)

/-- The composition with `1+x`, by the addition of a constant to a Taylor model.  Models with exponents too
large to be integrated are refused. -/
noncomputable def compOne (φ : Patch 1) : Option (Patch 1) :=
  if ∀ i, ∀ u ∈ (φ i).terms, u.1.sum < 65535 then
    some fun i => acc exactRounding 2 (φ i) (Num.exact 1)
  else none

/-- The models of constant numbers. -/
noncomputable def constPatch (c e : ℝ) : Patch 1 := fun _ => ⟨[([0, 0], c)], e⟩

theorem acc_index {r : TM ℝ} {c : Num ℝ} {u : List ℕ × ℝ} (hu : u ∈ (acc exactRounding 2 r c).terms) :
    u.1 = [0, 0] ∨ ∃ v ∈ r.terms, v.1 = u.1 := by
  unfold acc at hu
  split_ifs at hu with h
  · exact Or.inr ⟨u, hu, rfl⟩
  · split at hu
    · rcases List.mem_append.1 hu with h | h
      · exact Or.inr ⟨u, h, rfl⟩
      · rw [List.mem_singleton] at h
        exact Or.inl (by rw [h]; rfl)
    · rename_i t ht
      split_ifs at hu
      · rcases List.mem_append.1 hu with h | h
        · exact Or.inr ⟨u, h, rfl⟩
        · rw [List.mem_singleton] at h
          exact Or.inl (by rw [h]; rfl)
      · rcases List.mem_append.1 hu with h | h
        · exact Or.inr ⟨u, List.mem_of_mem_dropLast h, rfl⟩
        · rw [List.mem_singleton] at h
          exact Or.inr ⟨t, List.mem_of_getLast? ht, by rw [h]⟩

theorem regular_one_add : Regular (n := 1) (fun _ x i => 1 + x i) :=
  Regular.of_contDiff (contDiff_const.add contDiff_snd)

/-- The initial value problem `x' = 1+x`, `x(0) = 0` for a step `h`. -/
noncomputable def problemOne (h : ℝ) (hh : 0 < h) : Problem 1 2 Unit where
  k := 1
  t := 0
  h := h
  state := fun _ _ => 0
  param := fun _ => ()
  f := fun _ _ x i => 1 + x i
  comp := compOne
  φ₀ := fun _ => ⟨[], 0⟩
  k_lt := by norm_num
  h_pos := hh
  state_time := fun _ _ => rfl
  param_time := fun _ _ => rfl
  comp_in := by
    intro φ ψ hφ e z hz y hy i
    unfold compOne at e
    split_ifs at e with h
    cases e
    have := C24_acc_exact exactRounding 2 (φ i) (fun u hu => ?_) _ (encloses_point (hy i)) 1 trivial z hz
    · simpa using this
    · exact (h i u hu).trans (by norm_num)
  comp_wf := by
    intro φ ψ hφ e i
    unfold compOne at e
    split_ifs at e with h
    cases e
    refine ⟨fun u hu => ?_, fun u hu => ?_⟩
    · rcases acc_index hu with h1 | ⟨v, hv, h1⟩
      · rw [h1]; rfl
      · rw [← h1]; exact hφ i v hv
    · rcases acc_index hu with h1 | ⟨v, hv, h1⟩
      · rw [h1]; norm_num
      · rw [← h1]
        have h2 := h i v hv
        have h3 : v.1.getD 1 0 ≤ v.1.sum := by
          rw [List.getD_eq_getElem?_getD]
          cases h4 : v.1[1]? with
          | none => simp
          | some y => simpa using List.le_sum_of_mem (List.mem_of_getElem? h4)
        omega
  φ₀_wf := by intro i u hu; simp at hu
  φ₀_in := by intro z hz i; simp [value]
  reg := fun _ => regular_one_add

/-- The models of multiples of time. -/
noncomputable def linPatch (a e : ℝ) : Patch 1 := fun _ => ⟨[([0, 1], a)], e⟩

theorem accum_exact (u ml e : ℝ) : accum exactRounding u ml e = e + (u + ml) / 2 := rfl

theorem picard_const {h : ℝ} (hh : 0 < h) (c e : ℝ) :
    picard exactRounding (gradedSweeper 1) 1 h compOne (fun _ => ⟨[], 0⟩) (constPatch c e) =
      some (linPatch ((c + 1) * h) (e * h)) := by
  have h0 : compOne (constPatch c e) = some (constPatch (c + 1) e) := by
    unfold compOne
    rw [if_pos (by intro i u hu; simp [constPatch] at hu; simp [hu])]
    congr 1
    funext i
    simp [constPatch, acc, Num.exact, degree, wrap, addErrB, accum_exact, Num.value]
    simp [exactRounding]
  rw [picard, h0, Option.map_some]
  congr 1
  funext i
  have h1 : max (-h) h = h := max_eq_right (by linarith)
  simp [integrate, constPatch, linPatch, antidifferentiate, antidifferentiate.loop, divErr, wrap, scal,
    sparseApply1, apply1, mulErrB, accum_exact, add, combine, apply2F, addOp, sweep, sweepLoop, gradedSweeper,
    degree, Num.exact, Num.mag, Num.value]
  simp [exactRounding, h1]

theorem picard_lin {h : ℝ} (hh : 0 < h) (a e : ℝ) :
    picard exactRounding (gradedSweeper 1) 1 h compOne (fun _ => ⟨[], 0⟩) (linPatch a e) =
      some (linPatch h (e * h + |a| * h / 2)) := by
  have h0 : compOne (linPatch a e) = some fun _ => ⟨[([0, 1], a), ([0, 0], 1)], e⟩ := by
    unfold compOne
    rw [if_pos (by intro i u hu; simp [linPatch] at hu; simp [hu])]
    congr 1
    funext i
    simp [linPatch, acc, Num.exact, degree, wrap, Num.value, Num.error]
    simp [exactRounding]
  rw [picard, h0, Option.map_some]
  congr 1
  funext i
  have h1 : max (-h) h = h := max_eq_right (by linarith)
  simp [integrate, linPatch, antidifferentiate, antidifferentiate.loop, divErr, wrap, scal,
    sparseApply1, apply1, mulErrB, accum_exact, add, combine, apply2F, addOp, sweep, sweepLoop, gradedSweeper,
    degree, Num.exact, Num.mag, Num.value]
  simp [exactRounding, h1]
  rw [abs_div, abs_of_pos hh, abs_two]
  ring

theorem exp_solution (a b : ℝ) : IsSolution (n := 1) (fun _ x i => 1 + x i) a b (fun s _ => Real.exp s - 1) := by
  intro s _
  refine hasDerivWithinAt_pi.2 fun i => ?_
  have := ((Real.hasDerivAt_exp s).sub_const 1).hasDerivWithinAt (s := Icc a b)
  refine this.congr_deriv ?_
  ring

/-- The graded integrator does not validate: for `x' = 1+x` from zero, with a unit step, order one and the
box `{-1}`, the errors of the two iterates compared are both zero, and the result is `s ± 1/2`; the solution
at time one is `exp(1)-1`. -/
theorem C60_graded_unvalidated :
    ∃ φ, gradedTaylorPicard exactRounding (gradedSweeper 1) 1 1 compOne (fun _ => ⟨[], 0⟩) 1 (1 / 50) 1 1
      (constPatch (-1) 0) = .ok φ ∧ ¬ (problemOne 1 one_pos).Sound φ := by
  refine ⟨linPatch 1 (1 / 2), ?_, fun H => ?_⟩
  · have h0 : compOne (fun _ => ⟨[], 0⟩) ≠ none := by simp [compOne]
    obtain ⟨ψ, hψ⟩ := Option.ne_none_iff_exists'.1 h0
    simp [gradedTaylorPicard, hψ, gradedLoop, picard_const one_pos, picard_lin one_pos, improveLoop, errorsRefine,
      improved, errorAbove, linPatch]
    norm_num
  · have h1 := (H [0, 1] ⟨rfl, by simp⟩ (by simp [problemOne])).2 (fun s _ => Real.exp s - 1)
      (by funext i; simp [problemOne]) (exp_solution _ _) 0
    simp [problemOne, Problem.time, linPatch, value, monomial] at h1
    have h2 := Real.exp_one_gt_d9
    have h3 := (abs_le.1 h1).2
    norm_num at h3
    linarith

/-- The claims about the Picard integrator from a flow bound, on the same problem from the box `[0,2]`. -/
example : ∃ φ, taylorPicard exactRounding (gradedSweeper 1) 1 1 compOne (fun _ => ⟨[], 0⟩) 1 0 1
    (constPatch 1 1) = .ok φ ∧ (problemOne 1 one_pos).Sound φ := by
  have e : taylorPicard exactRounding (gradedSweeper 1) 1 1 compOne (fun _ => ⟨[], 0⟩) 1 0 1
      (constPatch 1 1) = .ok (linPatch 2 1) := by
    have h0 : compOne (fun _ => ⟨[], 0⟩) ≠ none := by simp [compOne]
    obtain ⟨ψ, hψ⟩ := Option.ne_none_iff_exists'.1 h0
    simp [taylorPicard, hψ, picardLoop, picard_const one_pos, errorAbove, linPatch, constPatch]
    norm_num
  refine ⟨_, e, (C60_taylor_picard exactRounding (gradedSweeper 1) (problemOne 1 one_pos) trivial
    (D := fun _ => ⟨.fin 0, .fin 0⟩) (B := fun _ => ⟨.fin 0, .fin 2⟩) (fun z _ i => ⟨le_rfl, le_rfl⟩)
    (fun z _ => boundsFlow_of_exists regular_one_add fun x₀ hx₀ => ?_)
    (fun i u hu => by simp [constPatch] at hu; simp [hu]) (fun z hz y hy i => ?_) e).1⟩
  · refine ⟨fun s _ => Real.exp s - 1, ?_, exp_solution _ _, fun s hs i => ?_⟩
    · funext i
      have h1 : (0 : ℝ) ≤ x₀ i := (hx₀ i).1
      have h2 : x₀ i ≤ (0 : ℝ) := (hx₀ i).2
      simp [problemOne]
      linarith
    · have h1 : (0 : ℝ) ≤ s := hs.1
      have h2 : s ≤ 1 := by simpa [problemOne] using hs.2
      have h3 := Real.add_one_le_exp s
      have h4 := Real.exp_le_exp.2 h2
      have h5 := Real.exp_one_lt_d9
      exact ⟨show (0 : ℝ) ≤ _ by linarith, show _ ≤ (2 : ℝ) by linarith⟩
  · have h1 : (0 : ℝ) ≤ y i := (hy i).1
    have h2 : y i ≤ (2 : ℝ) := (hy i).2
    simp [constPatch, value, monomial]
    obtain ⟨a, b, rfl⟩ := List.length_eq_two.1 hz.1
    simp
    exact abs_le.2 ⟨by linarith, by linarith⟩

/-- The claim about validation, with the step `1/2` from the box `[-1,1]`, not known to be a bound. -/
example : ∃ φ, gradedTaylorPicard exactRounding (gradedSweeper 1) 1 (1 / 2) compOne (fun _ => ⟨[], 0⟩) 1 (1 / 5) 1 1
    (constPatch 0 1) = .ok φ ∧ (problemOne (1 / 2) (by norm_num)).Sound φ := by
  have hh : (0 : ℝ) < 1 / 2 := by norm_num
  have e : gradedTaylorPicard exactRounding (gradedSweeper 1) 1 (1 / 2) compOne (fun _ => ⟨[], 0⟩) 1 (1 / 5) 1 1
      (constPatch 0 1) = .ok (linPatch (1 / 2) (5 / 16)) := by
    have h0 : compOne (fun _ => ⟨[], 0⟩) ≠ none := by simp [compOne]
    obtain ⟨ψ, hψ⟩ := Option.ne_none_iff_exists'.1 h0
    rw [gradedTaylorPicard, hψ]
    simp only [gradedLoop, picard_const hh, picard_lin hh, improveLoop]
    simp only [errorsRefine, improved, errorAbove, linPatch, List.finRange_succ, List.finRange_zero, List.map_nil,
      List.all_cons, List.all_nil, List.any_cons, List.any_nil]
    norm_num [abs_of_pos]
    intro h
    norm_num [linPatch] at h
  refine ⟨_, e, (C60_graded_validated_partial exactRounding (gradedSweeper 1) (problemOne (1 / 2) hh) trivial
    (fun i u hu => by simp [constPatch] at hu; simp [hu]) e fun φ₁ φ₂ e1 e2 i => ?_).1⟩
  have h1 : φ₁ = linPatch ((0 + 1) * (1 / 2)) (1 * (1 / 2)) := by
    have : gradedLoop exactRounding (gradedSweeper 1) 1 (1 / 2) compOne (fun _ => ⟨[], 0⟩) 1 (constPatch 0 1) =
      some φ₁ := e1
    simp only [gradedLoop, picard_const hh, Option.some.injEq] at this
    exact this.symm
  subst h1
  have h2 : picard exactRounding (gradedSweeper 1) 1 (1 / 2) compOne (fun _ => ⟨[], 0⟩) _ = some φ₂ := e2
  rw [picard_lin hh, Option.some.injEq] at h2
  subst h2
  simp [linPatch]

end Verif.Flow
