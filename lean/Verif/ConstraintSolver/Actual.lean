import Verif.ConstraintSolver.Dual
import Verif.ConstraintSolver.Newton

/-!
# C56: the feasibility test with the optimiser of the code

The functions `compute_tz` and `feasibility_step` with seven arguments called by `feasible` have empty bodies
(nonlinear_programming.hpp 247-250).  The violation `t` therefore stays zero, `t>=TERR` holds at the first step since
`TERR` is negative (constraint_solver.cpp 106, 156), and the point tried is the midpoint of the domain (142).
-/

namespace Verif.ConstraintSolver

open Ariadne Ariadne.Logical
open Ariadne.Ext (fin)

variable {n m : ℕ} {K : Type*} [Field K] [LinearOrder K] [IsStrictOrderedRing K]

/-- The midpoint of the domain (constraint_solver.cpp 142). -/
def centre (R : XRounding K) (d : Box n K) : Fin n → K := fun i => num (Bounds.value R (d i))

/-- The loop of constraint_solver.cpp 153-162 with the steps of nonlinear_programming.hpp 247-250. -/
def midOpt (R : XRounding K) (d : Box n K) : OptResult n m K := .hit (centre R d)

/-- **C56**: the feasibility test always returns after one step, and nothing but one interval evaluation and one
point decides: the answer is false if and only if the interval evaluation is disjoint from the codomain, and true
if and only if it is not, and the midpoint is accepted. -/
theorem C56_feasible_actual (R : XRounding K) {txg : Box n K → (Fin ((m + n) * 2) → K) → Fn n K}
    {H : Box n K → (Fin ((m + n) * 2) → K) → Contractor n K} {F : Fin m → Fn n K} {c : Fin m → Bounds K} (hm : m ≠ 0)
    (fuel : ℕ) (d : Box n K) :
    ∃ r, feasible R (midOpt R) txg H F c (fuel + 1) d = some r ∧
      (r.1 = .false_ ↔ ∃ i, disjoint (apply (F i) d) (c i) = true) ∧
      (r.1 = .true_ ↔ (∀ i, disjoint (apply (F i) d) (c i) = false) ∧
        checkFeasibility d F c (centre R d) = .true_) ∧
      (r.1 = .true_ ∨ r.1 = .false_ ∨ r.1 = .indeterminate) := by
  rw [feasible, if_neg hm]
  by_cases h1 : ((List.finRange m).any fun i => disjoint (apply (F i) d) (c i)) = true
  · rw [if_pos h1]
    obtain ⟨i, -, hi⟩ := List.any_eq_true.1 h1
    refine ⟨_, rfl, ⟨fun _ => ⟨i, hi⟩, fun _ => rfl⟩, ⟨fun h => (by cases h), fun h => ?_⟩, Or.inr (Or.inl rfl)⟩
    rw [h.1 i] at hi
    cases hi
  · rw [if_neg h1]
    have h2 : ∀ i, disjoint (apply (F i) d) (c i) = false := fun i => by
      rw [Bool.not_eq_true, List.any_eq_false] at h1
      simpa using h1 i (List.mem_finRange i)
    have h3 : ¬∃ i, disjoint (apply (F i) d) (c i) = true := fun ⟨i, hi⟩ => by rw [h2 i] at hi; cases hi
    simp only [midOpt]
    by_cases h4 : checkFeasibility d F c (centre R d) = .true_
    · rw [if_pos h4]
      exact ⟨_, rfl, ⟨fun h => (by cases h), fun h => absurd h h3⟩, ⟨fun _ => ⟨h2, h4⟩, fun _ => rfl⟩, Or.inl rfl⟩
    · rw [if_neg h4]
      exact ⟨_, rfl, ⟨fun h => (by cases h), fun h => absurd h h3⟩, ⟨fun h => (by cases h), fun h => absurd h.2 h4⟩,
        Or.inr (Or.inr rfl)⟩

theorem feasible_mid (R : XRounding K) {txg txg' : Box n K → (Fin ((m + n) * 2) → K) → Fn n K}
    {H H' : Box n K → (Fin ((m + n) * 2) → K) → Contractor n K} {F : Fin m → Fn n K} {c : Fin m → Bounds K}
    (fuel : ℕ) (d : Box n K) :
    feasible R (midOpt R) txg H F c fuel d = feasible R (midOpt R) txg' H' F c fuel d := by
  cases fuel <;> rfl

/-- **C56**: with the optimiser of the code, the answers of the feasibility test are right without any hypothesis on
contractors or multipliers: true means that the midpoint of the domain is mapped strictly inside the codomain, false
that no point is mapped into it. -/
theorem C56_feasible_midpoint {R : Rounding K} {txg : Box n K → (Fin ((m + n) * 2) → K) → Fn n K}
    {H : Box n K → (Fin ((m + n) * 2) → K) → Contractor n K} {F : Fin m → Fn n K} {f : Fin m → (Fin n → K) → K}
    {c : Fin m → Bounds K} (hF : ∀ j p, EnclosesAt (F j) (f j p) p) (hc : ∀ j, (c j).NoNaN)
    (fuel : ℕ) (d : Box n K) (r : LV × Option (Fin n → K)) (hd : GoodBox R d)
    (h : feasible (.ofRounding R) (midOpt (.ofRounding R)) txg H F c fuel d = some r) :
    (r.1 = .true_ → Mem d (centre (.ofRounding R) d) ∧ ∀ j, Strictly (c j) (f j (centre (.ofRounding R) d))) ∧
    (r.1 = .false_ → ¬∃ p, Feasible d f c p) := by
  rw [feasible_mid (txg' := txg) (H' := fun _ _ B => B)] at h
  have hD : DualSound R (midOpt (.ofRounding R)) txg (fun _ _ B => B) f c :=
    ⟨fun _ _ _ _ h => by simp [midOpt] at h, fun _ _ _ _ h => by simp [midOpt] at h, fun _ _ h _ => h.rep⟩
  obtain ⟨-, h2, h3⟩ := C56_feasible_strict hF hc hD fuel d r hd h
  refine ⟨fun ht => h3 ht _ ?_, h2⟩
  cases fuel with
  | zero => simp [feasible] at h
  | succ fuel =>
    rw [feasible] at h
    split_ifs at h with h4 h5
    · cases h
      cases ht
    · simp only [midOpt] at h
      split_ifs at h with h6
      · cases h
        rfl
      · cases h
        cases ht

/-- **C56**: the test fails to decide simple problems, however large the number of steps: `0 ≤ x ≤ 1` on `[0,4]` is
feasible, and `x-x = 1` on `[0,4]` is not, but the answer is indeterminate for both: the domain is never split. -/
theorem C56_feasible_incomplete (fuel : ℕ) :
    (∀ txg H, (feasible (m := 1) (.ofRounding (TaylorModel.exactRounding : Rounding ℚ)) (midOpt (.ofRounding TaylorModel.exactRounding))
        txg H (fun _ B => B 0) (fun _ => ⟨fin 0, fin 1⟩) (fuel + 1) (fun _ : Fin 1 => ⟨fin 0, fin 4⟩)).map Prod.fst =
      some .indeterminate) ∧
    Feasible (n := 1) (m := 1) (K := ℚ) (fun _ => ⟨fin 0, fin 4⟩) (fun _ p => p 0) (fun _ => ⟨fin 0, fin 1⟩) (fun _ => 0) ∧
    (∀ txg H, (feasible (m := 1) (.ofRounding (TaylorModel.exactRounding : Rounding ℚ)) (midOpt (.ofRounding TaylorModel.exactRounding))
        txg H (fun _ B => Bounds.sub (.ofRounding TaylorModel.exactRounding) (B 0) (B 0)) (fun _ => ⟨fin 1, fin 1⟩)
        (fuel + 1) (fun _ : Fin 1 => ⟨fin 0, fin 4⟩)).map Prod.fst = some .indeterminate) ∧
    ¬∃ p, Feasible (n := 1) (m := 1) (K := ℚ) (fun _ => ⟨fin 0, fin 4⟩) (fun _ p => p 0 - p 0) (fun _ => ⟨fin 1, fin 1⟩) p := by
  refine ⟨fun txg H => ?_, ⟨fun _ => ⟨?_, ?_⟩, fun _ => ⟨?_, ?_⟩⟩, fun txg H => ?_, ?_⟩
  · rw [feasible, if_neg one_ne_zero, if_neg (by decide +kernel)]
    simp only [midOpt]
    rw [if_neg (by decide +kernel)]
    rfl
  · norm_num [IsLower]
  · norm_num [IsUpper]
  · norm_num [IsLower]
  · norm_num [IsUpper]
  · rw [feasible, if_neg one_ne_zero, if_neg (by decide +kernel)]
    simp only [midOpt]
    rw [if_neg (by decide +kernel)]
    rfl
  · rintro ⟨p, -, h⟩
    have := (h 0).1
    norm_num [IsLower] at this

/-- A case with the answer true: `0 ≤ x ≤ 3` on `[0,4]`. -/
example : (feasible (m := 1) (.ofRounding (TaylorModel.exactRounding : Rounding ℚ)) (midOpt (.ofRounding TaylorModel.exactRounding))
    (fun _ _ _ => ⟨.ninf, .pinf⟩) (fun _ _ B => B) (fun _ B => B 0) (fun _ => ⟨fin 0, fin 3⟩) 1
    (fun _ : Fin 1 => ⟨fin 0, fin 4⟩)).map Prod.fst = some .true_ := by
  decide +kernel

/-- A case with the answer false: `5 ≤ x ≤ 6` on `[0,4]`. -/
example : (feasible (m := 1) (.ofRounding (TaylorModel.exactRounding : Rounding ℚ)) (midOpt (.ofRounding TaylorModel.exactRounding))
    (fun _ _ _ => ⟨.ninf, .pinf⟩) (fun _ _ B => B) (fun _ B => B 0) (fun _ => ⟨fin 5, fin 6⟩) 1
    (fun _ : Fin 1 => ⟨fin 0, fin 4⟩)).map Prod.fst = some .false_ := by
  decide +kernel

end Verif.ConstraintSolver
