import Verif.Affine.Convert
import Verif.TaylorModel.Compose
import Mathlib.Tactic.FinCases

/-!
# C78: counterexamples, and cases which meet the hypotheses
-/

namespace Verif.Affine

open Ariadne (Rounding)
open Verif.TaylorModel
open Verif.Expansion (Fits)

/-- The models with coefficients given by a list. -/
def mk (n : ℕ) (c : ℚ) (g : List ℚ) (e : ℚ) : AM n ℚ := ⟨c, fun i => g.getD i.val 0, e⟩

/-- Decidable equality of models, for comparisons with literals. -/
def same {n : ℕ} (a : Option (AM n ℚ)) (b : AM n ℚ) : Bool :=
  match a with
  | some a => a.val = b.val && a.err = b.err && (List.finRange n).all fun i => a.grad i = b.grad i
  | none => false

theorem same_eq {n : ℕ} {a : Option (AM n ℚ)} {b : AM n ℚ} (h : same a b = true) : a = some b := by
  cases a with
  | none => cases h
  | some a =>
    simp only [same, Bool.and_eq_true, decide_eq_true_eq, List.all_eq_true] at h
    obtain ⟨⟨h1, h2⟩, h3⟩ := h
    obtain ⟨v, g, e⟩ := a
    obtain ⟨v', g', e'⟩ := b
    simp only at h1 h2 h3
    obtain rfl : g = g' := funext fun i => h3 i (List.mem_finRange i)
    rw [h1, h2]

theorem unit_one : Unit (fun _ : Fin 1 => (1 : ℚ)) := fun _ => by simp
theorem unit_neg : Unit (fun _ : Fin 1 => (-1 : ℚ)) := fun _ => by simp

/-! ## Counterexamples -/

/-- **C78** fails for adding a negative number: without any rounding, the coordinate plus `-1` has error `-1`, so it
encloses no function. -/
theorem C78_add_number_counterexample : ∃ (a : AM 1 ℚ) (f : (Fin 1 → ℚ) → ℚ), Encl a f ∧
    (addNum exactRounding a (Num.exact (-1))).err = -1 ∧
    ¬ Encl (addNum exactRounding a (Num.exact (-1))) fun z => f z + -1 := by
  have e : (addNum exactRounding (coordinate 1 0 : AM 1 ℚ) (Num.exact (-1))).err = -1 := by decide +kernel
  refine ⟨coordinate 1 0, fun z => z 0, C78_coordinate 0, e, fun h => ?_⟩
  have := h.err_nonneg
  rw [e] at this
  norm_num at this

/-- **C78** fails for scaling: without any rounding, the scaling of the unit interval onto `[-3,1]` has error `-1`, and
its range is computed as `[-2,0]`. -/
theorem C78_scaling_counterexample : scaling exactRounding 1 0 (-3 : ℚ) 1 = some (mk 1 (-1) [2] (-1)) ∧
    range exactRounding (mk 1 (-1) [2] (-1)) = some ⟨-2, 0⟩ := by
  refine ⟨same_eq (by decide +kernel), ?_⟩
  have : (range exactRounding (mk 1 (-1) [2] (-1))).map (fun b => (b.l, b.u)) = some ((-2, 0) : ℚ × ℚ) := by decide +kernel
  obtain ⟨⟨l, u⟩, hb, e⟩ := Option.map_eq_some_iff.1 this
  rw [hb]
  simp only [Prod.mk.injEq] at e
  rw [e.1, e.2]

/-- **C78** fails for the product: without any rounding, one times a function with values in `[-2,2]` is enclosed in
`[-1,1]`. -/
theorem C78_mul_counterexample : ∃ (a b r : AM 1 ℚ) (f g : (Fin 1 → ℚ) → ℚ), Encl a f ∧ Encl b g ∧
    mul exactRounding a b = some r ∧ ¬ Encl r fun z => f z * g z := by
  refine ⟨mk 1 1 [0] 0, mk 1 0 [0] 2, mk 1 0 [0] 1, fun _ => 1, fun _ => 2, ?_, ?_, same_eq (by decide +kernel), ?_⟩
  · intro z _; simp [mk, AM.at]
  · intro z _; simp [mk, AM.at]
  · intro h
    have := h _ unit_one
    norm_num [mk, AM.at] at this

/-- **C78** fails for multiples by intervals: with two-bit numbers, one times a number in `[1,3/2]` is claimed to be
within `1/4` of `1`. -/
theorem C78_scale_counterexample : ∃ (R : Rounding ℚ) (a r : AM 1 ℚ) (f : (Fin 1 → ℚ) → ℚ) (c : Num ℚ) (y : ℚ),
    R.Rep c.l ∧ R.Rep c.u ∧ Encl a f ∧ c.Has y ∧ mulNum R a c = some r ∧ ¬ Encl r fun z => y * f z := by
  refine ⟨Ariadne.PBit.rounding 2 (by norm_num), mk 1 1 [0] 0, mk 1 1 [0] (1 / 4), fun _ => 1, ⟨1, 3 / 2⟩, 3 / 2,
    ⟨1, 0, by norm_num, by norm_num⟩, ⟨3, -1, by norm_num, by norm_num⟩, ?_, ⟨by norm_num, by norm_num⟩,
    same_eq (by decide +kernel), ?_⟩
  · intro z _; simp [mk, AM.at]
  · intro h
    have := h _ unit_one
    norm_num [mk, AM.at, abs_le] at this

/-- **C78** fails for composition: without any rounding, the composition of `x-1` and the model `2+s±3` is `1+s±2`. -/
theorem C78_compose_counterexample : ∃ (F : (Fin 1 → ℚ) → ℚ) (f : (Fin 1 → ℚ) → Num ℚ)
    (df : (Fin 1 → Num ℚ) → Fin 1 → Num ℚ) (g : Fin 1 → AM 1 ℚ) (G : Fin 1 → (Fin 1 → ℚ) → ℚ) (r : AM 1 ℚ),
    (∀ c, f c = Num.exact (F c)) ∧
    (∀ (d : Fin 1 → Num ℚ) p c, (∀ i, (d i).Has (p i)) → (∀ i, (d i).Has (c i)) →
      ∃ q : Fin 1 → ℚ, (∀ i, (df d i).Has (q i)) ∧ F p = F c + ∑ i, q i * (p i - c i)) ∧
    (∀ i, Encl (g i) (G i)) ∧ compose exactRounding f df g = some r ∧ ¬ Encl r fun z => F fun i => G i z := by
  refine ⟨fun x => x 0 - 1, fun x => Num.exact (x 0 - 1), fun _ _ => Num.exact 1, fun _ => mk 1 2 [1] 3,
    fun _ z => 2 + z 0 + 3, mk 1 1 [1] 2, fun _ => rfl, ?_, ?_, same_eq (by decide +kernel), ?_⟩
  · intro d p c _ _
    exact ⟨fun _ => 1, fun _ => ⟨le_rfl, le_rfl⟩, by simp⟩
  · intro i z _
    simp [mk, AM.at]
  · intro h
    have := h _ unit_one
    norm_num [mk, AM.at, abs_le] at this

/-- **C78** fails for composition: the identity composed with the model `2+s` without error throws an exception,
because the error of `(2+s)-2` is computed as `-2`. -/
theorem C78_compose_throws : compose exactRounding (fun x : Fin 1 → ℚ => Num.exact (x 0)) (fun _ _ => Num.exact 1)
    (fun _ => mk 1 2 [1] 0) = none := by
  have : (compose exactRounding (fun x : Fin 1 → ℚ => Num.exact (x 0)) (fun _ _ => Num.exact 1)
    (fun _ => mk 1 2 [1] 0)).isNone = true := by decide +kernel
  exact Option.isNone_iff_eq_none.1 this

/-! ## Cases which meet the hypotheses -/

/-- Sums, products and multiples with two-bit numbers: `3/2+s` and `1-(1/2)s±1/2`. -/
example : ∃ r, add (Ariadne.PBit.rounding 2 (by norm_num)) (mk 1 (3 / 2) [1] 0) (mk 1 1 [-(1 / 2)] (1 / 2)) = some r ∧
    r.val = 2 ∧ r.err = 1 ∧ Encl r fun z => (3 / 2 + z 0) + (1 - 1 / 2 * z 0) := by
  have e : add (Ariadne.PBit.rounding 2 (by norm_num)) (mk 1 (3 / 2) [1] 0) (mk 1 1 [-(1 / 2)] (1 / 2)) =
    some (mk 1 2 [1 / 2] 1) := same_eq (by decide +kernel)
  refine ⟨_, e, rfl, rfl, C78_add _ ?_ ?_ e⟩
  · intro z _; simp [mk, AM.at]
  · intro z _
    simp only [mk, AM.at, Finset.univ_unique, Fin.default_eq_zero, Finset.sum_singleton, Fin.val_zero,
      List.getD_cons_zero]
    rw [show 1 - 1 / 2 * z 0 - (1 + -(1 / 2) * z 0) = 0 by ring]
    norm_num

example : ∃ r, mul exactRounding (mk 1 (3 / 2) [1] 0) (mk 1 1 [2] (1 / 2)) = some r ∧
    Encl r fun z => (3 / 2 + z 0) * (1 + 2 * z 0 + 1 / 2) := by
  obtain ⟨r, h⟩ := (C78_defined exactRounding (a := mk 1 (3 / 2) [1] 0) (b := mk 1 1 [2] (1 / 2)) (by norm_num [mk])
    (by norm_num [mk]) (c := Num.exact 0) le_rfl trivial trivial).2.1
  refine ⟨r, h, C78_mul_partial _ ?_ ?_ (by norm_num [mk]) (fun _ => ⟨trivial, trivial⟩) h⟩
  · intro z _; simp [mk, AM.at]
  · intro z _
    simp only [mk, AM.at, Finset.univ_unique, Fin.default_eq_zero, Finset.sum_singleton, Fin.val_zero,
      List.getD_cons_zero]
    rw [show 1 + 2 * z 0 + 1 / 2 - (1 + 2 * z 0) = 1 / 2 by ring]
    norm_num

/-- A Taylor model with a constant, a linear and a quadratic term: `3 s² + 2 s + 1 ± 1`. -/
example : ∃ r : AM 1 ℚ, ofTaylor exactRounding ⟨[([2], 3), ([1], 2), ([0], 1)], 1⟩ = some r ∧ r.err = 4 ∧
    Encl r fun z => 3 * z 0 ^ 2 + 2 * z 0 + 2 := by
  have e : ofTaylor exactRounding (⟨[([2], 3), ([1], 2), ([0], 1)], 1⟩ : TM ℚ) = some (mk 1 1 [2] 4) :=
    same_eq (by decide +kernel)
  have hc : Canon 1 (⟨[([2], 3), ([1], 2), ([0], 1)], 1⟩ : TM ℚ) := by
    refine ⟨by simp [WF], ?_⟩
    unfold Verif.Expansion.Sorted
    simp only [List.pairwise_cons, List.mem_cons, List.not_mem_nil, or_false, forall_eq_or_imp, forall_eq,
      IsEmpty.forall_iff, implies_true, List.Pairwise.nil, and_true]
    decide +kernel
  refine ⟨_, e, rfl, fun z hz => ?_⟩
  have h := C78_of_taylor exactRounding hc (by simp [Fits]) (f := fun x => 3 * x.headD 0 ^ 2 + 2 * x.headD 0 + 2)
    (fun x hx => by
      obtain ⟨y, rfl⟩ := List.length_eq_one_iff.1 hx.1
      simp only [List.headD_cons, Verif.Expansion.value, List.map_cons, List.map_nil, List.sum_cons, List.sum_nil,
        monomial_cons, monomial_nil_left]
      rw [show 3 * y ^ 2 + 2 * y + 2 - (3 * (y ^ 2 * 1) + (2 * (y ^ 1 * 1) + (1 * (y ^ 0 * 1) + 0))) = 1 by ring]
      simp) e z hz
  simpa using h

/-- The scaling onto `[1,3]` is `2+s`. -/
example : ∃ r, scaling exactRounding 1 0 (1 : ℚ) 3 = some r ∧ Encl r fun z => (1 + 3) / 2 + (3 - 1) / 2 * z 0 :=
  C78_scaling_partial _ trivial trivial (by norm_num) (by norm_num)

/-- An affine function with interval coefficients. -/
example : ∃ r : AM 1 ℚ, ofAffine exactRounding ⟨1, 2⟩ (fun _ => ⟨-1, 3⟩) = some r ∧
    Encl r fun z => 3 / 2 + ∑ i, (fun _ => 2) i * z i := by
  have e : ofAffine exactRounding (⟨1, 2⟩ : Num ℚ) (fun _ : Fin 1 => ⟨-1, 3⟩) = some (mk 1 (3 / 2) [1] (5 / 2)) :=
    same_eq (by decide +kernel)
  exact ⟨_, e, C78_of_affine _ e ⟨by norm_num, by norm_num⟩ fun _ => ⟨by norm_num, by norm_num⟩⟩

/-- The composition of `x+1` and `2s±1/2`. -/
example : ∃ r, compose exactRounding (fun x : Fin 1 → ℚ => Num.exact (x 0 + 1)) (fun _ _ => Num.exact 1)
    (fun _ => mk 1 0 [2] (1 / 2)) = some r ∧ Encl r fun z => 2 * z 0 + 1 := by
  have e : compose exactRounding (fun x : Fin 1 → ℚ => Num.exact (x 0 + 1)) (fun _ _ => Num.exact 1)
    (fun _ => mk 1 0 [2] (1 / 2)) = some (mk 1 1 [2] (3 / 2)) := same_eq (by decide +kernel)
  refine ⟨_, e, ?_⟩
  exact C78_compose_partial (F := fun x => x 0 + 1) (G := fun _ z => 2 * z 0) (fun _ => trivial)
    (fun d p c _ _ => ⟨fun _ => 1, fun _ => ⟨le_rfl, le_rfl⟩, by simp; ring⟩)
    (fun i z _ => by simp [mk, AM.at]) (fun _ => rfl) rfl (by norm_num) e

end Verif.Affine
