import Verif.Polynomial.Props
import Mathlib.Algebra.Polynomial.Eval.Defs
import Mathlib.Algebra.Polynomial.Eval.Degree

/-!
# Evaluation of polynomials in one variable
-/

namespace Verif.Polynomial

open Verif.Expansion

section Uni
variable {K X : Type*} [Field K] [Zero X] {A : Coef X} {In : K → X → Prop}

/-- The polynomial given by a list of exponents and coefficients. -/
noncomputable def toPoly (d : Terms Nat K) : _root_.Polynomial K :=
  (d.map (fun t => _root_.Polynomial.monomial t.1 t.2)).sum

theorem eval_toPoly (d : Terms Nat K) (ξ : K) :
    (toPoly d).eval ξ = (d.map (fun t => t.2 * ξ ^ t.1)).sum := by
  induction d with
  | nil => simp [toPoly]
  | cons t d ih =>
    simp only [toPoly, List.map_cons, List.sum_cons, Polynomial.eval_add,
      Polynomial.eval_monomial] at *
    rw [ih]

theorem mulTimes_in (hA : Sound A In) (v ξ : K) (r x : X) (hr : In v r) (hx : In ξ x) (k : Nat) :
    In (v * ξ ^ k) (mulTimes A.mul r x k) := by
  induction k with
  | zero => simpa [mulTimes] using hr
  | succ k ih =>
    rw [pow_succ, ← mul_assoc]
    exact hA.mul _ _ _ _ ih hx

theorem evaluateU_loop (hA : Sound A In) (ξ : K) (x : X) (hx : In ξ x) {d : Terms Nat K}
    {e : Terms Nat X} (h : Rel In d e) : ∀ (a l : Nat) (v : K) (r : X), In v r →
    (a :: e.map Prod.fst).Pairwise (fun a b => a > b) →
    (a :: e.map Prod.fst).getLast (by simp) = l →
    ∃ y, evaluateU.loop A x e a r = some y ∧
      ∃ w, In w y ∧ w * ξ ^ l = v * ξ ^ a + (d.map (fun t => t.2 * ξ ^ t.1)).sum := by
  induction h with
  | nil =>
    intro a l v r hr _ hl
    refine ⟨r, rfl, v, hr, ?_⟩
    simp only [List.map_nil, List.getLast_singleton] at hl
    simp [hl]
  | @cons s t d e h1 _ ih =>
    obtain ⟨i, k⟩ := s
    obtain ⟨na, c⟩ := t
    obtain ⟨rfl, hc⟩ := h1
    simp only at hc
    intro a l v r hr hs hl
    rw [List.map_cons, List.pairwise_cons] at hs
    have hlt : a > i := hs.1 i (by simp)
    obtain ⟨y, h2, w, h3, h4⟩ := ih i l (v * ξ ^ (a - i) + k)
      (A.add (mulTimes A.mul r x (a - i)) c)
      (hA.add _ _ _ _ (mulTimes_in hA v ξ r x hr hx _) hc) hs.2
      (by rw [← hl]; simp [List.getLast_cons])
    refine ⟨y, ?_, w, h3, ?_⟩
    · rw [evaluateU.loop, if_pos hlt]; exact h2
    · rw [h4, List.map_cons, List.sum_cons, add_mul, mul_assoc, ← pow_add,
        Nat.sub_add_cancel hlt.le]
      ring

/-- **C89** (evaluation in one variable): on sorted terms the evaluation succeeds, and the result
encloses a number whose product with the power of the argument belonging to the last term is the
value; the last exponent should not matter. -/
theorem C89_univariate_evaluate_partial (hA : Sound A In) (d : Terms Nat K) (p : Terms Nat X)
    (h : Rel In d p) (hs : Sorted ltU p) (ξ : K) (x : X) (hx : In ξ x) :
    ∃ y, evaluateU A p x = some y ∧
      ∃ w, In w y ∧ w * ξ ^ ((p.map Prod.fst).getLast?.getD 0) = (toPoly d).eval ξ := by
  cases h with
  | nil => exact ⟨0, rfl, 0, hA.zero, by simp [toPoly]⟩
  | @cons s t d e h1 h2 =>
    obtain ⟨i, k⟩ := s
    obtain ⟨na, c⟩ := t
    obtain ⟨rfl, hc⟩ := h1
    have hs' : (i :: e.map Prod.fst).Pairwise (fun a b => a > b) := by
      have h3 := List.Pairwise.map Prod.fst (S := fun a b : ℕ => a > b)
        (fun a b (hab : ltU a.1 b.1 = true) => by simpa [ltU] using hab) hs
      simpa using h3
    obtain ⟨y, h3, w, h4, h5⟩ := evaluateU_loop hA ξ x hx h2 i
      ((i :: e.map Prod.fst).getLast (by simp)) k c hc hs' rfl
    refine ⟨y, h3, w, h4, ?_⟩
    have h6 : ((((i, c) : ℕ × X) :: e).map Prod.fst).getLast?.getD 0 =
        (i :: e.map Prod.fst).getLast (by simp) := by
      rw [List.map_cons, List.getLast?_eq_getLast_of_ne_nil (by simp)]
      rfl
    rw [eval_toPoly, List.map_cons (l := d), List.sum_cons, ← h5]
    exact congrArg (fun m => w * ξ ^ m) h6

/-- **C89** (evaluation in one variable): if the constant term is stored, the result encloses the
value. -/
theorem C89_univariate_evaluate_constant_partial (hA : Sound A In) (d : Terms Nat K)
    (p : Terms Nat X) (c : X) (h : Rel In d (p ++ [(0, c)])) (hs : Sorted ltU (p ++ [(0, c)]))
    (ξ : K) (x : X) (hx : In ξ x) :
    ∃ y, evaluateU A (p ++ [(0, c)]) x = some y ∧ In ((toPoly d).eval ξ) y := by
  obtain ⟨y, h1, w, h2, h3⟩ := C89_univariate_evaluate_partial hA d _ h hs ξ x hx
  refine ⟨y, h1, ?_⟩
  rw [← h3]
  simpa using h2

end Uni

end Verif.Polynomial
