import Verif.ExprSet.Props
import Verif.Rounding.Props
import Mathlib.Tactic.NormNum

/-!
# C102: counterexamples and examples
-/

namespace Verif.ExprSet

open Verif.Hybrid Verif.Container Ariadne.Symbolic

/-- The closed interval with the given bounds -/
def Mem (b : ℤ × ℤ) (r : ℝ) : Prop := (b.1 : ℝ) ≤ r ∧ r ≤ b.2

/-- A box made of a list with two bounds for a variable keeps the first only: the constraint `x <= 1` of
`{0<=x<=4, 0<=x<=1}` is lost. -/
theorem C102_duplicate_bounds_fails : boxEuclid (boxOfList [(0, ((0 : ℤ), (4 : ℤ))), (0, (0, 1))]) [0] = some [(0, 4)] := by
  decide

/-- `-2<=x<=2, -2<=y<=2` with `x>=0` -/
def half : BSet ℕ (ℤ × ℤ) := ⟨[(0, (-2, 2)), (1, (-2, 2))], [.cmp .geq (.var 0) (.cst 0)]⟩

/-- `-2<=x<=2, -2<=y<=2` with `x>=0 && y>=0` -/
def quadrant : BSet ℕ (ℤ × ℤ) :=
  ⟨[(0, (-2, 2)), (1, (-2, 2))], [.and (.cmp .geq (.var 0) (.cst 0)) (.cmp .geq (.var 1) (.cst 0))]⟩

/-- `-2<=x<=2, -2<=y<=2` with `x>=0 || y>=0` -/
def corner : BSet ℕ (ℤ × ℤ) :=
  ⟨[(0, (-2, 2)), (1, (-2, 2))], [.or (.cmp .geq (.var 0) (.cst 0)) (.cmp .geq (.var 1) (.cst 0))]⟩

/-- The constructor accepts the set with a conjunction, and the euclidean set contains the point (1,-1), where the conjunction
is false. -/
theorem C102_conjunction_fails :
    ∃ (s : BSet ℕ (ℤ × ℤ)) (E : List (ℤ × ℤ) × List (Expr ℕ)) (y : ℕ → ℝ),
      bsetOfList s.bounds s.constraints = some s ∧ s.euclid [0, 1] = some E ∧
      (∃ c ∈ s.constraints, c.eval y = some .ff) ∧ InSet Mem E (coords [0, 1] y) := by
  refine ⟨quadrant, _, fun i => if i = 0 then 1 else -1, rfl, rfl, ⟨_, List.mem_singleton_self _, ?_⟩, ?_, ?_⟩
  · simp [KExpr.eval, Expr.eval, Expr.cst, CmpOp.eval, K3.ofSign, K3.and]
    norm_num
  · intro i b hb
    match i, hb with
    | 0, hb =>
      obtain rfl := Option.some.inj hb
      norm_num [Mem, coords]
    | 1, hb =>
      obtain rfl := Option.some.inj hb
      norm_num [Mem, coords]
    | i + 2, hb => exact absurd hb (by simp)
  · intro f hf
    obtain rfl := List.mem_singleton.1 hf
    refine ⟨-1, ?_, by norm_num⟩
    simp [Expr.eval, Expr.cst, BinOp.eval, coords]

/-- The constructor accepts the set with a disjunction, and the euclidean set does not contain the point (1,-1), where the
disjunction is true. -/
theorem C102_disjunction_fails :
    ∃ (s : BSet ℕ (ℤ × ℤ)) (E : List (ℤ × ℤ) × List (Expr ℕ)) (y : ℕ → ℝ),
      bsetOfList s.bounds s.constraints = some s ∧ s.euclid [0, 1] = some E ∧
      (∀ c ∈ s.constraints, c.eval y = some .tt) ∧ (∀ v b, (v, b) ∈ s.bounds → Mem b (y v)) ∧
      ¬ InSet Mem E (coords [0, 1] y) := by
  refine ⟨corner, _, fun i => if i = 0 then 1 else -1, rfl, rfl, ?_, ?_, ?_⟩
  · intro c hc
    obtain rfl := List.mem_singleton.1 hc
    simp [KExpr.eval, Expr.eval, Expr.cst, CmpOp.eval, K3.ofSign, K3.or]
  · intro v b hb
    simp only [corner, List.mem_cons, Prod.mk.injEq, List.not_mem_nil, or_false] at hb
    rcases hb with ⟨rfl, rfl⟩ | ⟨rfl, rfl⟩ <;> norm_num [Mem]
  · rintro ⟨_, h⟩
    obtain ⟨r, hr, hle⟩ := h _ (List.mem_singleton_self _)
    simp only [Expr.eval, Expr.cst, BinOp.eval, coords] at hr
    norm_num at hr
    subst hr
    norm_num at hle

/-- Boxes with the same bounds for the same variables, labelled with spaces in different orders, cannot be compared. -/
theorem C102_labelled_comparison_fails (eq : List ℕ → List ℕ → Bool) :
    labelledEuclid [0, 1] [5, 7] [0, 1] = labelledEuclid [1, 0] [7, 5] [0, 1] ∧
    labelledEq eq ([0, 1], [5, 7]) ([1, 0], [7, 5]) = none := by
  refine ⟨by decide, ?_⟩
  unfold labelledEq
  rw [if_neg (by decide), if_pos (by decide)]

/-- The hypotheses of `C102_euclid_partial` and `C102_order_partial` hold for the half box, in both orders of the variables. -/
example : ∃ E E', half.euclid [0, 1] = some E ∧ half.euclid [1, 0] = some E' ∧ SortedKeys half.bounds ∧
    (∀ c ∈ half.constraints, c.Atomic) ∧ (∀ y : ℕ → ℝ, ∀ c ∈ half.constraints, ∃ k, c.eval y = some k) ∧
    Sat Mem half (fun _ => 1) ∧ ¬ Sat Mem half (fun _ => -1) := by
  refine ⟨_, _, rfl, rfl, by unfold SortedKeys half; decide, ?_, ?_, ⟨?_, ?_⟩, ?_⟩
  · intro c hc
    obtain rfl := List.mem_singleton.1 hc
    trivial
  · intro y c hc
    obtain rfl := List.mem_singleton.1 hc
    exact ⟨_, rfl⟩
  · intro v b hb
    simp only [half, List.mem_cons, Prod.mk.injEq, List.not_mem_nil, or_false] at hb
    rcases hb with ⟨rfl, rfl⟩ | ⟨rfl, rfl⟩ <;> norm_num [Mem]
  · intro c hc
    obtain rfl := List.mem_singleton.1 hc
    simp [KExpr.eval, Expr.eval, Expr.cst, CmpOp.eval, K3.ofSign]
  · rintro ⟨_, h⟩
    refine h _ (List.mem_singleton_self _) ?_
    simp [KExpr.eval, Expr.eval, Expr.cst, CmpOp.eval, K3.ofSign]

/-- `C102_constructor`: lists which are accepted, with a repeated variable, and with a constraint on another variable -/
example : (bsetOfList [(1, 5), (0, 7)] [.cmp .geq (.var 0) (.cst 0)]).isSome = true ∧
    (bsetOfList [(1, 5), (1, 7)] ([] : List (KExpr ℕ))).isSome = false ∧
    (bsetOfList [(1, 5)] [.cmp .geq (.var 0) (.cst 0)]).isSome = false := by decide

/-- `C102_equality_fails` for `x==0` on `-2<=x<=2` -/
example : bsetOfList [(0, 5)] [.cmp .equal (.var 0) (.cst 0)] = some ⟨[(0, 5)], [.cmp .equal (.var 0) (.cst 0)]⟩ ∧
    (⟨[(0, 5)], [.cmp .equal (.var 0) (.cst 0)]⟩ : BSet ℕ ℕ).euclid [0] = none :=
  ⟨rfl, C102_equality_fails _ (.cmp .equal (.var 0) (.cst 0)) (List.mem_singleton_self _) (Or.inl rfl) _⟩

/-- `C102_box_round_trip`: a box in the opposite order -/
example : boxOfSpace [1, 0] [7, 5] = some [(0, 5), (1, 7)] ∧ boxEuclid [(0, 5), (1, 7)] [0, 1] = some [5, 7] := by decide

/-- `C102_approximations` with two bits: the interval [5,9] becomes [4,12] and [6,8]. -/
example : overApproximation (Ariadne.PBit.rounding (K := ℚ) 2 (by decide)) [(0, 5, 9)] = [(0, 4, 12)] ∧
    underApproximation (Ariadne.PBit.rounding (K := ℚ) 2 (by decide)) [(0, 5, 9)] = [(0, 6, 8)] := by
  decide +kernel

/-- The intersection with constraints in one location, and without constraints in the other -/
example : hintersection [(0, [(0, 5)])] [(0, [.cmp .geq (.var 0) (.cst 0)])] =
      some [(0, (⟨[(0, 5)], [.cmp .geq (.var 0) (.cst 0)]⟩ : BSet ℕ ℕ))] ∧
    hintersection [(0, [(0, 5)]), (1, [(0, 6)])] [(0, [.cmp .geq (.var 0) (.cst (V := ℕ) 0)])] = none :=
  ⟨rfl, C102_intersection_fails _ _ 1 [(0, 6)] (by decide) rfl⟩

/-- `C102_hybrid_adjoin_fails`: the second set of a location is ignored. -/
example : hadjoin 0 quadrant (hadjoin 0 half []) = [(0, half)] := rfl

end Verif.ExprSet
