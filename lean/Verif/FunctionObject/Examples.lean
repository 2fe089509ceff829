import Verif.FunctionObject.Props
import Mathlib.Algebra.Field.Rat

/-!
# C104: cases meeting the hypotheses, and counterexamples
-/

namespace Verif.FunctionObject

/-- Two functions of two variables: `(x₁, x₀·x₁)` and `(x₀, x₁, 1)`. -/
def heap2 : Heap ℚ :=
  [.vec 2 [.coord 2 1, .bin .mul (.coord 2 0) (.coord 2 1)], .vec 2 [.coord 2 0, .coord 2 1, .const 2 1]]

theorem heap2_wf : WF heap2 := by
  refine ⟨?_, ?_, ?_⟩
  · intro a nd h b hb
    match a, h with
    | 0, h => obtain rfl := Option.some.inj h; simp [Node.refs, SF.refs] at hb
    | 1, h => obtain rfl := Option.some.inj h; simp [Node.refs, SF.refs] at hb
    | a + 2, h => simp [heap2] at h
  · intro a n fs h s hs
    match a, h with
    | 0, h =>
      obtain ⟨rfl, rfl⟩ := Node.vec.inj (Option.some.inj h)
      simp only [List.mem_cons, List.not_mem_nil, or_false] at hs
      rcases hs with rfl | rfl <;> rfl
    | 1, h =>
      obtain ⟨rfl, rfl⟩ := Node.vec.inj (Option.some.inj h)
      simp only [List.mem_cons, List.not_mem_nil, or_false] at hs
      rcases hs with rfl | rfl | rfl <;> rfl
    | a + 2, h => simp [heap2] at h
  · intro a f g h
    match a, h with
    | 0, h => simp [heap2] at h
    | 1, h => simp [heap2] at h
    | a + 2, h => simp [heap2] at h

example : Makes heap2 (joinVV heap2 0 1) 2 5 fun x w =>
    ∃ u v, value heap2 0 x = some u ∧ value heap2 1 x = some v ∧ w = u ++ v :=
  C104_join_vectors heap2_wf (a := 0) (b := 1) (by decide) (by decide) rfl

/-- The join of the two functions at `(2,3)`. -/
example : ((joinVV heap2 0 1).map fun r => value r.1 r.2 [2, 3]) = some (some [3, 6, 2, 3, 1]) := by decide +kernel

/-- The first function composed with itself at `(2,3)`: `(6, 3·6)`. -/
example : ((composeVV heap2 0 0).map fun r => value r.1 r.2 [2, 3]) = some (some [6, 18]) := by decide +kernel

/-- The sum of the first function with itself at `(2,3)`. -/
example : ((binVV .add heap2 0 0).map fun r => value r.1 r.2 [2, 3]) = some (some [6, 12]) := by decide +kernel

/-- Sizes are compared. -/
example : binVV .add heap2 0 1 = none := by decide +kernel

example : ∃ h', set heap2 0 1 (.const 2 7) = some h' ∧ WF h' ∧ ∀ x v w, value heap2 0 x = some v →
    valueS heap2 (.const 2 7) x = some w → value h' 0 x = some (v.set 1 w) :=
  C104_set_partial heap2_wf (n := 2) (fs := [.coord 2 1, .bin .mul (.coord 2 0) (.coord 2 1)]) rfl (by decide)
    (fun b hb => absurd hb (by simp [SF.refs])) rfl

example : Ops heap2 (zeros heap2 2 2).1 := .step .refl .zeros

/-- **Assignments reach copies.** After `g=f; g.set(1,7)`, the function `f` has changed. -/
theorem C104_set_shared_fails : WF heap2 ∧
    ∃ h', set (copy heap2 0).1 (copy heap2 0).2 1 (.const 2 7) = some h' ∧
      value heap2 0 [2, 3] = some [3, 6] ∧ value h' 0 [2, 3] = some [3, 7] :=
  ⟨heap2_wf, _, rfl, by decide +kernel, by decide +kernel⟩

/-- A function made by composition changes as well: `f∘f` at `(2,3)` is `(6,18)`, and `(7,7)` after `f.set(1,7)`. -/
theorem C104_set_composed_fails : ∃ h r h', composeVV heap2 0 0 = some (h, r) ∧ r ≠ 0 ∧
    set h 0 1 (.const 2 7) = some h' ∧ value h r [2, 3] = some [6, 18] ∧ value h' r [2, 3] = some [7, 7] :=
  ⟨_, _, _, rfl, by decide, rfl, by decide +kernel, by decide +kernel⟩

/-- The result of assigning `s∘f` to the first component of `f`, where `f` is `(x₁, x₀·x₁)` and `s` is `x₀`. -/
def cyclic : Heap ℚ :=
  [.vec 2 [.comp (.coord 2 0) 0, .bin .mul (.coord 2 0) (.coord 2 1)],
   .vec 2 [.coord 2 0, .coord 2 1, .const 2 1]]

theorem cyclic_diverges (t : ℕ) (x : List ℚ) : evalV cyclic t 0 x = none := by
  induction t with
  | zero => rfl
  | succ t ih =>
    show ((SF.comp (.coord 2 0) 0 : SF ℚ) :: [.bin .mul (.coord 2 0) (.coord 2 1)]).mapM
      (fun f => evalS (evalV cyclic t) f x) = none
    rw [List.mapM_cons]
    show ((evalV cyclic t 0 x).bind fun y => evalS (evalV cyclic t) (.coord 2 0) y).bind _ = none
    rw [ih]; rfl

/-- **Assignments can make evaluation endless.** `f[0]=compose(s,f)` is accepted, where all functions are defined
everywhere, and then `f` has no value at any point, however long it is evaluated. -/
theorem C104_set_cycle_fails : WF heap2 ∧ value heap2 0 [2, 3] = some [3, 6] ∧
    ∃ s h', composeSV heap2 (.coord 2 0) 0 = some s ∧ valueS heap2 s [2, 3] = some 3 ∧
      set heap2 0 0 s = some h' ∧ ∀ t x, evalV h' t 0 x = none :=
  ⟨heap2_wf, by decide +kernel, _, _, rfl, by decide +kernel, rfl, cyclic_diverges⟩

/-- **Joining a validated scalar function with a validated vector function** never gives more than two components. -/
theorem C104_join_validated_size {K : Type} [Field K] [DecidableEq K] {h : Heap K} (hw : WF h) {b : ℕ}
    (hb : b < h.length) {f : SF K} (hf : Good h (arg h b) f) :
    (res h b = 0 → vjoinSV h f b = none) ∧ (0 < res h b → Makes h (vjoinSV h f b) (arg h b) 2 fun x w =>
      ∃ u v, valueS h f x = some u ∧ value h b x = some v ∧ w = u :: v.take 1) := by
  constructor
  · intro h0
    have hget : ∀ nd, get (h ++ [nd]) b 0 = none := by
      intro nd
      rw [← get_agree hw b 0 fun c hc => push_agree h nd c (by omega)]
      unfold get; rw [if_neg (by omega)]
    unfold vjoinSV build zeros
    simp only
    have : sets h.length ((0, fun _ => some f) :: (List.range 1).map fun i => (i + 1, fun h => get h b i))
        (h ++ [.vec (argS h f) (List.replicate (1 + 1) (.const (argS h f) 0))]) = none := by
      unfold sets
      simp only [Option.bind_some]
      cases hs : set (h ++ [.vec (argS h f) (List.replicate (1 + 1) (.const (argS h f) 0))]) h.length 0 f with
      | none => rfl
      | some h1 =>
        have : ∃ nd1, h1 = h ++ [nd1] := by
          unfold set at hs
          simp only [List.getElem?_append_right le_rfl, Nat.sub_self, List.getElem?_cons_zero] at hs
          split at hs
          · split at hs
            · exact ⟨_, by rw [← Option.some.inj hs, List.set_append_right _ _ le_rfl]; simp; rfl⟩
            · exact absurd hs (by simp)
          · exact absurd hs (by simp)
        obtain ⟨nd1, rfl⟩ := this
        simp [sets, List.range_succ, hget]
    rw [this]; rfl
  · intro h0
    unfold vjoinSV
    rw [hf.2]
    refine build_makes hw (by simp) ?_ ?_
    · rintro x w ⟨u, v, -, hv, rfl⟩
      simp [(C104_components hw b x v hv).1]; omega
    intro i p hp
    match i, hp with
    | 0, hp =>
      obtain rfl := Option.some.inj hp
      exact ⟨rfl, f, hf, fun _ => rfl, by rintro x w ⟨u, v, hu, -, rfl⟩; rw [hu]; rfl⟩
    | 1, hp =>
      obtain rfl := Option.some.inj hp
      obtain ⟨s, h1, h2, h3⟩ := get_push hw hb h0
      refine ⟨rfl, s, h3, fun _ => h1 _, ?_⟩
      rintro x w ⟨u, v, -, hv, rfl⟩
      rw [component_value hw hv h0 h2]
      cases v <;> rfl
    | i + 2, hp => simp [List.range_succ] at hp

/-- The join of `x₀` with `(x₁, x₀·x₁)` at `(2,3)` is `(2,3,6)`, but that of the validated functions is `(2,3)`. -/
theorem C104_join_validated_fails :
    ((joinSV heap2 (.coord 2 0) 0).map fun r => value r.1 r.2 [2, 3]) = some (some [2, 3, 6]) ∧
    ((vjoinSV heap2 (.coord 2 0) 0).map fun r => value r.1 r.2 [2, 3]) = some (some [2, 3]) := by
  constructor <;> decide +kernel

/-- **Sums of validated vector functions of different sizes** are accepted when the second one is longer. -/
theorem C104_sum_validated_fails : res heap2 0 ≠ res heap2 1 ∧
    ((vbinVV .add heap2 0 1).map fun r => value r.1 r.2 [2, 3]) = some (some [5, 9]) ∧
    vbinVV .add heap2 1 0 = none := by
  refine ⟨by decide, ?_, ?_⟩ <;> decide +kernel

/-- **Products of a validated scalar function and a validated vector function** never finish when one of them is a
function patch, whereas the products in the other order do. -/
theorem C104_product_validated_fails (t : ℕ) (k1 k2 : Kind) (hk : k1 = .patch ∨ k2 = .patch) :
    vmulSV t k1 k2 = .unfinished ∧ vmulVS (t + 1) k2 k1 = .patches := by
  refine ⟨?_, by cases k1 <;> cases k2 <;> simp_all [vmulVS]⟩
  induction t with
  | zero => rfl
  | succ t ih =>
    unfold vmulSV
    rcases hk with rfl | rfl
    · by_cases h2 : k2 = .patch
      · rw [if_pos ⟨rfl, h2⟩]; exact ih
      · rw [if_neg (fun e => h2 e.2), if_pos rfl]; exact ih
    · by_cases h1 : k1 = .patch
      · rw [if_pos ⟨h1, rfl⟩]; exact ih
      · rw [if_neg (fun e => h1 e.1), if_neg h1, if_pos rfl]; exact ih

/-- **Operators on a function patch and a number**, the number being second, never finish. -/
theorem C104_operator_number_fails (t : ℕ) :
    vapplySC t .patch = .unfinished ∧ vapplyCS (t + 1) .patch = .patches := by
  refine ⟨?_, rfl⟩
  induction t with
  | zero => rfl
  | succ t ih => unfold vapplySC; rw [if_pos rfl]; exact ih

end Verif.FunctionObject
