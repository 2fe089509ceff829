import Verif.Symbolic.Model
import Mathlib.Data.List.Nodup

/-!
# C38: substitution
-/

noncomputable section

namespace Ariadne.Symbolic

open Expr

variable {V : Type*} [DecidableEq V]

omit [DecidableEq V] in
theorem eval_app (op : UnOp) (a : Expr V) (x : V → ℝ) {r : ℝ} (h : (un op a).eval x = some r) :
    (app op a).eval x = some r := by
  cases op <;> try exact h
  cases ha : a.eval x with
  | none => simp [eval, ha] at h
  | some p => simpa [eval, ha, UnOp.eval, app, cst] using h

omit [DecidableEq V] in
theorem eval_app_eq {op : UnOp} (h : op ≠ .nul) (a : Expr V) (x : V → ℝ) :
    (app op a).eval x = (un op a).eval x := by
  cases op <;> first | rfl | exact absurd rfl h

/-- C38: the value of an expression depends only on the variables which are its arguments. -/
theorem C38_arguments (e : Expr V) {x y : V → ℝ} (h : ∀ v ∈ e.arguments, x v = y v) : e.eval x = e.eval y := by
  induction e with
  | const n c => rfl
  | var v => simp only [eval]; rw [h v (by simp [arguments])]
  | un op a ih => simp only [eval]; rw [ih h]
  | bin op a b iha ihb =>
    simp only [eval]
    rw [iha fun v hv => h v (by simp [arguments, hv]), ihb fun v hv => h v (by simp [arguments, hv])]
  | pow a n ih => simp only [eval]; rw [ih h]

/-- C38: substituting for a variable evaluates the expression with the value of the
substituted expression for the variable. -/
theorem C38_substitute (e : Expr V) (v : V) (s : Expr V) {x : V → ℝ} {r : ℝ} (hs : s.eval x = some r) {q : ℝ}
    (he : e.eval (Function.update x v r) = some q) : (e.subst v s).eval x = some q := by
  induction e generalizing q with
  | const n c => exact he
  | var w =>
    simp only [eval, Option.some.injEq] at he
    simp only [subst]
    by_cases h : w = v
    · rw [if_pos h, hs, ← he, h, Function.update_self]
    · rw [if_neg h]; simp only [eval]; rw [← he, Function.update_of_ne h]
  | un op a ih =>
    apply eval_app
    cases ha : a.eval (Function.update x v r) with
    | none => simp [eval, ha] at he
    | some p =>
      simp only [eval, ha, Option.bind_some] at he ⊢
      rw [ih ha]; exact he
  | bin op a b iha ihb =>
    cases ha : a.eval (Function.update x v r) with
    | none => simp [eval, ha] at he
    | some p =>
      cases hb : b.eval (Function.update x v r) with
      | none => simp [eval, ha, hb] at he
      | some p' =>
        simp only [eval, ha, hb, Option.bind_some] at he
        simp only [subst, eval]
        rw [iha ha, ihb hb]; exact he
  | pow a n ih =>
    cases ha : a.eval (Function.update x v r) with
    | none => simp [eval, ha] at he
    | some p =>
      simp only [eval, ha, Option.bind_some] at he
      simp only [subst, eval]
      rw [ih ha]; exact he

/-- `nul` does not occur: it cannot be built by the operations on expressions. -/
def NoNul : Expr V → Prop
  | const _ _ => True
  | var _ => True
  | un op a => op ≠ .nul ∧ NoNul a
  | bin _ a b => NoNul a ∧ NoNul b
  | pow a _ => NoNul a

/-- C38: conversely, the substituted expression has no other values. -/
theorem C38_substitute_eq {e : Expr V} (hn : NoNul e) (v : V) (s : Expr V) {x : V → ℝ} {r : ℝ} (hs : s.eval x = some r) :
    (e.subst v s).eval x = e.eval (Function.update x v r) := by
  induction e with
  | const n c => rfl
  | var w =>
    simp only [subst]
    by_cases h : w = v
    · rw [if_pos h, hs, h]; simp [eval]
    · rw [if_neg h]; simp only [eval]; rw [Function.update_of_ne h]
  | un op a ih => simp only [subst]; rw [eval_app_eq hn.1]; simp only [eval]; rw [ih hn.2]
  | bin op a b iha ihb => simp only [subst, eval]; rw [iha hn.1, ihb hn.2]
  | pow a n ih => simp only [subst, eval]; rw [ih hn]

omit [DecidableEq V] in
theorem app_arguments [DecidableEq V] (op : UnOp) (a : Expr V) : (app op a).arguments ⊆ a.arguments := by
  cases op <;> simp [app, cst, arguments]

/-- C38: substitution removes the variable, and adds only variables of the substituted
expression. -/
theorem C38_substitute_arguments (e : Expr V) (v : V) (s : Expr V) :
    (e.subst v s).arguments ⊆ (e.arguments.erase v) ∪ s.arguments := by
  induction e with
  | const n c => simp [subst, arguments]
  | var w =>
    simp only [subst]
    by_cases h : w = v
    · rw [if_pos h]; exact Finset.subset_union_right
    · rw [if_neg h]; intro u hu; simp only [arguments, Finset.mem_singleton] at hu
      subst hu; simp [arguments, h]
  | un op a ih => exact (app_arguments op _).trans ih
  | bin op a b iha ihb =>
    intro u hu
    simp only [subst, arguments, Finset.mem_union] at hu
    simp only [arguments, Finset.mem_union, Finset.mem_erase]
    rcases hu with hu | hu
    · have := iha hu; simp only [Finset.mem_union, Finset.mem_erase] at this; tauto
    · have := ihb hu; simp only [Finset.mem_union, Finset.mem_erase] at this; tauto
  | pow a n ih => exact ih

/-- spec: the simultaneous substitution of values for the variables of a list -/
def simultaneous (as : List (V × Expr V)) (x : V → ℝ) (v : V) : ℝ :=
  match as.find? (fun a => a.1 = v) with
  | none => x v
  | some a => (a.2.eval x).getD 0

/-- C38: a list of assignments in which no right-hand side uses a left-hand side is
substituted simultaneously. -/
theorem C38_substitute_list (as : List (V × Expr V)) {x : V → ℝ}
    (hd : ∀ a ∈ as, ∃ r, a.2.eval x = some r) (hi : ∀ a ∈ as, ∀ b ∈ as, b.1 ∉ a.2.arguments)
    (e : Expr V) {q : ℝ} (he : e.eval (simultaneous as x) = some q) : (substList e as).eval x = some q := by
  induction as generalizing e with
  | nil =>
    have : simultaneous ([] : List (V × Expr V)) x = x := by funext v; simp [simultaneous]
    rw [this] at he; exact he
  | cons a as ih =>
    simp only [substList, List.foldl_cons]
    refine ih (fun b hb => hd b (List.mem_cons_of_mem _ hb))
      (fun b hb c hc => hi b (List.mem_cons_of_mem _ hb) c (List.mem_cons_of_mem _ hc)) (e.subst a.1 a.2) ?_
    obtain ⟨r, hr⟩ := hd a (by simp)
    have hr' : a.2.eval (simultaneous as x) = some r := by
      rw [← hr]
      refine C38_arguments _ fun v hv => ?_
      unfold simultaneous
      cases hf : as.find? (fun b => b.1 = v) with
      | none => rfl
      | some b =>
        have hb := List.mem_of_find?_eq_some hf
        have hbv : b.1 = v := by have := List.find?_some hf; simpa using this
        exact absurd hv (hbv ▸ hi a (by simp) b (List.mem_cons_of_mem _ hb))
    refine C38_substitute e a.1 a.2 hr' ?_
    rw [← he]
    congr 1
    funext v
    unfold simultaneous
    by_cases h : v = a.1
    · subst h; rw [Function.update_self]; simp [hr]
    · rw [Function.update_of_ne h, List.find?_cons_of_neg (by simpa using fun h' => h h'.symm)]

/-- The valuation in which `substList` evaluates: the assignments are solved from the last to
the first. -/
def backward : List (V × Expr V) → (V → ℝ) → (V → ℝ)
  | [], x => x
  | a :: as, x => Function.update (backward as x) a.1 ((a.2.eval (backward as x)).getD 0)

/-- spec: every right-hand side is defined when the assignments are solved from the last to
the first -/
def BackwardDefined : List (V × Expr V) → (V → ℝ) → Prop
  | [], _ => True
  | a :: as, x => BackwardDefined as x ∧ ∃ r, a.2.eval (backward as x) = some r

theorem eval_substList (as : List (V × Expr V)) {x : V → ℝ} (hd : BackwardDefined as x) (e : Expr V) {q : ℝ}
    (he : e.eval (backward as x) = some q) : (substList e as).eval x = some q := by
  induction as generalizing e with
  | nil => exact he
  | cons a as ih =>
    obtain ⟨h1, r, hr⟩ := hd
    simp only [substList, List.foldl_cons]
    refine ih h1 _ (C38_substitute e a.1 a.2 hr ?_)
    simpa [backward, hr] using he

/-- spec: `y` solves the equations -/
def Solves (as : List (V × Expr V)) (y : V → ℝ) : Prop := ∀ a ∈ as, a.2.eval y = some (y a.1)

/-- spec: every equation uses only variables which are defined after it, and no variable is
defined twice -/
def LaterOnly : List (V × Expr V) → Prop
  | [] => True
  | a :: as => (∀ v ∈ a.2.arguments, v ≠ a.1) ∧ (∀ b ∈ as, a.1 ∉ b.2.arguments ∧ b.1 ≠ a.1) ∧ LaterOnly as

theorem backward_solves {as : List (V × Expr V)} (hl : LaterOnly as) {x : V → ℝ} (hd : BackwardDefined as x) :
    Solves as (backward as x) ∧ ∀ v, (∀ a ∈ as, a.1 ≠ v) → backward as x v = x v := by
  induction as with
  | nil => exact ⟨by simp [Solves], fun v _ => rfl⟩
  | cons a as ih =>
    obtain ⟨h1, h2, h3⟩ := hl
    obtain ⟨d1, r, hr⟩ := hd
    obtain ⟨i1, i2⟩ := ih h3 d1
    constructor
    · intro b hb
      simp only [backward]
      rcases List.mem_cons.1 hb with e | hb
      · rw [e, Function.update_self, hr, Option.getD_some]
        rw [← hr]
        exact C38_arguments _ fun v hv => Function.update_of_ne (h1 v hv) _ _
      · rw [Function.update_of_ne (h2 b hb).2, ← i1 b hb]
        exact C38_arguments _ fun v hv => Function.update_of_ne (fun (h : v = a.1) => (h2 b hb).1 (h ▸ hv)) _ _
    · intro v hv
      simp only [backward]
      rw [Function.update_of_ne (fun h => hv a (by simp) h.symm)]
      exact i2 v fun b hb => hv b (List.mem_cons_of_mem _ hb)

theorem substList_arguments_of_later {as : List (V × Expr V)} (hl : LaterOnly as) (e : Expr V) (a : V × Expr V)
    (ha : a ∈ as) : a.1 ∉ (substList e as).arguments := by
  have key : ∀ (as : List (V × Expr V)) (e : Expr V) (v : V), v ∉ e.arguments → (∀ b ∈ as, v ∉ b.2.arguments) →
      v ∉ (substList e as).arguments := by
    intro as
    induction as with
    | nil => intro e v h _; exact h
    | cons a as ih =>
      intro e v h1 h2
      simp only [substList, List.foldl_cons]
      refine ih _ v (fun h => ?_) fun b hb => h2 b (List.mem_cons_of_mem _ hb)
      have := C38_substitute_arguments e a.1 a.2 h
      rcases Finset.mem_union.1 this with h | h
      · exact h1 (Finset.mem_of_mem_erase h)
      · exact h2 a (by simp) h
  induction as generalizing e with
  | nil => simp at ha
  | cons b as ih =>
    obtain ⟨h1, h2, h3⟩ := hl
    simp only [substList, List.foldl_cons]
    rcases List.mem_cons.1 ha with e' | ha
    · refine key as _ a.1 (fun h => ?_) fun c hc => e' ▸ (h2 c hc).1
      have := C38_substitute_arguments e b.1 b.2 h
      rw [e'] at this
      rcases Finset.mem_union.1 this with h | h
      · simp at h
      · exact h1 _ h rfl
    · exact ih h3 _ ha

/-- C38: equations listed so that each uses only variables defined after it are eliminated:
the result uses none of the defined variables, and its value is that of the expression at
the solution of the equations. -/
theorem C38_eliminate {as : List (V × Expr V)} (hl : LaterOnly as) {x : V → ℝ} (hd : BackwardDefined as x)
    (e : Expr V) : (∀ a ∈ as, a.1 ∉ (substList e as).arguments) ∧
      ∃ y, Solves as y ∧ (∀ v, (∀ a ∈ as, a.1 ≠ v) → y v = x v) ∧
        ∀ q, e.eval y = some q → (substList e as).eval x = some q :=
  ⟨substList_arguments_of_later hl e, backward as x, (backward_solves hl hd).1, (backward_solves hl hd).2,
    fun _ hq => eval_substList as hd e hq⟩

/-- C38: equations in the order of evaluation, as `algebraic_sort` returns them, are not
eliminated: for `y=x+1, z=y+1` the expression `z` becomes `y+1`, which still uses the defined
variable `y`. -/
theorem C38_eliminate_counterexample :
    let as : List (ℕ × Expr ℕ) := [(1, bin .add (var 0) (cst 1)), (2, bin .add (var 1) (cst 1))]
    substList (var 2) as = bin .add (var 1) (cst 1) ∧ 1 ∈ (substList (var 2) as).arguments := by
  constructor
  · simp [substList, subst]
  · simp [substList, subst, arguments]

/-- C38: nor is the substitution of a list simultaneous: exchanging two variables gives a
constant pair. -/
theorem C38_simultaneous_counterexample :
    let as : List (ℕ × Expr ℕ) := [(0, var 1), (1, var 0)]
    substList (bin .sub (var 0) (var 1)) as = bin .sub (var 0) (var 0) := by
  simp [substList, subst]

/-- Non-vacuity -/
example : LaterOnly ([(2, bin .add (var 1) (cst 1)), (1, bin .add (var 0) (cst 1))] : List (ℕ × Expr ℕ)) := by
  simp [LaterOnly, arguments, cst]
example (x : ℕ → ℝ) : BackwardDefined [(2, bin .add (var 1) (cst 1)), (1, bin .add (var 0) (cst 1))] x := by
  simp [BackwardDefined, eval, backward, cst, BinOp.eval]

end Ariadne.Symbolic
