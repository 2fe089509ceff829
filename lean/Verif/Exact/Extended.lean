import Verif.Exact.Model
import Verif.Exact.Spec
import Mathlib.Data.EReal.Inv
import Mathlib.Tactic.Linarith
import Mathlib.Data.Sign.Basic

/-!
# C48: arithmetic extended by infinities and NaN

The numbers other than NaN denote extended reals; the operations must be those of
the extended reals, with NaN exactly where the result is undefined.
-/

namespace Ariadne.Exact

/-- the extended real denoted; `none` for NaN -/
noncomputable def val : Ext ℚ → Option EReal
  | .nan => none
  | .pinf => some ⊤
  | .ninf => some ⊥
  | .fin x => some ((x : ℝ) : EReal)

/-- lift an operation of the extended reals, undefined where `bad` holds -/
noncomputable def lift2 (bad : EReal → EReal → Prop) [∀ a b, Decidable (bad a b)]
    (f : EReal → EReal → EReal) : Option EReal → Option EReal → Option EReal
  | some a, some b => if bad a b then none else some (f a b)
  | _, _ => none

open Classical in
/-- C48: sums. -/
theorem C48_add (x y : Ext ℚ) :
    val (xadd x y) = lift2 (fun a b => a = ⊤ ∧ b = ⊥ ∨ a = ⊥ ∧ b = ⊤) (· + ·) (val x) (val y) := by
  cases x <;> cases y <;> simp [xadd, val, lift2, setInf, sgn]

open Classical in
/-- C48: differences. -/
theorem C48_sub (x y : Ext ℚ) :
    val (xsub x y) = lift2 (fun a b => a = ⊤ ∧ b = ⊤ ∨ a = ⊥ ∧ b = ⊥) (· - ·) (val x) (val y) := by
  cases x <;> cases y <;> simp [xsub, val, lift2, setInf, sgn]

theorem sign_cases (q : ℚ) : (0 < q ∧ ((SignType.sign q : SignType) : ℤ) = 1) ∨
    (q = 0 ∧ ((SignType.sign q : SignType) : ℤ) = 0) ∨ (q < 0 ∧ ((SignType.sign q : SignType) : ℤ) = -1) := by
  rcases lt_trichotomy q 0 with h | h | h
  · right; right; exact ⟨h, by simp [sign_neg h]⟩
  · right; left; exact ⟨h, by simp [h]⟩
  · left; exact ⟨h, by simp [sign_pos h]⟩

open Classical in
/-- C48: products. -/
theorem C48_mul (x y : Ext ℚ) :
    val (xmul x y) =
      lift2 (fun a b => a = 0 ∧ (b = ⊤ ∨ b = ⊥) ∨ (a = ⊤ ∨ a = ⊥) ∧ b = 0) (· * ·) (val x) (val y) := by
  have c : ∀ q : ℚ, 0 < q → (0 : ℝ) < q := fun q h => by exact_mod_cast h
  have c' : ∀ q : ℚ, q < 0 → (q : ℝ) < 0 := fun q h => by exact_mod_cast h
  cases x with
  | nan => cases y <;> simp [xmul, val, lift2, setInf, sgn]
  | pinf => cases y with
    | fin q =>
      rcases sign_cases q with ⟨h, e⟩ | ⟨h, e⟩ | ⟨h, e⟩
      · simp [xmul, val, lift2, setInf, sgn, e, h.ne', EReal.top_mul_coe_of_pos (c q h)]
      · simp [xmul, val, lift2, setInf, sgn, h]
      · simp [xmul, val, lift2, setInf, sgn, e, h.ne, EReal.top_mul_coe_of_neg (c' q h)]
    | _ => simp [xmul, val, lift2, setInf, sgn]
  | ninf => cases y with
    | fin q =>
      rcases sign_cases q with ⟨h, e⟩ | ⟨h, e⟩ | ⟨h, e⟩
      · simp [xmul, val, lift2, setInf, sgn, e, h.ne', EReal.bot_mul_coe_of_pos (c q h)]
      · simp [xmul, val, lift2, setInf, sgn, h]
      · simp [xmul, val, lift2, setInf, sgn, e, h.ne, EReal.bot_mul_coe_of_neg (c' q h)]
    | _ => simp [xmul, val, lift2, setInf, sgn]
  | fin q => cases y with
    | fin r => simp [xmul, val, lift2]
    | nan => simp [xmul, val, lift2, setInf, sgn]
    | pinf =>
      rcases sign_cases q with ⟨h, e⟩ | ⟨h, e⟩ | ⟨h, e⟩
      · simp [xmul, val, lift2, setInf, sgn, e, h.ne', EReal.coe_mul_top_of_pos (c q h)]
      · simp [xmul, val, lift2, setInf, sgn, h]
      · simp [xmul, val, lift2, setInf, sgn, e, h.ne, EReal.coe_mul_top_of_neg (c' q h)]
    | ninf =>
      rcases sign_cases q with ⟨h, e⟩ | ⟨h, e⟩ | ⟨h, e⟩
      · simp [xmul, val, lift2, setInf, sgn, e, h.ne', EReal.coe_mul_bot_of_pos (c q h)]
      · simp [xmul, val, lift2, setInf, sgn, h]
      · simp [xmul, val, lift2, setInf, sgn, e, h.ne, EReal.coe_mul_bot_of_neg (c' q h)]

open Classical in
/-- C48: quotients; division by zero, of anything, is a fatal error. -/
theorem C48_div (x y : Ext ℚ) :
    (xdiv x y = none ↔ y = .fin 0) ∧
    ∀ z, xdiv x y = some z →
      val z = lift2 (fun a b => (a = ⊤ ∨ a = ⊥) ∧ (b = ⊤ ∨ b = ⊥)) (· / ·) (val x) (val y) := by
  have hrec : ∀ q : ℚ, xrec (.fin q) = if q = 0 then none else some (.fin q⁻¹) := fun q => rfl
  have hfin : ∀ q : ℚ, q ≠ 0 → (((q⁻¹ : ℚ) : ℝ) : EReal) = ((q : ℝ) : EReal)⁻¹ := by
    intro q _; push_cast; rw [← EReal.coe_inv]
  constructor
  · cases x <;> cases y <;> simp [xdiv, xrec]
  · intro z hz
    by_cases hff : ∃ p q, x = .fin p ∧ y = .fin q
    · obtain ⟨p, q, rfl, rfl⟩ := hff
      by_cases h0 : q = 0
      · simp [xdiv, h0] at hz
      · simp only [xdiv, h0, if_false, Option.some.injEq] at hz
        subst hz
        simp [val, lift2, EReal.coe_div]
    · have hz' : (xrec y).map (xmul x) = some z := by
        cases x <;> cases y <;> first | exact hz | (exfalso; exact hff ⟨_, _, rfl, rfl⟩)
      cases y with
      | nan => simp [xrec] at hz'; subst hz'; rw [C48_mul]; cases x <;> simp [val, lift2]
      | pinf =>
        simp [xrec] at hz'; subst hz'; rw [C48_mul]
        cases x <;> simp [val, lift2, EReal.div_top]
      | ninf =>
        simp [xrec] at hz'; subst hz'; rw [C48_mul]
        cases x <;> simp [val, lift2, EReal.div_bot]
      | fin q =>
        by_cases h0 : q = 0
        · simp [xrec, h0] at hz'
        · simp [xrec, h0] at hz'; subst hz'; rw [C48_mul]
          cases x with
          | fin p => exact absurd ⟨p, q, rfl, rfl⟩ hff
          | nan => simp [val, lift2]
          | pinf => simp [val, lift2, h0, EReal.div_eq_inv_mul, mul_comm, ← EReal.coe_inv]
          | ninf => simp [val, lift2, h0, EReal.div_eq_inv_mul, mul_comm, ← EReal.coe_inv]

/-- C48: negation, halving and absolute value. -/
theorem C48_unary (x : Ext ℚ) :
    val (xneg x) = (val x).map (- ·) ∧
    val (xhlf x) = (val x).map (· / 2) ∧
    val (xabs x) = (val x).map (fun a => max a (-a)) := by
  refine ⟨?_, ?_, ?_⟩
  · cases x <;> simp [xneg, val, setInf, sgn]
  · have h2 : (2 : EReal) = ((2 : ℝ) : EReal) := rfl
    cases x with
    | nan => simp [xhlf, val, setInf, sgn]
    | pinf =>
      simp only [xhlf, val, setInf, sgn, Option.map_some]
      rw [h2, EReal.top_div_of_pos_ne_top (by exact_mod_cast (by norm_num : (0 : ℝ) < 2)) (EReal.coe_ne_top _)]; simp
    | ninf =>
      simp only [xhlf, val, setInf, sgn, Option.map_some]
      rw [h2, EReal.bot_div_of_pos_ne_top (by exact_mod_cast (by norm_num : (0 : ℝ) < 2)) (EReal.coe_ne_top _)]; simp
    | fin q =>
      simp only [xhlf, val, Option.map_some]
      rw [h2, ← EReal.coe_div]; push_cast; rfl
  · cases x with
    | fin q =>
      simp only [xabs, val, Option.map_some]
      rw [← EReal.coe_neg, ← EReal.coe_strictMono.monotone.map_max]; push_cast; rfl
    | _ => simp [xabs, val, setInf, sgn]

open Classical in
/-- C48: maxima and minima. -/
theorem C48_max_min (x y : Ext ℚ) :
    val (xmax x y) = lift2 (fun _ _ => False) max (val x) (val y) ∧
    val (xmin x y) = lift2 (fun _ _ => False) min (val x) (val y) := by
  have c : ∀ {p q : ℚ}, p ≤ q → ((p : ℝ) : EReal) ≤ ((q : ℝ) : EReal) := fun h => by exact_mod_cast h
  constructor
  · cases x <;> cases y <;> try simp [xmax, val, lift2]
    split_ifs with h
    · rw [max_eq_left (c h)]
    · rw [max_eq_right (c (not_le.1 h).le)]
  · cases x <;> cases y <;> try simp [xmin, val, lift2]
    split_ifs with h
    · rw [min_eq_left (c h)]
    · rw [min_eq_right (c (not_le.1 h).le)]

/-- C48: equality and comparison of numbers other than NaN. -/
theorem C48_compare {x y : Ext ℚ} {a b : EReal} (hx : val x = some a) (hy : val y = some b) :
    (xeq x y = true ↔ a = b) ∧ (eqW x y = true ↔ a = b) ∧
    (ltW x y = true ↔ a < b) ∧ (ltQ x y = true ↔ a < b) ∧
    (leW x y = true ↔ a ≤ b) ∧ (leQ x y = true ↔ a ≤ b) := by
  have c : ∀ p q : ℚ, ((p : ℝ) : EReal) < ((q : ℝ) : EReal) ↔ p < q := fun p q => by norm_cast
  have ce : ∀ p q : ℚ, ((p : ℝ) : EReal) = ((q : ℝ) : EReal) ↔ p = q := fun p q => by norm_cast
  have key : ∀ (x y : Ext ℚ) (a b : EReal), val x = some a → val y = some b →
      (xcmp x y = LESS ↔ a < b) ∧ (xcmp x y = EQUAL ↔ a = b) ∧ (xcmp x y < EQUAL ↔ a < b) := by
    intro x y a b hx hy
    cases x <;> cases y <;> simp only [val, Option.some.injEq, reduceCtorEq] at hx hy <;> subst hx <;> subst hy
    case fin.fin p q =>
      rw [c, ce]; unfold xcmp LESS EQUAL GREATER
      rcases lt_trichotomy p q with h | h | h
      · simp [h, h.ne]
      · simp [h]
      · simp [h, h.not_gt, h.ne']
    all_goals simp [xcmp, sgn, LESS, EQUAL, GREATER]
  obtain ⟨k1, k2, k3⟩ := key x y a b hx hy
  obtain ⟨j1, j2, j3⟩ := key y x b a hy hx
  refine ⟨?_, by simp [eqW, k2], by simp [ltW, k1], by simp [ltQ, k3], ?_, ?_⟩
  · cases x <;> cases y <;> simp only [val, Option.some.injEq, reduceCtorEq] at hx hy <;> subst hx <;> subst hy <;>
      simp [xeq, sgn]
  · rw [← not_lt, ← j1]; simp [leW, ltW]
  · rw [← not_lt, ← j3]; simp [leQ, ltQ]

/-- C48: NaN is equal to nothing, and dyadic `<` never holds with it. -/
theorem C48_nan_partial (x : Ext ℚ) :
    xeq .nan x = false ∧ xeq x .nan = false ∧ eqW .nan x = false ∧ eqW x .nan = false ∧
    ltW .nan x = false ∧ ltW x .nan = false := by
  cases x <;> simp [xeq, eqW, ltW, xcmp, INCOMPARABLE, EQUAL, LESS]

/-- C48 fails: for rationals NaN is less than everything, itself included, and
for dyadics NaN is less than or equal to, and greater than or equal to, everything. -/
theorem C48_nan_counterexample (x : Ext ℚ) :
    ltQ .nan x = true ∧ ltQ x .nan = true ∧ leW .nan x = true ∧ leW x .nan = true := by
  cases x <;> simp [ltQ, leW, ltW, xcmp, INCOMPARABLE, EQUAL, LESS]

example : xadd .pinf (.fin 2) = .pinf ∧ xadd .pinf .ninf = .nan ∧ xmul .ninf (.fin (-2)) = .pinf ∧
    xdiv (.fin 3) .ninf = some (.fin 0) ∧ xmax .ninf (.fin 1) = .fin 1 := by decide +kernel

end Ariadne.Exact
