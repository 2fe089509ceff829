import Verif.TaylorModel.Model
import Verif.Expansion.Props
import Mathlib.Algebra.Order.BigOperators.Group.List
import Mathlib.Algebra.Order.AbsoluteValue.Basic

/-!
# Properties C24, C25 and C26: validated arithmetic and sweeping of Taylor models
-/

namespace Verif.TaylorModel

open Ariadne (Rounding)
open Ariadne.Rounding
open Verif.Expansion

variable {K : Type*} [Field K] [LinearOrder K] [IsStrictOrderedRing K]

/-! ## Specification -/

/-- Points of the unit box in dimension `n`. -/
def InBox (n : Nat) (x : List K) : Prop := x.length = n ∧ ∀ y ∈ x, |y| ≤ 1

/-- The model encloses the function: everywhere on the unit box the function is within the error of
the polynomial. -/
def Encloses (n : Nat) (t : TM K) (f : List K → K) : Prop :=
  ∀ x, InBox n x → |f x - value (monomial x) t.terms| ≤ t.err

/-- All indices have `n` components. -/
def WF (n : Nat) (t : TM K) : Prop := ∀ u ∈ t.terms, u.1.length = n

/-- The numbers inside the bounds. -/
def Num.Has (c : Num K) (y : K) : Prop := c.l ≤ y ∧ y ≤ c.u

/-! ## Monomials and values -/

theorem monomial_nil_left (a : List Nat) : monomial ([] : List K) a = 1 := by simp [monomial]
theorem monomial_nil_right (x : List K) : monomial x [] = 1 := by simp [monomial]
theorem monomial_cons (y : K) (x : List K) (k : Nat) (a : List Nat) :
    monomial (y :: x) (k :: a) = y ^ k * monomial x a := by simp [monomial]

theorem abs_monomial_le (x : List K) (hx : ∀ y ∈ x, |y| ≤ 1) (a : List Nat) :
    |monomial x a| ≤ 1 := by
  induction x generalizing a with
  | nil => simp [monomial]
  | cons y x ih =>
    cases a with
    | nil => simp [monomial]
    | cons k a =>
      rw [monomial_cons, abs_mul, abs_pow]
      exact mul_le_one₀ (pow_le_one₀ (abs_nonneg _) (hx y (by simp))) (abs_nonneg _)
        (ih (fun z hz => hx z (by simp [hz])) a)

theorem monomial_addIndex (x : List K) (a b : List Nat) (hab : a.length = b.length)
    (h : a.sum + b.sum < 65536) : monomial x (addIndex a b) = monomial x a * monomial x b := by
  induction x generalizing a b with
  | nil => simp [monomial]
  | cons y x ih =>
    cases a with
    | nil => cases b with
      | nil => simp [monomial, addIndex]
      | cons _ _ => simp at hab
    | cons j a =>
      cases b with
      | nil => simp at hab
      | cons k b =>
        simp only [List.length_cons, Nat.add_right_cancel_iff] at hab
        simp only [List.sum_cons] at h
        have e : addIndex (j :: a) (k :: b) = (j + k) :: addIndex a b := by
          simp only [addIndex, List.zipWith_cons_cons, wrap]
          rw [Nat.mod_eq_of_lt (by omega)]
        rw [e, monomial_cons, monomial_cons, monomial_cons, ih a b hab (by omega), pow_add]
        ring

@[simp] theorem value_nil (m : List Nat → K) : value m ([] : Terms (List Nat) K) = 0 := by
  simp [value]

@[simp] theorem value_cons (m : List Nat → K) (t : List Nat × K) (p : Terms (List Nat) K) :
    value m (t :: p) = t.2 * m t.1 + value m p := by simp [value]

@[simp] theorem value_append (m : List Nat → K) (p q : Terms (List Nat) K) :
    value m (p ++ q) = value m p + value m q := by simp [value]

theorem Encloses.err_nonneg {n : Nat} {t : TM K} {f : List K → K} (h : Encloses n t f) :
    0 ≤ t.err :=
  (abs_nonneg _).trans (h (List.replicate n 0) ⟨by simp, fun y hy => by
    rw [(List.mem_replicate.1 hy).2]; simp⟩)

/-! ## Rounding errors of the elementary operations -/

section Err
variable (R : Rounding K)

theorem accum_ge (u ml e : K) : e + (u + ml) / 2 ≤ accum R u ml e := by
  unfold accum
  have h1 := R.le_up (u + ml)
  have h2 := R.le_up (R.up (u + ml) / 2)
  have h3 := R.le_up (e + R.up (R.up (u + ml) / 2))
  linarith

theorem accum_le {u ml e x : K} (h : x ≤ (u + ml) / 2) : x ≤ accum R u ml e - e := by
  have := accum_ge R u ml e
  linarith

/-- Rounding to nearest is within half of any interval of representable numbers around the
argument. -/
theorem near_half (z u ml : K) (hu : R.up z ≤ u) (hl : R.up (-z) ≤ ml) :
    |R.near z - z| ≤ (u + ml) / 2 := by
  have h1 := R.near_down z
  have h2 := R.near_up z
  rw [up_neg] at hl
  linarith

/-- `add_err` accounts for its rounding error. -/
theorem addErr_ok (x y e : K) :
    |(addErr R x y e).1 - (x + y)| ≤ (addErr R x y e).2 - e :=
  accum_le R (near_half R _ _ _ le_rfl (by rw [neg_add']))

theorem subErr_ok (x y e : K) :
    |(subErr R x y e).1 - (x - y)| ≤ (subErr R x y e).2 - e :=
  accum_le R (near_half R _ _ _ le_rfl (by rw [neg_sub, neg_add_eq_sub]))

theorem mulErr_ok (x y e : K) :
    |(mulErr R x y e).1 - x * y| ≤ (mulErr R x y e).2 - e :=
  accum_le R (near_half R _ _ _ le_rfl (by rw [neg_mul]))

theorem divErr_ok (x y e : K) :
    |(divErr R x y e).1 - x / y| ≤ (divErr R x y e).2 - e :=
  accum_le R (near_half R _ _ _ le_rfl (by rw [neg_div]))

theorem exact_value (c : K) (h : R.Rep c) : (Num.exact c).value R = c := by
  have : c + c = 2 * c := by ring
  unfold Num.value Num.exact
  simp only
  rw [this, near_of_rep R (R.rep_two c h)]
  ring

theorem exact_error (c : K) (h : R.Rep c) : (Num.exact c).error R = 0 := by
  unfold Num.error
  rw [exact_value R c h]
  simp only [Num.exact, sub_self, max_self]
  exact up_of_rep R R.rep_zero

/-- The value of proper bounds with representable ends lies between them. -/
theorem value_mem (c : Num K) (hl : R.Rep c.l) (hu : R.Rep c.u) (h : c.l ≤ c.u) :
    c.l ≤ c.value R ∧ c.value R ≤ c.u := by
  unfold Num.value
  have h1 : R.near (2 * c.l) ≤ R.near (c.l + c.u) := near_mono R (by linarith)
  have h2 : R.near (c.l + c.u) ≤ R.near (2 * c.u) := near_mono R (by linarith)
  rw [near_of_rep R (R.rep_two _ hl)] at h1
  rw [near_of_rep R (R.rep_two _ hu)] at h2
  constructor <;> linarith

theorem error_ok (c : Num K) (y : K) (hy : c.Has y) : |y - c.value R| ≤ c.error R := by
  unfold Num.error
  rw [abs_le]
  have h1 := (R.le_up (c.u - c.value R)).trans (le_max_left _ (R.up (c.value R - c.l)))
  have h2 := (R.le_up (c.value R - c.l)).trans (le_max_right (R.up (c.u - c.value R)) _)
  have h3 := hy.1
  have h4 := hy.2
  constructor <;> linarith

/-- `add_err` with a scalar accounts for its error up to a factor of two. -/
theorem addErrB_ok2 (x : K) (c : Num K) (hl : R.Rep c.l) (hu : R.Rep c.u) (y e : K)
    (hy : c.Has y) : |(addErrB R x c e).1 - (x + y)| ≤ 2 * ((addErrB R x c e).2 - e) := by
  have hacc := accum_ge R (R.up (x + c.u)) (R.up (-x - c.l)) e
  obtain ⟨v1, v2⟩ := value_mem R c hl hu (hy.1.trans hy.2)
  have e1 : R.up (-x - c.l) = -R.down (x + c.l) := by rw [← up_neg]; congr 1; ring
  have n1 : R.down (x + c.l) ≤ R.near (x + c.value R) := by
    have h0 : R.down (x + c.l) ≤ R.down (x + c.value R) := down_mono R (by linarith)
    rcases R.near_cases (x + c.value R) with h | h <;> rw [h]
    · exact h0
    · exact h0.trans ((R.down_le _).trans (R.le_up _))
  have n2 : R.near (x + c.value R) ≤ R.up (x + c.u) := by
    have h0 : R.up (x + c.value R) ≤ R.up (x + c.u) := up_mono R (by linarith)
    rcases R.near_cases (x + c.value R) with h | h <;> rw [h]
    · exact ((R.down_le _).trans (R.le_up _)).trans h0
    · exact h0
  have m1 := R.down_le (x + c.l)
  have m2 := R.le_up (x + c.u)
  have h3 := hy.1
  have h4 := hy.2
  simp only [addErrB]
  rw [abs_le]
  constructor <;> linarith

theorem addErrB_exact (x c : K) (h : R.Rep c) (e : K) :
    |(addErrB R x (Num.exact c) e).1 - (x + c)| ≤ (addErrB R x (Num.exact c) e).2 - e := by
  simp only [addErrB]
  rw [exact_value R c h]
  exact accum_le R (near_half R _ _ _ le_rfl (by simp only [Num.exact]; rw [neg_add']))

/-- `mul_err` with a scalar accounts for its error up to a factor of two. -/
theorem mulErrB_ok2 (x : K) (c : Num K) (hl : R.Rep c.l) (hu : R.Rep c.u) (y e : K)
    (hy : c.Has y) : |(mulErrB R x c e).1 - x * y| ≤ 2 * ((mulErrB R x c e).2 - e) := by
  obtain ⟨v1, v2⟩ := value_mem R c hl hu (hy.1.trans hy.2)
  -- the result and the exact product lie between the rounded end points
  have key : ∀ lo hi : K, (lo ≤ x * c.value R ∧ x * c.value R ≤ hi) → (lo ≤ x * y ∧ x * y ≤ hi) →
      |R.near (x * c.value R) - x * y| ≤ 2 * (accum R (R.up hi) (R.up (-lo)) e - e) := by
    intro lo hi h1 h2
    have hacc := accum_ge R (R.up hi) (R.up (-lo)) e
    rw [up_neg] at hacc ⊢
    have n1 : R.down lo ≤ R.near (x * c.value R) := by
      have h0 : R.down lo ≤ R.down (x * c.value R) := down_mono R h1.1
      rcases R.near_cases (x * c.value R) with h | h <;> rw [h]
      · exact h0
      · exact h0.trans ((R.down_le _).trans (R.le_up _))
    have n2 : R.near (x * c.value R) ≤ R.up hi := by
      have h0 : R.up (x * c.value R) ≤ R.up hi := up_mono R h1.2
      rcases R.near_cases (x * c.value R) with h | h <;> rw [h]
      · exact ((R.down_le _).trans (R.le_up _)).trans h0
      · exact h0
    have m1 := R.down_le lo
    have m2 := R.le_up hi
    obtain ⟨h3, h4⟩ := h2
    rw [abs_le]
    constructor <;> linarith
  unfold mulErrB
  by_cases hx : 0 ≤ x
  · simp only [if_pos hx]
    rw [mul_neg]
    exact key _ _ ⟨mul_le_mul_of_nonneg_left v1 hx, mul_le_mul_of_nonneg_left v2 hx⟩
      ⟨mul_le_mul_of_nonneg_left hy.1 hx, mul_le_mul_of_nonneg_left hy.2 hx⟩
  · simp only [if_neg hx]
    have hx' : x ≤ 0 := (not_le.1 hx).le
    rw [mul_neg]
    exact key _ _ ⟨mul_le_mul_of_nonpos_left v2 hx', mul_le_mul_of_nonpos_left v1 hx'⟩
      ⟨mul_le_mul_of_nonpos_left hy.2 hx', mul_le_mul_of_nonpos_left hy.1 hx'⟩

theorem mulErrB_exact (x c : K) (h : R.Rep c) (e : K) :
    |(mulErrB R x (Num.exact c) e).1 - x * c| ≤ (mulErrB R x (Num.exact c) e).2 - e := by
  have key : |R.near (x * c) - x * c| ≤ accum R (R.up (x * c)) (R.up (x * -c)) e - e :=
    accum_le R (near_half R _ _ _ le_rfl (by rw [mul_neg]))
  unfold mulErrB
  rw [exact_value R c h]
  simp only [Num.exact, ite_self]
  exact key

/-- What `fma_err` leaves out: the error of rounding the product. -/
theorem fmaErr_ok (x y z e : K) :
    |(fmaErr R x y z e).1 - (x * y + z)| ≤
      (fmaErr R x y z e).2 - e + |R.near (x * y) - x * y| := by
  have h1 : |R.near (R.near (x * y) + z) - (R.near (x * y) + z)| ≤
      (fmaErr R x y z e).2 - e := by
    apply accum_le R
    apply near_half R
    · apply up_mono R
      have : R.near (x * y) ≤ R.up (x * y) := by
        rcases R.near_cases (x * y) with h | h <;> rw [h]
        exact (R.down_le _).trans (R.le_up _)
      linarith
    · apply up_mono R
      have : -R.near (x * y) ≤ R.up (x * -y) := by
        rw [mul_neg, up_neg]
        rcases R.near_cases (x * y) with h | h <;> rw [h]
        exact neg_le_neg ((R.down_le _).trans (R.le_up _))
      linarith
  calc |(fmaErr R x y z e).1 - (x * y + z)|
      = |(R.near (R.near (x * y) + z) - (R.near (x * y) + z)) + (R.near (x * y) - x * y)| := by
        unfold fmaErr; congr 1; ring
    _ ≤ _ := (abs_add_le _ _).trans (add_le_add h1 le_rfl)

end Err

/-! ## C26: sweeping -/

section Sweep
variable (R : Rounding K)

theorem sweepLoop_ok (d : List Nat → K → Bool) (m : List Nat → K) (hm : ∀ a, |m a| ≤ 1)
    (p : Terms (List Nat) K) (e : K) :
    |value m p - value m (sweepLoop R d p e).1| ≤ (sweepLoop R d p e).2 - e := by
  induction p generalizing e with
  | nil => simp [sweepLoop]
  | cons t p ih =>
    obtain ⟨a, c⟩ := t
    unfold sweepLoop
    by_cases h : d a c = true
    · rw [if_pos h]
      have h1 := ih (R.up (e + |c|))
      have h2 := R.le_up (e + |c|)
      have h3 : |c * m a| ≤ |c| := by
        rw [abs_mul]
        exact mul_le_of_le_one_right (abs_nonneg _) (hm a)
      rw [value_cons]
      simp only
      rw [add_sub_assoc]
      have := abs_add_le (c * m a) (value m p - value m (sweepLoop R d p (R.up (e + |c|))).1)
      linarith
    · rw [if_neg h]
      simp only [value_cons]
      rw [add_sub_add_left_eq_sub]
      exact ih e

/-- **C26** (all sweepers): a function enclosed by a model is enclosed by the swept model, whatever
terms the sweeper chooses to discard, in any precision. -/
theorem C26_sweep (n : Nat) (s : Sweeper K) (t : TM K) (f : List K → K) (h : Encloses n t f) :
    Encloses n (sweep R s t) f := by
  intro x hx
  have h1 := h x hx
  have h2 := sweepLoop_ok R (s t) (monomial x) (abs_monomial_le x hx.2) t.terms 0
  have h3 := R.le_up (t.err + (sweepLoop R (s t) t.terms 0).2)
  unfold sweep
  simp only
  have h4 := abs_sub_le (f x) (value (monomial x) t.terms)
    (value (monomial x) (sweepLoop R (s t) t.terms 0).1)
  linarith

theorem mem_sweepLoop {d : List Nat → K → Bool} {p : Terms (List Nat) K} {e : K}
    {u : List Nat × K} (h : u ∈ (sweepLoop R d p e).1) : u ∈ p := by
  induction p generalizing e with
  | nil => simp [sweepLoop] at h
  | cons t p ih =>
    obtain ⟨a, c⟩ := t
    unfold sweepLoop at h
    by_cases hd : d a c = true
    · rw [if_pos hd] at h
      exact List.mem_cons_of_mem _ (ih h)
    · rw [if_neg hd] at h
      rcases List.mem_cons.1 h with h | h
      · rw [h]; simp
      · exact List.mem_cons_of_mem _ (ih h)

theorem mem_sweep {s : Sweeper K} {t : TM K} {u : List Nat × K} (h : u ∈ (sweep R s t).terms) :
    u ∈ t.terms := mem_sweepLoop R h

/-- **C26** (nothing is invented): the remaining terms are a sublist of the original ones, in
particular they keep their order and their coefficients, and none of them satisfies the criterion
for being discarded. -/
theorem C26_terms (s : Sweeper K) (t : TM K) :
    (sweep R s t).terms.Sublist t.terms ∧ ∀ u ∈ (sweep R s t).terms, s t u.1 u.2 = false := by
  have key : ∀ (d : List Nat → K → Bool) (p : Terms (List Nat) K) (e : K),
      (sweepLoop R d p e).1.Sublist p ∧ ∀ u ∈ (sweepLoop R d p e).1, d u.1 u.2 = false := by
    intro d p
    induction p with
    | nil => intro e; simp [sweepLoop]
    | cons t p ih =>
      intro e
      obtain ⟨a, c⟩ := t
      unfold sweepLoop
      by_cases h : d a c = true
      · rw [if_pos h]
        exact ⟨(ih _).1.trans (List.sublist_cons_self _ _), (ih _).2⟩
      · rw [if_neg h]
        refine ⟨(ih e).1.cons_cons _, ?_⟩
        intro u hu
        rcases List.mem_cons.1 hu with rfl | hu
        · simpa using h
        · exact (ih e).2 u hu
  exact key (s t) t.terms 0

/-- The functions enclosed by a model with interval coefficients: for some choice of the
coefficients, the function is within the error of the polynomial. -/
def EnclosesB (n : Nat) (p : Terms (List Nat) (Num K)) (e : K) (f : List K → K) : Prop :=
  ∃ q : Terms (List Nat) K, List.Forall₂ (fun u v => u.1 = v.1 ∧ u.2.Has v.2) p q ∧
    ∀ x, InBox n x → |f x - value (monomial x) q| ≤ e

/-- **C26** (interval coefficients, relative sweeper): no enclosed function is lost. -/
theorem C26_sweep_relative (d : List Nat → Num K → Bool) (n : Nat)
    (p : Terms (List Nat) (Num K)) (e : K) (f : List K → K) (h : EnclosesB n p e f) :
    EnclosesB n (sweepLoopRel R d p 0).1 (R.up (e + (sweepLoopRel R d p 0).2)) f := by
  obtain ⟨q, hq, hf⟩ := h
  have key : ∀ (p : Terms (List Nat) (Num K)) (q : Terms (List Nat) K) (te : K),
      List.Forall₂ (fun u v => u.1 = v.1 ∧ u.2.Has v.2) p q →
      ∃ r, List.Forall₂ (fun u v => u.1 = v.1 ∧ u.2.Has v.2) (sweepLoopRel R d p te).1 r ∧
        ∀ m : List Nat → K, (∀ a, |m a| ≤ 1) →
          |value m q - value m r| ≤ (sweepLoopRel R d p te).2 - te := by
    intro p
    induction p with
    | nil =>
      intro q te hq
      cases hq
      exact ⟨[], by simp [sweepLoopRel], by intro m _; simp [sweepLoopRel]⟩
    | cons t p ih =>
      intro q te hq
      obtain ⟨a, c⟩ := t
      cases hq with
      | @cons _ v _ q hv hq =>
        obtain ⟨b, y⟩ := v
        obtain ⟨hab, hy⟩ := hv
        simp only at hab hy
        unfold sweepLoopRel
        by_cases h : d a c = true
        · rw [if_pos h]
          obtain ⟨r, h1, h2⟩ := ih q (R.up (te + c.mag)) hq
          refine ⟨r, h1, ?_⟩
          intro m hm
          have h3 := h2 m hm
          have h4 := R.le_up (te + c.mag)
          have h5 : |y| ≤ c.mag := by
            unfold Num.mag
            rw [abs_le]
            have := le_max_left (-c.l) c.u
            have := le_max_right (-c.l) c.u
            have := hy.1
            have := hy.2
            constructor <;> linarith
          have h6 : |y * m b| ≤ c.mag := by
            rw [abs_mul]
            exact (mul_le_of_le_one_right (abs_nonneg _) (hm b)).trans h5
          rw [value_cons]
          simp only
          rw [add_sub_assoc]
          have := abs_add_le (y * m b) (value m q - value m r)
          linarith
        · rw [if_neg h]
          obtain ⟨r, h1, h2⟩ := ih q te hq
          refine ⟨(b, y) :: r, List.Forall₂.cons ⟨hab, hy⟩ h1, ?_⟩
          intro m hm
          simp only [value_cons]
          rw [add_sub_add_left_eq_sub]
          exact h2 m hm
  obtain ⟨r, h1, h2⟩ := key p q 0 hq
  refine ⟨r, h1, ?_⟩
  intro x hx
  have h3 := h2 (monomial x) (abs_monomial_le x hx.2)
  have h4 := hf x hx
  have h5 := R.le_up (e + (sweepLoopRel R d p 0).2)
  have h6 := abs_sub_le (f x) (value (monomial x) q) (value (monomial x) r)
  linarith

/-- **C26** fails for models with interval coefficients and the absolute sweepers: sweeping the
model `x` (with error zero) by a sweeper that discards the term gives the zero model with error
zero, which does not enclose the identity. -/
theorem C26_bounds_counterexample :
    ∃ (p : Terms (List Nat) (Num ℚ)) (d : List Nat → Num ℚ → Bool) (f : List ℚ → ℚ),
      EnclosesB 1 p 0 f ∧ ¬ EnclosesB 1 (sweepLoopB d p 0).1 (0 + (sweepLoopB d p 0).2) f := by
  refine ⟨[([1], ⟨1, 1⟩)], fun a _ => decide (degree a > 0), fun x => x.headD 0, ?_, ?_⟩
  · refine ⟨[([1], 1)], by simp [Num.Has], ?_⟩
    intro x hx
    obtain ⟨y, rfl⟩ := List.length_eq_one_iff.1 hx.1
    simp [monomial]
  · rintro ⟨q, hq, hf⟩
    have e1 : (sweepLoopB (fun a (_ : Num ℚ) => decide (degree a > 0))
        [([1], ⟨1, 1⟩)] (0 : ℚ)).1 = [] := by
      simp [sweepLoopB, degree, wrap]
    rw [e1] at hq
    cases hq
    have := hf [1] ⟨rfl, by simp⟩
    simp [sweepLoopB, degree, wrap] at this
    norm_num at this

/-- Non-vacuity of C26: the model `1 + x/4 ± 1/8` encloses `1 + x/4`, and a threshold sweeper with
threshold `1/2` discards the linear term. -/
example : Encloses 1 (⟨[([1], 1 / 4), ([0], 1)], 1 / 8⟩ : TM ℚ) (fun x => 1 + x.headD 0 / 4) ∧
    (sweep (Ariadne.PBit.rounding 53 (by norm_num)) (thresholdSweeper (1 / 2))
      (⟨[([1], 1 / 4), ([0], 1)], 1 / 8⟩ : TM ℚ)).terms = [([0], 1)] ∧
    (sweep (Ariadne.PBit.rounding 53 (by norm_num)) (thresholdSweeper (1 / 2))
      (⟨[([1], 1 / 4), ([0], 1)], 1 / 8⟩ : TM ℚ)).err = 3 / 8 := by
  refine ⟨?_, by decide +kernel, by decide +kernel⟩
  intro x hx
  obtain ⟨y, rfl⟩ := List.length_eq_one_iff.1 hx.1
  simp [monomial]
  have : 1 + y / 4 - (4⁻¹ * y + 1) = 0 := by ring
  rw [this]
  norm_num

end Sweep

/-! ## C24: linear operations -/

section Linear
variable (R : Rounding K)

theorem apply1_ok (op : K → K → K × K) (g : K → K) (k : K)
    (hop : ∀ c e, |(op c e).1 - g c| ≤ k * ((op c e).2 - e)) (m : List Nat → K)
    (hm : ∀ a, |m a| ≤ 1) (p : Terms (List Nat) K) (e : K) :
    |(p.map (fun t => g t.2 * m t.1)).sum - value m (apply1 op p e).1| ≤
      k * ((apply1 op p e).2 - e) := by
  induction p generalizing e with
  | nil => simp [apply1]
  | cons t p ih =>
    obtain ⟨a, c⟩ := t
    unfold apply1
    simp only [List.map_cons, List.sum_cons, value_cons]
    have h1 := ih (op c e).2
    have h2 := hop c e
    have h3 : |(g c - (op c e).1) * m a| ≤ k * ((op c e).2 - e) := by
      rw [abs_mul, abs_sub_comm]
      exact (mul_le_of_le_one_right (abs_nonneg _) (hm a)).trans h2
    have h4 := abs_add_le ((g c - (op c e).1) * m a)
      ((p.map (fun t => g t.2 * m t.1)).sum - value m (apply1 op p (op c e).2).1)
    have h5 : g c * m a + (p.map (fun t => g t.2 * m t.1)).sum -
        ((op c e).1 * m a + value m (apply1 op p (op c e).2).1) =
        (g c - (op c e).1) * m a +
          ((p.map (fun t => g t.2 * m t.1)).sum - value m (apply1 op p (op c e).2).1) := by ring
    rw [h5]
    linarith [h4]

theorem mem_apply1 {op : K → K → K × K} {p : Terms (List Nat) K} {e : K} {u : List Nat × K}
    (h : u ∈ (apply1 op p e).1) : ∃ v ∈ p, v.1 = u.1 := by
  induction p generalizing e with
  | nil => simp [apply1] at h
  | cons t p ih =>
    obtain ⟨a, c⟩ := t
    unfold apply1 at h
    rcases List.mem_cons.1 h with h | h
    · exact ⟨(a, c), by simp, by rw [h]⟩
    · obtain ⟨v, h1, h2⟩ := ih h
      exact ⟨v, List.mem_cons_of_mem _ h1, h2⟩

theorem sum_mul_eq (m : List Nat → K) (p : Terms (List Nat) K) (c : K) :
    (p.map (fun t => t.2 * c * m t.1)).sum = c * value m p := by
  induction p with
  | nil => simp
  | cons t p ih =>
    simp only [List.map_cons, List.sum_cons, value_cons, ih]
    ring

/-- **C24** (negation). -/
theorem C24_neg (n : Nat) (x : TM K) (f : List K → K) (h : Encloses n x f) :
    Encloses n (neg R x) (fun z => -f z) := by
  intro z hz
  have h1 := h z hz
  have h2 := apply1_ok (fun c e => (-c, e)) (fun c => -c) 1 (by simp) (monomial z)
    (abs_monomial_le z hz.2) x.terms 0
  have h3 : (x.terms.map (fun t => -t.2 * monomial z t.1)).sum = -value (monomial z) x.terms := by
    have := sum_mul_eq (monomial z) x.terms (-1)
    simpa [neg_mul] using this
  rw [h3] at h2
  unfold neg sparseApply1
  simp only
  have h4 := R.le_up (x.err + (apply1 (fun c e => (-c, e)) x.terms 0).2)
  have h5 := abs_sub_le (-f z) (-value (monomial z) x.terms)
    (value (monomial z) (apply1 (fun c e => (-c, e)) x.terms 0).1)
  have h6 : |-f z - -value (monomial z) x.terms| = |f z - value (monomial z) x.terms| := by
    rw [← abs_neg]; congr 1; ring
  rw [h6] at h5
  linarith

theorem abs_le_mag {c : Num K} {y : K} (hy : c.Has y) : |y| ≤ c.mag := by
  unfold Num.mag
  rw [abs_le]
  have := le_max_left (-c.l) c.u
  have := le_max_right (-c.l) c.u
  have := hy.1
  have := hy.2
  constructor <;> linarith

theorem scal_ok (n : Nat) (x : TM K) (f : List K → K) (h : Encloses n x f) (c : Num K) (y k : K)
    (hy : c.Has y) (hk : ∀ v e, |(mulErrB R v c e).1 - v * y| ≤ k * ((mulErrB R v c e).2 - e))
    (hk1 : 1 ≤ k) (z : List K) (hz : InBox n z) :
    |y * f z - value (monomial z) (scal R x c).terms| ≤ k * (scal R x c).err := by
  have h1 := h z hz
  have h2 := apply1_ok (fun v e => mulErrB R v c e) (fun v => v * y) k hk (monomial z)
    (abs_monomial_le z hz.2) x.terms 0
  rw [sum_mul_eq] at h2
  unfold scal sparseApply1
  simp only
  have h3 := R.le_up (x.err * c.mag)
  have h4 := R.le_up (R.up (x.err * c.mag) + (apply1 (fun v e => mulErrB R v c e) x.terms 0).2)
  have h5 := abs_sub_le (y * f z) (y * value (monomial z) x.terms)
    (value (monomial z) (apply1 (fun v e => mulErrB R v c e) x.terms 0).1)
  have h6 : |y * f z - y * value (monomial z) x.terms| ≤ x.err * c.mag := by
    rw [← mul_sub, abs_mul, mul_comm]
    exact mul_le_mul h1 (abs_le_mag hy) (abs_nonneg _) h.err_nonneg
  have h7 : 0 ≤ x.err * c.mag := (abs_nonneg _).trans h6
  have h8 : x.err * c.mag + k * (apply1 (fun v e => mulErrB R v c e) x.terms 0).2 ≤
      k * R.up (R.up (x.err * c.mag) + (apply1 (fun v e => mulErrB R v c e) x.terms 0).2) := by
    have h9 : k * (R.up (x.err * c.mag) + (apply1 (fun v e => mulErrB R v c e) x.terms 0).2) ≤
        k * R.up (R.up (x.err * c.mag) + (apply1 (fun v e => mulErrB R v c e) x.terms 0).2) :=
      mul_le_mul_of_nonneg_left h4 (by linarith)
    have h10 : x.err * c.mag ≤ k * R.up (x.err * c.mag) := by
      calc x.err * c.mag ≤ R.up (x.err * c.mag) := h3
        _ ≤ k * R.up (x.err * c.mag) := le_mul_of_one_le_left (h7.trans h3) hk1
    rw [mul_add] at h9
    linarith
  linarith

/-- **C24** (scaling by an exact number): the product with a representable number encloses every
product. -/
theorem C24_scal_exact (n : Nat) (x : TM K) (f : List K → K) (h : Encloses n x f) (c : K)
    (hc : R.Rep c) : Encloses n (scal R x (Num.exact c)) (fun z => c * f z) := by
  intro z hz
  have := scal_ok R n x f h (Num.exact c) c 1 ⟨le_rfl, le_rfl⟩
    (fun v e => by rw [one_mul]; exact mulErrB_exact R v c hc e) le_rfl z hz
  rwa [one_mul] at this

/-- **C24** (scaling, partial): for a number known only by bounds, every product lies within *twice*
the error of the computed model.  The full statement, with the error itself, is false: see
`C24_scal_counterexample`. -/
theorem C24_scal_partial (n : Nat) (x : TM K) (f : List K → K) (h : Encloses n x f) (c : Num K)
    (hl : R.Rep c.l) (hu : R.Rep c.u) (y : K) (hy : c.Has y) (z : List K) (hz : InBox n z) :
    |y * f z - value (monomial z) (scal R x c).terms| ≤ 2 * (scal R x c).err :=
  scal_ok R n x f h c y 2 hy (fun v e => mulErrB_ok2 R v c hl hu y e hy) (by norm_num) z hz

/-- **C24** fails for scaling by a number known by bounds: the constant one times a number in
`[1,1+2^-1]` (two-bit numbers) is claimed to be within `1/4` of `1`, but could be `3/2`. -/
theorem C24_scal_counterexample :
    ∃ (R : Rounding ℚ) (x : TM ℚ) (f : List ℚ → ℚ) (c : Num ℚ) (y : ℚ),
      R.Rep c.l ∧ R.Rep c.u ∧ Encloses 0 x f ∧ c.Has y ∧
        ¬ Encloses 0 (scal R x c) (fun z => y * f z) := by
  refine ⟨Ariadne.PBit.rounding 2 (by norm_num), ⟨[([], 1)], 0⟩, fun _ => 1, ⟨1, 3 / 2⟩, 3 / 2,
    ⟨1, 0, by norm_num, by norm_num⟩, ⟨3, -1, by norm_num, by norm_num⟩, ?_, ?_, ?_⟩
  · intro x hx
    simp [monomial]
  · constructor <;> norm_num
  · intro h
    have h1 := h [] ⟨rfl, by simp⟩
    have e1 : (scal (Ariadne.PBit.rounding 2 (by norm_num)) (⟨[([], 1)], 0⟩ : TM ℚ)
        ⟨1, 3 / 2⟩).terms = [([], 1)] := by decide +kernel
    have e2 : (scal (Ariadne.PBit.rounding 2 (by norm_num)) (⟨[([], 1)], 0⟩ : TM ℚ)
        ⟨1, 3 / 2⟩).err = 1 / 4 := by decide +kernel
    rw [e1, e2] at h1
    simp [monomial] at h1
    norm_num [abs_le] at h1

/-! ### Addition of a number -/

theorem degree_zero_iff {a : List Nat} (h : Fits a) : degree a = 0 ↔ a = List.replicate a.length 0 := by
  rw [degree_of_fits h]
  clear h
  induction a with
  | nil => simp
  | cons x a ih =>
    rw [List.sum_cons, List.length_cons, List.replicate_succ, List.cons.injEq, ← ih]
    omega

/-- Adding a number: the value of the sum differs by the error of the last operation. -/
theorem acc_ok (n : Nat) (r : TM K) (hr : ∀ u ∈ r.terms, Fits u.1) (f : List K → K)
    (h : Encloses n r f) (c : Num K) (y k : K) (hy : c.Has y)
    (hk : ∀ v e, |(addErrB R v c e).1 - (v + y)| ≤ k * ((addErrB R v c e).2 - e))
    (hk1 : 1 ≤ k) (z : List K) (hz : InBox n z) :
    |y + f z - value (monomial z) (acc R n r c).terms| ≤ k * (acc R n r c).err := by
  have h1 := h z hz
  have he := h.err_nonneg
  unfold acc
  by_cases h0 : c.l = 0 ∧ c.u = 0
  · rw [if_pos h0]
    have hy0 : y = 0 := le_antisymm (h0.2 ▸ hy.2) (h0.1 ▸ hy.1)
    subst hy0
    rw [zero_add]
    exact h1.trans (le_mul_of_one_le_left he hk1)
  · rw [if_neg h0]
    have happ : |y + f z - value (monomial z) (r.terms ++ [(List.replicate n 0, c.value R)])| ≤
        k * R.up (r.err + c.error R) := by
      rw [value_append, value_cons, value_nil, monomial_zero]
      have h2 := error_ok R c y hy
      have h3 := R.le_up (r.err + c.error R)
      have h4 := abs_add_le (y - c.value R) (f z - value (monomial z) r.terms)
      have h5 : y + f z - (value (monomial z) r.terms + (c.value R * 1 + 0)) =
          y - c.value R + (f z - value (monomial z) r.terms) := by ring
      rw [h5]
      have h6 : 0 ≤ c.error R := (abs_nonneg _).trans h2
      have h7 : R.up (r.err + c.error R) ≤ k * R.up (r.err + c.error R) :=
        le_mul_of_one_le_left (by linarith) hk1
      linarith
    cases hl : r.terms.getLast? with
    | none => exact happ
    | some t =>
      simp only
      by_cases hd : degree t.1 > 0
      · rw [if_pos hd]
        exact happ
      · rw [if_neg hd]
        simp only
        have hd0 : degree t.1 = 0 := by omega
        obtain ⟨ys, hys⟩ := List.getLast?_eq_some_iff.1 hl
        have hm : monomial z t.1 = 1 := by
          rw [(degree_zero_iff (hr t (by rw [hys]; simp))).1 hd0, monomial_zero]
        rw [hys] at h1
        rw [value_append, value_cons, value_nil, hm] at h1
        rw [hys, List.dropLast_concat, value_append, value_cons, value_nil]
        simp only [hm]
        have h2 := hk t.2 r.err
        have h3 : y + f z - (value (monomial z) ys + ((addErrB R t.2 c r.err).1 * 1 + 0)) =
            (f z - (value (monomial z) ys + (t.2 * 1 + 0))) -
              ((addErrB R t.2 c r.err).1 - (t.2 + y)) := by ring
        rw [h3]
        have h4 := abs_sub (f z - (value (monomial z) ys + (t.2 * 1 + 0)))
          ((addErrB R t.2 c r.err).1 - (t.2 + y))
        have h5 : r.err ≤ k * r.err := le_mul_of_one_le_left he hk1
        rw [mul_sub] at h2
        linarith

/-- **C24** (adding an exact number). -/
theorem C24_acc_exact (n : Nat) (r : TM K) (hr : ∀ u ∈ r.terms, Fits u.1) (f : List K → K)
    (h : Encloses n r f) (c : K) (hc : R.Rep c) :
    Encloses n (acc R n r (Num.exact c)) (fun z => c + f z) := by
  intro z hz
  have := acc_ok R n r hr f h (Num.exact c) c 1 ⟨le_rfl, le_rfl⟩
    (fun v e => by rw [one_mul]; exact addErrB_exact R v c hc e) le_rfl z hz
  rwa [one_mul] at this

/-- **C24** (adding a number, partial): for a number known only by bounds, every sum lies within
*twice* the error of the computed model; the full statement is false
(`C24_acc_counterexample`). -/
theorem C24_acc_partial (n : Nat) (r : TM K) (hr : ∀ u ∈ r.terms, Fits u.1) (f : List K → K)
    (h : Encloses n r f) (c : Num K) (hl : R.Rep c.l) (hu : R.Rep c.u) (y : K) (hy : c.Has y)
    (z : List K) (hz : InBox n z) :
    |y + f z - value (monomial z) (acc R n r c).terms| ≤ 2 * (acc R n r c).err :=
  acc_ok R n r hr f h c y 2 hy (fun v e => addErrB_ok2 R v c hl hu y e hy) (by norm_num) z hz

/-- **C24** (adding a symmetric error, as in `horner_evaluate(...)+pm(e)`): no function is lost. -/
theorem C24_acc_symmetric (n : Nat) (r : TM K) (hr : ∀ u ∈ r.terms, Fits u.1)
    (hrep : ∀ u ∈ r.terms, R.Rep u.2) (f : List K → K) (h : Encloses n r f) (e y : K)
    (hy : |y| ≤ e) : Encloses n (acc R n r ⟨-e, e⟩) (fun z => y + f z) := by
  have hv : Num.value R (⟨-e, e⟩ : Num K) = 0 := by
    simp [Num.value, near_of_rep R R.rep_zero]
  have hy' : (⟨-e, e⟩ : Num K).Has y := abs_le.1 hy
  intro z hz
  have h1 := h z hz
  unfold acc
  simp only
  by_cases h0 : -e = 0 ∧ e = 0
  · rw [if_pos h0]
    have : y = 0 := by rw [h0.2] at hy; exact abs_nonpos_iff.1 hy
    rw [this, zero_add]
    exact h1
  · rw [if_neg h0]
    have happ : |y + f z - value (monomial z) (r.terms ++ [(List.replicate n 0,
        Num.value R (⟨-e, e⟩ : Num K))])| ≤ R.up (r.err + Num.error R (⟨-e, e⟩ : Num K)) := by
      rw [value_append, value_cons, value_nil, monomial_zero]
      have h2 := error_ok R _ y hy'
      have h3 := R.le_up (r.err + Num.error R (⟨-e, e⟩ : Num K))
      have h4 := abs_add_le (y - Num.value R (⟨-e, e⟩ : Num K)) (f z - value (monomial z) r.terms)
      have h5 : y + f z - (value (monomial z) r.terms + (Num.value R (⟨-e, e⟩ : Num K) * 1 + 0)) =
          y - Num.value R (⟨-e, e⟩ : Num K) + (f z - value (monomial z) r.terms) := by ring
      rw [h5]
      linarith
    cases hl : r.terms.getLast? with
    | none => exact happ
    | some t =>
      simp only
      by_cases hd : degree t.1 > 0
      · rw [if_pos hd]
        exact happ
      · rw [if_neg hd]
        simp only
        have hd0 : degree t.1 = 0 := by omega
        obtain ⟨ys, hys⟩ := List.getLast?_eq_some_iff.1 hl
        have hm : monomial z t.1 = 1 := by
          rw [(degree_zero_iff (hr t (by rw [hys]; simp))).1 hd0, monomial_zero]
        rw [hys] at h1
        rw [value_append, value_cons, value_nil, hm] at h1
        rw [hys, List.dropLast_concat, value_append, value_cons, value_nil]
        simp only [hm, addErrB, hv, add_zero]
        rw [near_of_rep R (hrep t (by rw [hys]; simp))]
        have h2 := accum_ge R (R.up (t.2 + e)) (R.up (-t.2 - -e)) r.err
        have h3 := R.le_up (t.2 + e)
        have h4 := R.le_up (-t.2 - -e)
        have h5 : y + f z - (value (monomial z) ys + t.2 * 1) =
            y + (f z - (value (monomial z) ys + (t.2 * 1 + 0))) := by ring
        rw [h5]
        have h6 := abs_add_le y (f z - (value (monomial z) ys + (t.2 * 1 + 0)))
        linarith

/-- **C24** fails for adding a number known by bounds: `-1` plus a number in `[1,3/2]`, with
two-bit numbers, is claimed to be within `1/4` of `0`. -/
theorem C24_acc_counterexample :
    ∃ (R : Rounding ℚ) (x : TM ℚ) (f : List ℚ → ℚ) (c : Num ℚ) (y : ℚ),
      R.Rep c.l ∧ R.Rep c.u ∧ Encloses 0 x f ∧ c.Has y ∧
        ¬ Encloses 0 (acc R 0 x c) (fun z => y + f z) := by
  refine ⟨Ariadne.PBit.rounding 2 (by norm_num), ⟨[([], -1)], 0⟩, fun _ => -1, ⟨1, 3 / 2⟩,
    3 / 2, ⟨1, 0, by norm_num, by norm_num⟩, ⟨3, -1, by norm_num, by norm_num⟩, ?_, ?_, ?_⟩
  · intro x hx
    simp [monomial]
  · constructor <;> norm_num
  · intro h
    have h1 := h [] ⟨rfl, by simp⟩
    have e1 : (acc (Ariadne.PBit.rounding 2 (by norm_num)) 0 (⟨[([], -1)], 0⟩ : TM ℚ)
        ⟨1, 3 / 2⟩).terms = [([], 0)] := by decide +kernel
    have e2 : (acc (Ariadne.PBit.rounding 2 (by norm_num)) 0 (⟨[([], -1)], 0⟩ : TM ℚ)
        ⟨1, 3 / 2⟩).err = 1 / 4 := by decide +kernel
    rw [e1, e2] at h1
    simp [monomial] at h1
    norm_num [abs_le] at h1

/-! ### Sums and differences of models -/

theorem apply2F_ok (op : Op2 K) (s : K) (hs : |s| ≤ 1)
    (hb : ∀ x y e, |(op.both x y e).1 - (x + s * y)| ≤ (op.both x y e).2 - e)
    (hl : ∀ x, op.left x = x) (hr : ∀ y, op.right y = s * y)
    (m : List Nat → K) (hm : ∀ a, |m a| ≤ 1) (n : Nat) (N : Nat) (p q : Terms (List Nat) K)
    (hp : ∀ u ∈ p, u.1.length = n) (hq : ∀ u ∈ q, u.1.length = n)
    (hN : p.length + q.length ≤ N) (e : K) :
    |value m p + s * value m q - value m (apply2F op N p q e).1| ≤ (apply2F op N p q e).2 - e := by
  induction N generalizing p q e with
  | zero =>
    have h1 : p = [] := List.length_eq_zero_iff.1 (by omega)
    have h2 : q = [] := List.length_eq_zero_iff.1 (by omega)
    subst h1; subst h2
    simp [apply2F]
  | succ N ih =>
    match p, q with
    | [], [] => simp [apply2F]
    | (a, x) :: p, [] =>
      unfold apply2F
      have := ih p [] (fun u hu => hp u (by simp [hu])) (by simp)
        (by simp only [List.length_cons, List.length_nil] at hN ⊢; omega) e
      simp only [value_cons, value_nil, mul_zero, add_zero, hl] at this ⊢
      rw [add_sub_add_left_eq_sub]
      exact this
    | [], (b, y) :: q =>
      unfold apply2F
      have := ih [] q (by simp) (fun u hu => hq u (by simp [hu]))
        (by simp only [List.length_cons, List.length_nil] at hN ⊢; omega) e
      simp only [value_cons, value_nil, zero_add, hr] at this ⊢
      have h5 : s * (y * m b + value m q) - (s * y * m b + value m (apply2F op N [] q e).1) =
        s * value m q - value m (apply2F op N [] q e).1 := by ring
      rw [h5]
      exact this
    | (a, x) :: p, (b, y) :: q =>
      have hp' : ∀ u ∈ p, u.1.length = n := fun u hu => hp u (by simp [hu])
      have hq' : ∀ u ∈ q, u.1.length = n := fun u hu => hq u (by simp [hu])
      simp only [List.length_cons] at hN
      unfold apply2F
      by_cases h1 : revLexLess a b = true
      · rw [if_pos h1]
        have := ih p ((b, y) :: q) hp' hq (by simp only [List.length_cons]; omega) e
        simp only [value_cons, hl] at this ⊢
        have h5 : x * m a + value m p + s * (y * m b + value m q) -
            (x * m a + value m (apply2F op N p ((b, y) :: q) e).1) =
            value m p + s * (y * m b + value m q) -
              value m (apply2F op N p ((b, y) :: q) e).1 := by ring
        rw [h5]
        exact this
      · rw [if_neg h1]
        by_cases h2 : revLexLess b a = true
        · rw [if_pos h2]
          have := ih ((a, x) :: p) q hp hq' (by simp only [List.length_cons]; omega) e
          simp only [value_cons, hr] at this ⊢
          have h5 : x * m a + value m p + s * (y * m b + value m q) -
              (s * y * m b + value m (apply2F op N ((a, x) :: p) q e).1) =
              x * m a + value m p + s * value m q -
                value m (apply2F op N ((a, x) :: p) q e).1 := by ring
          rw [h5]
          exact this
        · rw [if_neg h2]
          have hab : a = b := by
            rcases (C22_strict_total n).2.2.total a b (hp (a, x) (by simp)) (hq (b, y) (by simp))
              with h | h | h
            · exact absurd h h1
            · exact h
            · exact absurd h h2
          subst hab
          have h3 := ih p q hp' hq' (by omega) (op.both x y e).2
          have h4 := hb x y e
          simp only [value_cons]
          have h5 : x * m a + value m p + s * (y * m a + value m q) -
              ((op.both x y e).1 * m a + value m (apply2F op N p q (op.both x y e).2).1) =
              (x + s * y - (op.both x y e).1) * m a +
              (value m p + s * value m q - value m (apply2F op N p q (op.both x y e).2).1) := by
            ring
          rw [h5]
          have h6 := abs_add_le ((x + s * y - (op.both x y e).1) * m a)
            (value m p + s * value m q - value m (apply2F op N p q (op.both x y e).2).1)
          have h7 : |(x + s * y - (op.both x y e).1) * m a| ≤ (op.both x y e).2 - e := by
            rw [abs_mul, abs_sub_comm]
            exact (mul_le_of_le_one_right (abs_nonneg _) (hm a)).trans h4
          linarith

theorem mem_apply2F {op : Op2 K} {N : Nat} {p q : Terms (List Nat) K} {e : K} {u : List Nat × K}
    (h : u ∈ (apply2F op N p q e).1) : ∃ v, (v ∈ p ∨ v ∈ q) ∧ v.1 = u.1 := by
  induction N generalizing p q e with
  | zero => simp [apply2F] at h
  | succ N ih =>
    match p, q with
    | [], [] => simp [apply2F] at h
    | (a, x) :: p, [] =>
      unfold apply2F at h
      rcases List.mem_cons.1 h with h | h
      · exact ⟨(a, x), by simp, by rw [h]⟩
      · obtain ⟨v, hv, e⟩ := ih h
        exact ⟨v, by simp at hv ⊢; tauto, e⟩
    | [], (b, y) :: q =>
      unfold apply2F at h
      rcases List.mem_cons.1 h with h | h
      · exact ⟨(b, y), by simp, by rw [h]⟩
      · obtain ⟨v, hv, e⟩ := ih h
        exact ⟨v, by simp at hv ⊢; tauto, e⟩
    | (a, x) :: p, (b, y) :: q =>
      unfold apply2F at h
      by_cases h1 : revLexLess a b = true
      · rw [if_pos h1] at h
        rcases List.mem_cons.1 h with h | h
        · exact ⟨(a, x), by simp, by rw [h]⟩
        · obtain ⟨v, hv, e⟩ := ih h
          exact ⟨v, by simp at hv ⊢; tauto, e⟩
      · rw [if_neg h1] at h
        by_cases h2 : revLexLess b a = true
        · rw [if_pos h2] at h
          rcases List.mem_cons.1 h with h | h
          · exact ⟨(b, y), by simp, by rw [h]⟩
          · obtain ⟨v, hv, e⟩ := ih h
            exact ⟨v, by simp at hv ⊢; tauto, e⟩
        · rw [if_neg h2] at h
          rcases List.mem_cons.1 h with h | h
          · exact ⟨(a, x), by simp, by rw [h]⟩
          · obtain ⟨v, hv, e⟩ := ih h
            exact ⟨v, by simp at hv ⊢; tauto, e⟩

theorem combine_ok (n : Nat) (sw : Sweeper K) (op : Op2 K) (s : K) (hs : |s| ≤ 1)
    (hb : ∀ x y e, |(op.both x y e).1 - (x + s * y)| ≤ (op.both x y e).2 - e)
    (hl : ∀ x, op.left x = x) (hr : ∀ y, op.right y = s * y)
    (x y : TM K) (hx : WF n x) (hy : WF n y) (f g : List K → K)
    (hf : Encloses n x f) (hg : Encloses n y g) :
    Encloses n (combine R sw op x y) (fun z => f z + s * g z) := by
  unfold combine
  apply C26_sweep
  intro z hz
  simp only
  have h1 := apply2F_ok op s hs hb hl hr (monomial z) (abs_monomial_le z hz.2) n
    (x.terms.length + y.terms.length) x.terms y.terms hx hy le_rfl 0
  have h2 := hf z hz
  have h3 := hg z hz
  generalize apply2F op (x.terms.length + y.terms.length) x.terms y.terms 0 = w at *
  have h4 := R.le_up (0 + w.2)
  have h5 := R.le_up (x.err + y.err)
  have h6 := R.le_up (R.up (0 + w.2) + R.up (x.err + y.err))
  have h7 : |s * (g z - value (monomial z) y.terms)| ≤ y.err := by
    rw [abs_mul]
    exact (mul_le_of_le_one_left (abs_nonneg _) hs).trans h3
  have h8 : f z + s * g z - value (monomial z) w.1 =
      (f z - value (monomial z) x.terms) + s * (g z - value (monomial z) y.terms) +
      (value (monomial z) x.terms + s * value (monomial z) y.terms - value (monomial z) w.1) := by
    ring
  rw [h8]
  have h9 := abs_add_le ((f z - value (monomial z) x.terms) +
    s * (g z - value (monomial z) y.terms))
    (value (monomial z) x.terms + s * value (monomial z) y.terms - value (monomial z) w.1)
  have h10 := abs_add_le (f z - value (monomial z) x.terms) (s * (g z - value (monomial z) y.terms))
  linarith

/-- **C24** (addition): the sum of models encloses the sums of the functions they enclose, in any
precision and with any sweeper. -/
theorem C24_add (n : Nat) (sw : Sweeper K) (x y : TM K) (hx : WF n x) (hy : WF n y)
    (f g : List K → K) (hf : Encloses n x f) (hg : Encloses n y g) :
    Encloses n (add R sw x y) (fun z => f z + g z) := by
  have := combine_ok R n sw (addOp R) 1 (by simp)
    (fun x y e => by rw [one_mul]; exact addErr_ok R x y e) (fun _ => rfl)
    (fun y => by rw [one_mul]; rfl) x y hx hy f g hf hg
  simp only [one_mul] at this
  exact this

/-- **C24** (subtraction). -/
theorem C24_sub (n : Nat) (sw : Sweeper K) (x y : TM K) (hx : WF n x) (hy : WF n y)
    (f g : List K → K) (hf : Encloses n x f) (hg : Encloses n y g) :
    Encloses n (sub R sw x y) (fun z => f z - g z) := by
  have := combine_ok R n sw (subOp R) (-1) (by simp)
    (fun x y e => by rw [neg_one_mul, ← sub_eq_add_neg]; exact subErr_ok R x y e) (fun _ => rfl)
    (fun y => by rw [neg_one_mul]; rfl) x y hx hy f g hf hg
  simp only [neg_one_mul, ← sub_eq_add_neg] at this
  exact this

/-- The results of addition and subtraction are again models in `n` variables. -/
theorem C24_wf (n : Nat) (sw : Sweeper K) (op : Op2 K) (x y : TM K) (hx : WF n x) (hy : WF n y) :
    WF n (combine R sw op x y) := by
  intro u hu
  unfold combine at hu
  obtain ⟨v, hv, e⟩ := mem_apply2F (mem_sweep R hu)
  rw [← e]
  rcases hv with hv | hv
  · exact hx v hv
  · exact hy v hv

/-- Non-vacuity of C24: with two-bit numbers, `(3/2)x+1` plus `(5/4…)`: the sum `3/2+3/4` is not
representable, the model has a positive error, and the hypotheses of `C24_add` hold. -/
example : Encloses 1 (⟨[([1], 3 / 2), ([0], 1)], 0⟩ : TM ℚ) (fun x => 3 / 2 * x.headD 0 + 1) ∧
    Encloses 1 (⟨[([1], 3 / 4)], 0⟩ : TM ℚ) (fun x => 3 / 4 * x.headD 0) ∧
    (add (Ariadne.PBit.rounding 2 (by norm_num)) trivialSweeper
      (⟨[([1], 3 / 2), ([0], 1)], 0⟩ : TM ℚ) ⟨[([1], 3 / 4)], 0⟩).terms = [([1], 2), ([0], 1)] ∧
    (add (Ariadne.PBit.rounding 2 (by norm_num)) trivialSweeper
      (⟨[([1], 3 / 2), ([0], 1)], 0⟩ : TM ℚ) ⟨[([1], 3 / 4)], 0⟩).err = 1 / 2 := by
  refine ⟨?_, ?_, by decide +kernel, by decide +kernel⟩ <;>
  · intro x hx
    obtain ⟨y, rfl⟩ := List.length_eq_one_iff.1 hx.1
    simp [monomial]

end Linear

end Verif.TaylorModel
