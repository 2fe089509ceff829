import Verif.Bounds.Spec

/-! Helper lemmas on extended numbers and directed rounding. -/

namespace Ariadne

variable {K : Type*} [Field K] [LinearOrder K] [IsStrictOrderedRing K]

namespace Ext

@[simp] theorem le_fin_fin (x y : K) : le (fin x) (fin y) = decide (x ≤ y) := rfl
@[simp] theorem lt_fin_fin (x y : K) : lt (fin x) (fin y) = decide (x < y) := rfl

theorem le_fin_iff (a : Ext K) (x : K) : le a (fin x) = true ↔ IsLower a x := by
  cases a <;> simp [le, IsLower]

theorem fin_le_iff (b : Ext K) (x : K) : le (fin x) b = true ↔ IsUpper b x := by
  cases b <;> simp [le, IsUpper]

theorem isLower_mono {a : Ext K} {x y : K} (h : IsLower a x) (hxy : x ≤ y) : IsLower a y := by
  cases a <;> simp [IsLower] at * <;> linarith

theorem isUpper_mono {a : Ext K} {x y : K} (h : IsUpper a x) (hxy : y ≤ x) : IsUpper a y := by
  cases a <;> simp [IsUpper] at * <;> linarith

theorem isLower_neg {a : Ext K} {x : K} (h : IsUpper a x) : IsLower a.neg (-x) := by
  cases a <;> simp_all [IsLower, IsUpper, neg]

theorem isUpper_neg {a : Ext K} {x : K} (h : IsLower a x) : IsUpper a.neg (-x) := by
  cases a <;> simp_all [IsLower, IsUpper, neg]

theorem isLower_max {a b : Ext K} {x : K} (ha : IsLower a x) (hb : IsLower b x) :
    IsLower (max a b) x := by unfold max; split_ifs <;> assumption

theorem isUpper_min {a b : Ext K} {x : K} (ha : IsUpper a x) (hb : IsUpper b x) :
    IsUpper (min a b) x := by unfold min; split_ifs <;> assumption

theorem isUpper_max_left {a b : Ext K} {x : K} (ha : IsUpper a x) : IsUpper (max a b) x := by
  unfold max
  cases a <;> cases b <;> simp [IsUpper, lt] at * <;> try assumption
  split_ifs <;> simp [IsUpper] <;> linarith

theorem isUpper_max_right {a b : Ext K} {x : K} (hb : IsUpper b x) (ha : a ≠ nan) :
    IsUpper (max a b) x := by
  unfold max
  cases a <;> cases b <;> simp [IsUpper, lt] at * <;> try assumption
  split_ifs <;> simp [IsUpper] <;> linarith

theorem isLower_min_left {a b : Ext K} {x : K} (ha : IsLower a x) : IsLower (min a b) x := by
  unfold min
  cases a <;> cases b <;> simp [IsLower, lt] at * <;> try assumption
  split_ifs <;> simp [IsLower] <;> linarith

theorem isLower_min_right {a b : Ext K} {x : K} (hb : IsLower b x) (ha : a ≠ nan) :
    IsLower (min a b) x := by
  unfold min
  cases a <;> cases b <;> simp [IsLower, lt] at * <;> try assumption
  split_ifs <;> simp [IsLower] <;> linarith

/-- A lower bound for one of two numbers bounds their maximum. -/
theorem isLower_of_max {a b : Ext K} {x : K} (h : IsLower (max a b) x) (ha : a ≠ nan) (hb : b ≠ nan) :
    IsLower a x ∧ IsLower b x := by
  unfold max at h
  cases a <;> cases b <;> simp [IsLower, lt] at * <;> try assumption
  split_ifs at h <;> simp [IsLower] at h <;> constructor <;> linarith

theorem isUpper_of_min {a b : Ext K} {x : K} (h : IsUpper (min a b) x) (ha : a ≠ nan) (hb : b ≠ nan) :
    IsUpper a x ∧ IsUpper b x := by
  unfold min at h
  cases a <;> cases b <;> simp [IsUpper, lt] at * <;> try assumption
  split_ifs at h <;> simp [IsUpper] at h <;> constructor <;> linarith

end Ext

namespace XRounding
variable (R : XRounding K)

theorem down_lower (x : K) : IsLower (R.down x) x := (Ext.le_fin_iff _ _).1 (R.down_le x)
theorem up_upper (x : K) : IsUpper (R.up x) x := (Ext.fin_le_iff _ _).1 (R.le_up x)

theorem down_of_le {x y : K} (h : x ≤ y) : IsLower (R.down x) y :=
  Ext.isLower_mono (R.down_lower x) h
theorem up_of_le {x y : K} (h : y ≤ x) : IsUpper (R.up x) y :=
  Ext.isUpper_mono (R.up_upper x) h

theorem down_nonneg {x : K} (h : 0 ≤ x) : IsUpper (R.down x) 0 :=
  (Ext.fin_le_iff _ _).1 (R.down_max x 0 R.rep_zero h)
theorem up_nonpos {x : K} (h : x ≤ 0) : IsLower (R.up x) 0 :=
  (Ext.le_fin_iff _ _).1 (R.up_min x 0 R.rep_zero h)

end XRounding

open Ext

variable (R : XRounding K)

theorem add_down {a b : Ext K} {x y : K} (ha : IsLower a x) (hb : IsLower b y) :
    IsLower (Ext.add R.down a b) (x + y) := by
  cases a <;> cases b <;> simp [IsLower] at * <;> simp [Ext.add, IsLower]
  exact R.down_of_le (by linarith)

theorem add_up {a b : Ext K} {x y : K} (ha : IsUpper a x) (hb : IsUpper b y) :
    IsUpper (Ext.add R.up a b) (x + y) := by
  cases a <;> cases b <;> simp [IsUpper] at * <;> simp [Ext.add, IsUpper]
  exact R.up_of_le (by linarith)

theorem sub_down {a b : Ext K} {x y : K} (ha : IsLower a x) (hb : IsUpper b y) :
    IsLower (Ext.sub R.down a b) (x - y) := by
  rw [sub_eq_add_neg]; exact add_down R ha (isLower_neg hb)

theorem sub_up {a b : Ext K} {x y : K} (ha : IsUpper a x) (hb : IsLower b y) :
    IsUpper (Ext.sub R.up a b) (x - y) := by
  rw [sub_eq_add_neg]; exact add_up R ha (isUpper_neg hb)

/-! Products, by the signs of the factors.  In each lemma the two endpoints bound
the factors from the sides that give a bound for the product. -/

/-- both factors nonnegative, lower bound -/
theorem mul_down_pp {a b : Ext K} {x y : K} (ha : IsLower a x) (hb : IsLower b y)
    (ha0 : IsUpper a 0) (hb0 : IsUpper b 0) : IsLower (Ext.mul R.down a b) (x * y) := by
  cases a <;> cases b <;> simp [IsLower, IsUpper] at * 
  exact R.down_of_le (by nlinarith)

/-- first factor bounded by a nonnegative `a` from above, second by a nonpositive `b` from below -/
theorem mul_down_pn {a b : Ext K} {x y : K} (ha : IsUpper a x) (hb : IsLower b y)
    (ha0 : IsUpper a 0) (hb0 : IsLower b 0) (hs : 0 ≤ x ∨ y ≤ 0)
    (hn : Ext.mul R.down a b ≠ .nan) : IsLower (Ext.mul R.down a b) (x * y) := by
  cases a <;> cases b <;> simp [IsLower, IsUpper] at *
  · simp [Ext.mul, infSign] at hn ⊢
    split_ifs <;> simp_all [IsLower]
    all_goals linarith
  · rename_i a b
    refine R.down_of_le ?_
    rcases hs with h | h
    · rcases le_total y 0 with h' | h' <;> nlinarith [mul_nonneg h (sub_nonneg.2 hb), mul_nonneg h (neg_nonneg.2 hb0), mul_nonneg (sub_nonneg.2 ha) (neg_nonneg.2 hb0)]
    · nlinarith [mul_nonneg (sub_nonneg.2 ha) (neg_nonneg.2 h), mul_nonneg ha0 (sub_nonneg.2 hb)]
  · simp [Ext.mul, IsLower]
  · simp [Ext.mul, infSign] at hn ⊢
    split_ifs <;> simp_all [IsLower]
    all_goals linarith

theorem mul_comm_ext (rnd : K → Ext K) (a b : Ext K) : Ext.mul rnd a b = Ext.mul rnd b a := by
  cases a <;> cases b <;> simp [Ext.mul, mul_comm]

theorem mul_down_np {a b : Ext K} {x y : K} (ha : IsLower a x) (hb : IsUpper b y)
    (ha0 : IsLower a 0) (hb0 : IsUpper b 0) (hs : 0 ≤ y ∨ x ≤ 0)
    (hn : Ext.mul R.down a b ≠ .nan) : IsLower (Ext.mul R.down a b) (x * y) := by
  rw [mul_comm_ext] at hn ⊢; rw [mul_comm]; exact mul_down_pn R hb ha hb0 ha0 hs hn

theorem mul_down_nn {a b : Ext K} {x y : K} (ha : IsUpper a x) (hb : IsUpper b y)
    (ha0 : IsLower a 0) (hb0 : IsLower b 0) : IsLower (Ext.mul R.down a b) (x * y) := by
  cases a <;> cases b <;> simp [IsLower, IsUpper] at * 
  exact R.down_of_le (by nlinarith)

theorem mul_up_pp {a b : Ext K} {x y : K} (ha : IsUpper a x) (hb : IsUpper b y)
    (ha0 : IsUpper a 0) (hb0 : IsUpper b 0) (hs : 0 ≤ x ∨ 0 ≤ y)
    (hn : Ext.mul R.up a b ≠ .nan) : IsUpper (Ext.mul R.up a b) (x * y) := by
  cases a <;> cases b <;> simp [IsUpper] at *
  · refine R.up_of_le ?_
    rcases hs with h | h <;> nlinarith
  · simp [Ext.mul, infSign] at hn ⊢
    split_ifs <;> simp_all [IsUpper]
    all_goals linarith
  · simp [Ext.mul, infSign] at hn ⊢
    split_ifs <;> simp_all [IsUpper]
    all_goals linarith
  · simp [Ext.mul, IsUpper]

theorem mul_up_nn {a b : Ext K} {x y : K} (ha : IsLower a x) (hb : IsLower b y)
    (ha0 : IsLower a 0) (hb0 : IsLower b 0) (hs : x ≤ 0 ∨ y ≤ 0)
    (hn : Ext.mul R.up a b ≠ .nan) : IsUpper (Ext.mul R.up a b) (x * y) := by
  cases a <;> cases b <;> simp [IsLower] at *
  · simp [Ext.mul, IsUpper]
  · simp [Ext.mul, infSign] at hn ⊢
    split_ifs <;> simp_all [IsUpper]
    all_goals linarith
  · simp [Ext.mul, infSign] at hn ⊢
    split_ifs <;> simp_all [IsUpper]
    all_goals linarith
  · refine R.up_of_le ?_
    rcases hs with h | h <;> nlinarith

/-- nonnegative lower endpoint `a` of the first factor, nonpositive upper endpoint of the second -/
theorem mul_up_pn {a b : Ext K} {x y : K} (ha : IsLower a x) (hb : IsUpper b y)
    (ha0 : IsUpper a 0) (hb0 : IsLower b 0) : IsUpper (Ext.mul R.up a b) (x * y) := by
  cases a <;> cases b <;> simp [IsLower, IsUpper] at *
  exact R.up_of_le (by nlinarith)

theorem mul_up_np {a b : Ext K} {x y : K} (ha : IsUpper a x) (hb : IsLower b y)
    (ha0 : IsLower a 0) (hb0 : IsUpper b 0) : IsUpper (Ext.mul R.up a b) (x * y) := by
  rw [mul_comm_ext, mul_comm]; exact mul_up_pn R hb ha hb0 ha0

/-! Quotients. -/

theorem div_down_pp {a d : Ext K} {x y : K} (ha : IsLower a x) (hd : IsUpper d y)
    (ha0 : IsUpper a 0) (hy : 0 < y) : IsLower (Ext.div R.down a d) (x / y) := by
  cases a <;> cases d <;> simp [IsLower, IsUpper] at *
  · have hd0 := lt_of_lt_of_le hy hd
    simp only [Ext.div, hd0.ne', if_false]
    refine R.down_of_le ?_
    rw [div_le_div_iff₀ hd0 hy]; nlinarith
  · simp only [Ext.div, IsLower]
    exact div_nonneg (by linarith) hy.le

theorem div_down_np {a c : Ext K} {x y : K} (ha : IsLower a x) (hc : IsLower c y)
    (ha0 : IsLower a 0) (hc0 : Ext.lt (fin 0) c = true) :
    IsLower (Ext.div R.down a c) (x / y) := by
  cases a <;> cases c <;> simp [IsLower, Ext.lt] at *
  · simp [Ext.div, infSign, hc0, hc0.not_gt, IsLower]
  · have hy := lt_of_lt_of_le hc0 hc
    simp only [Ext.div, hc0.ne', if_false]
    refine R.down_of_le ?_
    rw [div_le_div_iff₀ hc0 hy]
    nlinarith

theorem div_up_pp {b c : Ext K} {x y : K} (hb : IsUpper b x) (hc : IsLower c y)
    (hb0 : IsUpper b 0) (hc0 : Ext.lt (fin 0) c = true) :
    IsUpper (Ext.div R.up b c) (x / y) := by
  cases b <;> cases c <;> simp [IsUpper, IsLower, Ext.lt] at *
  · have hy := lt_of_lt_of_le hc0 hc
    simp only [Ext.div, hc0.ne', if_false]
    refine R.up_of_le ?_
    rw [div_le_div_iff₀ hy hc0]
    nlinarith
  · simp [Ext.div, infSign, hc0, IsUpper]

theorem div_up_np {b d : Ext K} {x y : K} (hb : IsUpper b x) (hd : IsUpper d y)
    (hb0 : IsLower b 0) (hy : 0 < y) : IsUpper (Ext.div R.up b d) (x / y) := by
  cases b <;> cases d <;> simp [IsLower, IsUpper] at *
  · have hd0 := lt_of_lt_of_le hy hd
    simp only [Ext.div, hd0.ne', if_false]
    refine R.up_of_le ?_
    rw [div_le_div_iff₀ hy hd0]; nlinarith
  · simp only [Ext.div, IsUpper]
    exact div_nonpos_of_nonpos_of_nonneg (by linarith) hy.le

theorem div_neg_neg_ext (rnd : K → Ext K) (a b : Ext K) :
    Ext.div rnd a.neg b.neg = Ext.div rnd a b := by
  cases a <;> cases b <;> simp [Ext.div, Ext.neg, neg_div_neg_eq]

theorem neg_neg_ext (a : Ext K) : a.neg.neg = a := by cases a <;> simp [Ext.neg]

theorem lt_zero_neg {d : Ext K} (h : Ext.lt d (fin 0) = true) : Ext.lt (fin 0) d.neg = true := by
  cases d <;> simp_all [Ext.lt, Ext.neg]

/-- For a negative divisor, use the lemmas above on the negated arguments. -/
theorem div_down_pn {b d : Ext K} {x y : K} (hb : IsUpper b x) (hd : IsUpper d y)
    (hb0 : IsUpper b 0) (hd0 : Ext.lt d (fin 0) = true) :
    IsLower (Ext.div R.down b d) (x / y) := by
  rw [← div_neg_neg_ext, ← neg_div_neg_eq]
  exact div_down_np R (isLower_neg hb) (isLower_neg hd) (by simpa using isLower_neg hb0)
    (lt_zero_neg hd0)

theorem div_down_nn {b c : Ext K} {x y : K} (hb : IsUpper b x) (hc : IsLower c y)
    (hb0 : IsLower b 0) (hy : y < 0) : IsLower (Ext.div R.down b c) (x / y) := by
  rw [← div_neg_neg_ext, ← neg_div_neg_eq]
  exact div_down_pp R (isLower_neg hb) (isUpper_neg hc) (by simpa using isUpper_neg hb0)
    (by linarith)

theorem div_up_pn {a c : Ext K} {x y : K} (ha : IsLower a x) (hc : IsLower c y)
    (ha0 : IsUpper a 0) (hy : y < 0) : IsUpper (Ext.div R.up a c) (x / y) := by
  rw [← div_neg_neg_ext, ← neg_div_neg_eq]
  exact div_up_np R (isUpper_neg ha) (isUpper_neg hc) (by simpa using isLower_neg ha0)
    (by linarith)

theorem div_up_nn {a d : Ext K} {x y : K} (ha : IsLower a x) (hd : IsUpper d y)
    (ha0 : IsLower a 0) (hd0 : Ext.lt d (fin 0) = true) :
    IsUpper (Ext.div R.up a d) (x / y) := by
  rw [← div_neg_neg_ext, ← neg_div_neg_eq]
  exact div_up_pp R (isUpper_neg ha) (isLower_neg hd) (by simpa using isUpper_neg ha0)
    (lt_zero_neg hd0)

/-! Powers. -/

theorem mul_up_pos {a b : Ext K} {x y : K} (ha : IsUpper a x) (hb : IsUpper b y)
    (hx : 0 < x) (hy : 0 < y) : IsUpper (Ext.mul R.up a b) (x * y) := by
  refine mul_up_pp R ha hb (isUpper_mono ha hx.le) (isUpper_mono hb hy.le) (Or.inl hx.le) ?_
  have h := fun z => R.up_upper z
  cases a <;> cases b <;> simp [IsUpper, Ext.mul, infSign] at *
  · rename_i p q
    have := h (p * q)
    intro e; rw [e] at this; exact this
  · split_ifs <;> simp_all <;> linarith
  · split_ifs <;> simp_all <;> linarith

theorem mul_down_neg {a b : Ext K} {x y : K} (ha : IsUpper a x) (hb : IsLower b y)
    (hx : 0 < x) (hy : y < 0) : IsLower (Ext.mul R.down a b) (x * y) := by
  refine mul_down_pn R ha hb (isUpper_mono ha hx.le) (isLower_mono hb hy.le) (Or.inl hx.le) ?_
  have h := fun z => R.down_lower z
  cases a <;> cases b <;> simp [IsUpper, IsLower, Ext.mul, infSign] at *
  · split_ifs <;> simp_all <;> linarith
  · rename_i p q
    have := h (p * q)
    intro e; rw [e] at this; exact this
  · split_ifs <;> simp_all <;> linarith

theorem mul_down_nonneg {a b : Ext K} {x y : K} (ha : IsLower a x) (hb : IsLower b y)
    (ha0 : IsUpper a 0) (hb0 : IsUpper b 0) : IsUpper (Ext.mul R.down a b) 0 := by
  cases a <;> cases b <;> simp [IsUpper, IsLower] at *
  exact R.down_nonneg (mul_nonneg ha0 hb0)

theorem mul_up_nonpos {a b : Ext K} {x y : K} (ha : IsLower a x) (hb : IsUpper b y)
    (ha0 : IsUpper a 0) (hb0 : IsLower b 0) : IsLower (Ext.mul R.up a b) 0 := by
  cases a <;> cases b <;> simp [IsUpper, IsLower] at *
  exact R.up_nonpos (mul_nonpos_of_nonneg_of_nonpos ha0 hb0)

theorem pow_step (A P : K) (m : ℕ) :
    A * P ^ m = (if m % 2 = 1 then A * P else A) * (P * P) ^ (m / 2) := by
  have h := Nat.div_add_mod m 2
  have hp : (P * P) ^ (m / 2) = P ^ (2 * (m / 2)) := by rw [pow_mul, pow_two]
  split_ifs with hm
  · rw [hp]; conv_lhs => rw [← h, hm, pow_succ]
    ring
  · have : m % 2 = 0 := by omega
    rw [hp]; conv_lhs => rw [← h, this, add_zero]

theorem powPosLoop_down (m : ℕ) : ∀ (r p : Ext K) (A P : K), IsLower r A → IsUpper r 0 →
    IsLower p P → IsUpper p 0 → IsLower (powPosLoop R.down m r p) (A * P ^ m) := by
  induction m using Nat.strong_induction_on with
  | _ m ih =>
    intro r p A P hr hr0 hp hp0
    unfold powPosLoop
    by_cases h : m = 0
    · rw [dif_pos h]; subst h; simpa using hr
    · rw [dif_neg h, pow_step]
      apply ih (m / 2) (by omega)
      · split_ifs; exacts [mul_down_pp R hr hp hr0 hp0, hr]
      · split_ifs; exacts [mul_down_nonneg R hr hp hr0 hp0, hr0]
      · exact mul_down_pp R hp hp hp0 hp0
      · exact mul_down_nonneg R hp hp hp0 hp0

theorem powPosLoop_up (m : ℕ) : ∀ (r p : Ext K) (A P : K), IsUpper r A → 0 < A →
    IsUpper p P → 0 < P → IsUpper (powPosLoop R.up m r p) (A * P ^ m) := by
  induction m using Nat.strong_induction_on with
  | _ m ih =>
    intro r p A P hr hr0 hp hp0
    unfold powPosLoop
    by_cases h : m = 0
    · rw [dif_pos h]; subst h; simpa using hr
    · rw [dif_neg h, pow_step]
      apply ih (m / 2) (by omega)
      · split_ifs; exacts [mul_up_pos R hr hp hr0 hp0, hr]
      · split_ifs <;> positivity
      · exact mul_up_pos R hp hp hp0 hp0
      · positivity

theorem powNegLoop_down (m : ℕ) : ∀ (r p : Ext K) (A P : K), IsLower r (-A) → 0 < A →
    IsLower p (-P) → 0 < P → IsLower (powNegLoop R.down m r p) (-(A * P ^ m)) := by
  induction m using Nat.strong_induction_on with
  | _ m ih =>
    intro r p A P hr hr0 hp hp0
    have hr' : IsUpper r.neg A := by simpa using isUpper_neg hr
    have hp' : IsUpper p.neg P := by simpa using isUpper_neg hp
    unfold powNegLoop
    by_cases h : m = 0
    · rw [dif_pos h]; subst h; simpa using hr
    · rw [dif_neg h, pow_step]
      apply ih (m / 2) (by omega)
      · split_ifs
        · have := mul_down_neg R hr' hp hr0 (by linarith)
          rwa [mul_neg] at this
        · exact hr
      · split_ifs <;> positivity
      · have := mul_down_neg R hp' hp hp0 (by linarith)
        rwa [mul_neg] at this
      · positivity

theorem powNegLoop_up (m : ℕ) : ∀ (r p : Ext K) (A P : K), IsUpper r (-A) → IsLower r 0 →
    IsUpper p (-P) → IsLower p 0 → IsUpper (powNegLoop R.up m r p) (-(A * P ^ m)) := by
  induction m using Nat.strong_induction_on with
  | _ m ih =>
    intro r p A P hr hr0 hp hp0
    have hr' : IsLower r.neg A := by simpa using isLower_neg hr
    have hp' : IsLower p.neg P := by simpa using isLower_neg hp
    have hr0' : IsUpper r.neg 0 := by simpa using isUpper_neg hr0
    have hp0' : IsUpper p.neg 0 := by simpa using isUpper_neg hp0
    unfold powNegLoop
    by_cases h : m = 0
    · rw [dif_pos h]; subst h; simpa using hr
    · rw [dif_neg h, pow_step]
      apply ih (m / 2) (by omega)
      · split_ifs
        · have := mul_up_pn R hr' hp hr0' hp0
          rwa [mul_neg] at this
        · exact hr
      · split_ifs; exacts [mul_up_nonpos R hr' hp hr0' hp0, hr0]
      · have := mul_up_pn R hp' hp hp0' hp0
        rwa [mul_neg] at this
      · exact mul_up_nonpos R hp' hp hp0' hp0

theorem neg_pow_odd {x : K} {m : ℕ} (hm : m % 2 = 1) : (-x) ^ m = -x ^ m :=
  Odd.neg_pow (Nat.odd_iff.2 hm) x

/-- Lower bound for an odd power. -/
theorem pow_odd_down {l : Ext K} {x : K} {m : ℕ} (hm : m % 2 = 1) (hl : IsLower l x) :
    IsLower (Ext.pow R.down l m) (x ^ m) := by
  have hm0 : m ≠ 0 := by omega
  have hmono : ∀ {a b : K}, a ≤ b → a ^ m ≤ b ^ m := fun h => (Nat.odd_iff.2 hm).pow_le_pow.2 h
  unfold Ext.pow
  rw [if_neg hm0]
  cases l with
  | nan => exact hl.elim
  | pinf => exact hl.elim
  | ninf =>
    simp only [Ext.eq, Ext.lt, hm]
    have := powNegLoop_down R m (fin (-1)) .ninf 1 (|x| + 1) (by simp [IsLower]) one_pos trivial
      (by positivity)
    refine isLower_mono this ?_
    rw [one_mul, ← neg_pow_odd hm]
    exact hmono (by have := neg_abs_le x; linarith)
  | fin a =>
    simp only [IsLower] at hl
    simp only [Ext.eq, Ext.lt, hm]
    rcases lt_trichotomy a 0 with h | h | h
    · have := powNegLoop_down R m (fin (-1)) (fin a) 1 (-a) (by simp [IsLower]) one_pos
        (by simp [IsLower]) (by linarith)
      simp only [h.ne, decide_false, h.not_gt]
      refine isLower_mono this ?_
      rw [one_mul, ← neg_pow_odd hm, neg_neg]
      exact hmono hl
    · subst h; simpa [IsLower] using (pow_nonneg hl m)
    · have := powPosLoop_down R m (fin 1) (fin |a|) 1 |a| (by simp [IsLower]) (by simp [IsUpper])
        (by simp [IsLower]) (by simp [IsUpper])
      simp only [h.ne', decide_false, h, decide_true]
      refine isLower_mono this ?_
      rw [one_mul, abs_of_pos h]
      exact hmono hl

/-- Upper bound for an odd power. -/
theorem pow_odd_up {u : Ext K} {x : K} {m : ℕ} (hm : m % 2 = 1) (hu : IsUpper u x) :
    IsUpper (Ext.pow R.up u m) (x ^ m) := by
  have hm0 : m ≠ 0 := by omega
  have hmono : ∀ {a b : K}, a ≤ b → a ^ m ≤ b ^ m := fun h => (Nat.odd_iff.2 hm).pow_le_pow.2 h
  unfold Ext.pow
  rw [if_neg hm0]
  cases u with
  | nan => exact hu.elim
  | ninf => exact hu.elim
  | pinf =>
    simp only [Ext.eq, Ext.lt]
    have := powPosLoop_up R m (fin 1) .pinf 1 (|x| + 1) (by simp [IsUpper]) one_pos trivial
      (by positivity)
    refine isUpper_mono this ?_
    rw [one_mul]
    exact hmono (by have := le_abs_self x; linarith)
  | fin a =>
    simp only [IsUpper] at hu
    simp only [Ext.eq, Ext.lt, hm]
    rcases lt_trichotomy a 0 with h | h | h
    · have := powNegLoop_up R m (fin (-1)) (fin a) 1 (-a) (by simp [IsUpper]) (by simp [IsLower])
        (by simp [IsUpper]) (by simpa [IsLower] using h.le)
      simp only [h.ne, decide_false, h.not_gt]
      refine isUpper_mono this ?_
      rw [one_mul, ← neg_pow_odd hm, neg_neg]
      exact hmono hu
    · subst h
      have := hmono hu
      rw [zero_pow hm0] at this
      simpa [IsUpper] using this
    · have := powPosLoop_up R m (fin 1) (fin |a|) 1 |a| (by simp [IsUpper]) one_pos
        (by simp [IsUpper]) (by positivity)
      simp only [h.ne', decide_false, h, decide_true]
      refine isUpper_mono this ?_
      rw [one_mul, abs_of_pos h]
      exact hmono hu

/-- Lower bound for any power of a nonnegative number. -/
theorem pow_pos_down {l : Ext K} {x : K} {m : ℕ} (hl : IsLower l x) (hl0 : IsUpper l 0) :
    IsLower (Ext.pow R.down l m) (x ^ m) := by
  unfold Ext.pow
  split_ifs with h0 h1 h2
  · subst h0; simp [IsLower]
  · cases l <;> simp [IsLower, IsUpper, Ext.eq] at *
    exact pow_nonneg (by linarith) m
  · cases l <;> simp [IsLower, IsUpper] at *
    rename_i a
    have := powPosLoop_down R m (fin 1) (fin |a|) 1 |a| (by simp [IsLower]) (by simp [IsUpper])
        (by simp [IsLower]) (by simp [IsUpper])
    refine isLower_mono this ?_
    rw [one_mul, abs_of_nonneg hl0]
    exact pow_le_pow_left₀ hl0 hl m
  · exfalso
    cases l <;> simp [IsLower, IsUpper, Ext.eq, Ext.lt] at *
    exact h1 (le_antisymm h2.1 hl0)

/-- Upper bound for any power of a nonnegative number. -/
theorem pow_pos_up {u : Ext K} {x : K} {m : ℕ} (hx : 0 ≤ x) (hu : IsUpper u x) :
    IsUpper (Ext.pow R.up u m) (x ^ m) := by
  unfold Ext.pow
  split_ifs with h0 h1 h2
  · subst h0; simp [IsUpper]
  · cases u <;> simp [IsLower, IsUpper, Ext.eq] at *
    subst h1
    rw [le_antisymm hu hx, zero_pow h0]
  · cases u with
    | nan => exact hu.elim
    | ninf => exact hu.elim
    | pinf =>
      have := powPosLoop_up R m (fin 1) .pinf 1 (x + 1) (by simp [IsUpper]) one_pos trivial
        (by positivity)
      refine isUpper_mono this ?_
      rw [one_mul]
      exact pow_le_pow_left₀ hx (by linarith) m
    | fin a =>
      simp only [IsUpper, Ext.eq] at *
      have ha : 0 < a := lt_of_le_of_ne (hx.trans hu) (fun e => h1 (by simp [e]))
      have := powPosLoop_up R m (fin 1) (fin |a|) 1 |a| (by simp [IsUpper]) one_pos
        (by simp [IsUpper]) (by positivity)
      refine isUpper_mono this ?_
      rw [one_mul, abs_of_pos ha]
      exact pow_le_pow_left₀ hx hu m
  · exfalso
    cases u <;> simp [IsUpper, Ext.eq, Ext.lt] at *
    exact h1 (le_antisymm h2.1 (hx.trans hu))

end Ariadne
