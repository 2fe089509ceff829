import Verif.Decimal.Model
import Verif.Decimal.Spec
import Mathlib.Data.Nat.Digits.Lemmas
import Mathlib.Algebra.Order.Ring.Abs
import Mathlib.Tactic.NormNum

/-!
# C10, C11: decimal arithmetic, reading and writing
-/

namespace Ariadne.Decimal
open DecimalSpec

theorem ten_ne (n : ℕ) : (10 : ℚ) ^ n ≠ 0 := pow_ne_zero _ (by norm_num)

theorem toRational_canon (p : ℤ) (q : ℕ) : (canon p q).toRational = p / 10 ^ q := by
  induction q generalizing p with
  | zero => simp [canon, toRational]
  | succ q ih =>
    unfold canon
    split_ifs with h
    · rw [ih]
      obtain ⟨k, rfl⟩ := Int.dvd_of_emod_eq_zero h
      rw [Int.mul_ediv_cancel_left _ (by norm_num)]
      rw [pow_succ]
      push_cast
      field_simp
    · simp [toRational]

/-- A decimal whose numerator has no removable trailing zero. -/
def IsCanonical (d : Decimal) : Prop := d.q = 0 ∨ ¬ (10 : ℤ) ∣ d.p

theorem isCanonical_canon (p : ℤ) (q : ℕ) : (canon p q).IsCanonical := by
  induction q generalizing p with
  | zero => left; rfl
  | succ q ih =>
    unfold canon
    split_ifs with h
    · exact ih _
    · right; intro hd; exact h (Int.emod_eq_zero_of_dvd hd)

/-- C10: ring operations are exact. -/
theorem C10_arithmetic (x y : Decimal) :
    (neg x).toRational = -x.toRational ∧
    (add x y).toRational = x.toRational + y.toRational ∧
    (sub x y).toRational = x.toRational - y.toRational ∧
    (mul x y).toRational = x.toRational * y.toRational ∧
    (sqr x).toRational = x.toRational ^ 2 ∧
    (hlf x).toRational = x.toRational / 2 ∧
    (abs x).toRational = |x.toRational| := by
  have hx := ten_ne x.q
  have hy := ten_ne y.q
  refine ⟨?_, ?_, ?_, ?_, ?_, ?_, ?_⟩
  · simp [neg, toRational, neg_div]
  · rw [add, toRational_canon, toRational, toRational, pow_add]; push_cast; field_simp
  · rw [sub, toRational_canon, toRational, toRational, pow_add]; push_cast; field_simp
  · simp only [mul, toRational, pow_add]; push_cast; field_simp
  · simp only [sqr, toRational]; push_cast; rw [pow_mul']; field_simp
  · unfold hlf
    split_ifs with h
    · obtain ⟨k, hk⟩ := Int.dvd_of_emod_eq_zero h
      simp only [toRational, hk]
      rw [Int.mul_ediv_cancel_left _ (by norm_num)]; push_cast; field_simp
    · simp only [toRational, pow_succ]; push_cast; field_simp; ring
  · simp only [abs, toRational]
    rw [abs_div, abs_of_pos (by positivity : (0 : ℚ) < 10 ^ x.q)]
    push_cast; rfl

/-- C10: conversion of the dyadic number `m/2^e` is exact and canonical. -/
theorem C10_ofDyadic (m : ℤ) (e : ℕ) :
    (ofDyadic m e).toRational = m / 2 ^ e ∧ (ofDyadic m e).IsCanonical := by
  refine ⟨?_, isCanonical_canon _ _⟩
  rw [ofDyadic, toRational_canon]
  push_cast
  rw [show (10 : ℚ) = 2 * 5 by norm_num, mul_pow]
  field_simp

/-- C10: sums and differences are returned in lowest form, so equal sums of
canonical numbers have equal components. -/
theorem C10_canonical (x y : Decimal) :
    (add x y).IsCanonical ∧ (sub x y).IsCanonical ∧
    (∀ a b : Decimal, a.IsCanonical → b.IsCanonical → a.toRational = b.toRational → a = b) := by
  refine ⟨isCanonical_canon _ _, isCanonical_canon _ _, ?_⟩
  have key : ∀ a b : Decimal, a.IsCanonical → a.toRational = b.toRational → a.q ≤ b.q → b.IsCanonical → a = b := by
    intro a b ha h hq hb
    have e : b.p = a.p * 10 ^ (b.q - a.q) := by
      unfold toRational at h
      rw [div_eq_div_iff (ten_ne _) (ten_ne _)] at h
      have h' : a.p * 10 ^ b.q = b.p * 10 ^ a.q := by exact_mod_cast h
      have h2 : (10 : ℤ) ^ b.q = 10 ^ (b.q - a.q) * 10 ^ a.q := by
        rw [← pow_add]; congr 1; omega
      rw [h2, ← mul_assoc] at h'
      exact (mul_right_cancel₀ (pow_ne_zero _ (by norm_num)) h').symm
    rcases Nat.eq_zero_or_pos (b.q - a.q) with h0 | h0
    · rw [h0, pow_zero, mul_one] at e
      have : a.q = b.q := by omega
      cases a; cases b; simp_all
    · exfalso
      rcases hb with hb | hb
      · omega
      · apply hb; rw [e]
        exact Dvd.dvd.mul_left (dvd_pow_self _ (by omega)) _
  intro a b ha hb h
  rcases le_total a.q b.q with hq | hq
  · exact key a b ha h hq hb
  · exact (key b a hb h.symm hq ha).symm

/-- C10: quotient by a nonzero number is exact; by zero it is infinite or NaN. -/
theorem C10_div (x y : Decimal) :
    (y.toRational ≠ 0 → div x y = .fin (x.toRational / y.toRational)) ∧
    (y.toRational = 0 → div x y =
      if x.toRational = 0 then .nan else if 0 < x.toRational then .pinf else .ninf) := by
  have hz : ∀ d : Decimal, d.toRational = 0 ↔ d.p = 0 := by
    intro d; simp [toRational]
  have hpos : 0 < x.toRational ↔ 0 < x.p := by
    unfold toRational
    rw [div_pos_iff_of_pos_right (by positivity)]; norm_cast
  constructor
  · intro h
    have hp : y.p ≠ 0 := fun e => h ((hz y).2 e)
    have hpq : (y.p : ℚ) ≠ 0 := by exact_mod_cast hp
    have hx := ten_ne x.q
    have hy := ten_ne y.q
    unfold div mkRational
    simp only [hp, if_false]
    split_ifs with he
    · have e1 : x.q = y.q + ((x.q : ℤ) - y.q).toNat := by omega
      generalize ((x.q : ℤ) - y.q).toNat = k at *
      simp only [Ext.div, ten_ne k, if_false]
      simp only [toRational, e1, pow_add]
      congr 1
      have := ten_ne k
      field_simp
    · have e1 : y.q = x.q + (-((x.q : ℤ) - y.q)).toNat := by omega
      generalize (-((x.q : ℤ) - y.q)).toNat = k at *
      simp only [Ext.mul, toRational, e1, pow_add]
      congr 1
      have := ten_ne k
      field_simp
  · intro h
    have hp := (hz y).1 h
    simp only [hz x, hpos]
    have h10 : ∀ k : ℕ, (0 : ℚ) < 10 ^ k := fun k => by positivity
    have i1 : ∀ k : ℕ, Ext.infSign ((10 : ℚ) ^ k) = .pinf := fun k => if_pos (h10 k)
    have i2 : ∀ k : ℕ, Ext.infSign (-(10 : ℚ) ^ k) = .ninf := fun k => by
      have := h10 k
      unfold Ext.infSign
      rw [if_neg (by linarith), if_pos (by linarith)]
    unfold div mkRational
    simp only [hp, if_true]
    by_cases e : ((x.q : ℤ) - y.q) > 0 <;> by_cases e0 : x.p = 0 <;> by_cases e1 : 0 < x.p <;>
      simp only [e, e0, e1, Ext.div, Ext.mul, i1, i2, gt_iff_lt, if_true, if_false]

theorem cross_lt (x y : Decimal) : x.p * 10 ^ y.q < y.p * 10 ^ x.q ↔ x.toRational < y.toRational := by
  unfold toRational
  rw [div_lt_div_iff₀ (by positivity) (by positivity)]
  norm_cast

theorem cross_eq (x y : Decimal) : x.p * 10 ^ y.q = y.p * 10 ^ x.q ↔ x.toRational = y.toRational := by
  unfold toRational
  rw [div_eq_div_iff (ten_ne _) (ten_ne _)]
  norm_cast

/-- C10: `cmp`, `eq`, `lt`, `==`, `!=`, `<`, `>=`, `max` and `min` decide the order
of the represented numbers.  (`<=` and `>` do not: see the counterexample.) -/
theorem C10_compare_partial (x y : Decimal) :
    (cmp x y = .less ↔ x.toRational < y.toRational) ∧
    (cmp x y = .equal ↔ x.toRational = y.toRational) ∧
    (cmp x y = .greater ↔ x.toRational > y.toRational) ∧
    (eq x y = true ↔ x.toRational = y.toRational) ∧
    (lt x y = true ↔ x.toRational < y.toRational) ∧
    (opEq x y = true ↔ x.toRational = y.toRational) ∧
    (opNe x y = true ↔ x.toRational ≠ y.toRational) ∧
    (opLt x y = true ↔ x.toRational < y.toRational) ∧
    (opGe x y = true ↔ x.toRational ≥ y.toRational) ∧
    (max x y).toRational = Max.max x.toRational y.toRational ∧
    (min x y).toRational = Min.min x.toRational y.toRational := by
  have c1 := cross_lt x y
  have c2 := cross_eq x y
  have c3 := cross_lt y x
  have d1 := lt_trichotomy (x.p * 10 ^ y.q) (y.p * 10 ^ x.q)
  have e1 : cmp x y = .less ↔ x.toRational < y.toRational := by
    rw [← c1]; unfold cmp cmpInt; split_ifs <;> simp <;> omega
  have e2 : cmp x y = .equal ↔ x.toRational = y.toRational := by
    rw [← c2]; unfold cmp cmpInt; split_ifs <;> simp <;> omega
  have e3 : cmp x y = .greater ↔ x.toRational > y.toRational := by
    rw [gt_iff_lt, ← c3]; unfold cmp cmpInt; split_ifs <;> simp <;> omega
  have e4 : cmp y x = .less ↔ y.toRational < x.toRational := by
    rw [← c3]; unfold cmp cmpInt; split_ifs <;> simp <;> omega
  refine ⟨e1, e2, e3, ?_, ?_, ?_, ?_, ?_, ?_, ?_, ?_⟩
  · rw [← c2]; simp [eq]
  · rw [← c1]; simp [lt]
  · rw [← e2]; simp [opEq]
  · rw [ne_eq, ← e2]; simp [opNe]
  · rw [← e1]; simp [opLt]
  · rw [ge_iff_le, ← not_lt, ← e1]; simp [opGe]
  · unfold max opLt
    split_ifs with h
    · rw [beq_iff_eq, e1] at h; exact (max_eq_right h.le).symm
    · rw [beq_iff_eq, e1] at h; exact (max_eq_left (not_lt.1 h)).symm
  · unfold min opLt
    split_ifs with h
    · rw [beq_iff_eq, e4] at h; exact (min_eq_right h.le).symm
    · rw [beq_iff_eq, e4] at h; exact (min_eq_left (not_lt.1 h)).symm

/-- C10 fails for `operator<=` and `operator>` (decimal.hpp 85 and 88): for every
pair they answer the question with the arguments exchanged. -/
theorem C10_le_gt_swapped (x y : Decimal) :
    (opLe x y = true ↔ y.toRational ≤ x.toRational) ∧
    (opGt x y = true ↔ y.toRational > x.toRational) := by
  obtain ⟨_, _, h, _⟩ := C10_compare_partial y x
  constructor
  · rw [← not_lt, ← gt_iff_lt, ← h]; simp [opLe]
  · rw [← h]; simp [opGt]

theorem C10_le_counterexample :
    (ofParts 1 0).toRational ≤ (ofParts 2 0).toRational ∧ opLe (ofParts 1 0) (ofParts 2 0) = false ∧
    ¬ (ofParts 1 0).toRational > (ofParts 2 0).toRational ∧
    opGt (ofParts 1 0) (ofParts 2 0) = true := by
  refine ⟨?_, by decide, ?_, by decide⟩ <;> norm_num [ofParts, toRational]

/-! ### Text -/

theorem digit_toNat {d : ℕ} (h : d < 10) : (digit d).toNat = 48 + d := by
  unfold digit
  interval_cases d <;> decide

theorem digit_ne_point {d : ℕ} (h : d < 10) : digit d ≠ '.' := by
  interval_cases d <;> decide

theorem intPart_append (a : List ℕ) (d : ℕ) : intPart (a ++ [d]) = intPart a * 10 + d := by
  induction a with
  | nil => simp [intPart]
  | cons x a ih => simp only [List.cons_append, intPart, ih, List.length_append, List.length_singleton, pow_succ]; ring

theorem fracPart_append (a : List ℕ) (d : ℕ) : fracPart (a ++ [d]) = fracPart a + d / 10 ^ (a.length + 1) := by
  induction a with
  | nil => simp [fracPart]
  | cons x a ih =>
    simp only [List.cons_append, fracPart, ih, List.length_cons, pow_succ]
    field_simp
    ring

/-- What the loop variables mean after reading digits `a`, maybe a point and digits `b`. -/
structure Inv (st : PState) (a b : List ℕ) : Prop where
  notfound : st.found = false → b = [] ∧ st.q = 0 ∧ st.tz = 0
  len : st.q + st.tz = b.length
  val : (st.p : ℚ) / 10 ^ st.q = intPart a + fracPart b
  canon : st.q ≠ 0 → ¬ (10 : ℤ) ∣ st.p

theorem pstep_digit {st : PState} {a b : List ℕ} (h : Inv st a b) {d : ℕ} (hd : d < 10) :
    ∃ st', pstep st (digit d) = .ok st' ∧ st'.found = st.found ∧
      Inv st' (if st.found then a else a ++ [d]) (if st.found then b ++ [d] else b) := by
  unfold pstep
  rw [if_neg (digit_ne_point hd), digit_toNat hd, if_neg (by omega)]
  simp only [show 48 + d - 48 = d by omega]
  cases hf : st.found with
  | true =>
    simp only [if_true]
    by_cases h0 : d = 0
    · subst h0
      refine ⟨_, if_pos rfl, by simp [hf], ?_⟩
      refine ⟨by simp [hf], by simp [← h.len, Nat.add_assoc], ?_, h.canon⟩
      rw [fracPart_append]; simpa using h.val
    · refine ⟨_, if_neg h0, rfl, ⟨by simp, by simp [← h.len, Nat.add_assoc], ?_, ?_⟩⟩
      · rw [fracPart_append, ← add_assoc, ← h.val, ← h.len]
        simp only [pow_add, pow_one]
        push_cast
        have := ten_ne st.q; have := ten_ne st.tz
        field_simp
      · intro _ hdvd
        have := (Int.dvd_add_right (Dvd.intro_left _ rfl)).1 hdvd
        have h1 : (10 : ℤ) ∣ (d : ℤ) := this
        omega
  | false =>
    simp only [Bool.false_eq_true, if_false]
    obtain ⟨hb, hq, ht⟩ := h.notfound hf
    refine ⟨_, rfl, by simp [hf], ⟨fun _ => ⟨hb, hq, ht⟩, h.len, ?_, by simp [hq]⟩⟩
    have := h.val
    subst hb
    simp only [hq, pow_zero, div_one, fracPart, add_zero] at this ⊢
    rw [intPart_append, ← this]; push_cast; ring

theorem ploop_append (st : PState) (u v : List Char) :
    ploop st (u ++ v) = match ploop st u with
      | .error e => .error e
      | .ok st' => ploop st' v := by
  induction u generalizing st with
  | nil => rfl
  | cons c u ih =>
    simp only [List.cons_append, ploop]
    cases pstep st c with
    | error e => rfl
    | ok s => exact ih s

theorem ploop_digits {st : PState} {a b : List ℕ} (h : Inv st a b) (ds : List ℕ)
    (hd : ∀ d ∈ ds, d < 10) :
    ∃ st', ploop st (ds.map digit) = .ok st' ∧ st'.found = st.found ∧
      Inv st' (if st.found then a else a ++ ds) (if st.found then b ++ ds else b) := by
  induction ds generalizing st a b with
  | nil => exact ⟨st, rfl, rfl, by simpa using h⟩
  | cons d ds ih =>
    obtain ⟨s1, e1, f1, i1⟩ := pstep_digit h (hd d (by simp))
    obtain ⟨s2, e2, f2, i2⟩ := ih i1 (fun x hx => hd x (by simp [hx]))
    refine ⟨s2, ?_, f2.trans f1, ?_⟩
    · simp only [List.map_cons, ploop, e1, e2]
    · rw [f1] at i2
      cases hf : st.found <;> simp [hf] at i2 ⊢ <;> exact i2

theorem inv_init : Inv ⟨false, 0, 0, 0⟩ [] [] := ⟨by simp, by simp, by simp [intPart, fracPart], by simp⟩

theorem ploop_literal {a b : List ℕ} (ha : ∀ d ∈ a, d < 10) (hb : ∀ d ∈ b, d < 10)
    {point : List Char} (hp : point = ['.'] ∨ point = [] ∧ b = []) :
    ∃ st, ploop ⟨false, 0, 0, 0⟩ (a.map digit ++ point ++ b.map digit) = .ok st ∧ Inv st a b := by
  obtain ⟨s1, e1, f1, i1⟩ := ploop_digits inv_init a ha
  simp at i1
  simp at f1
  rcases hp with rfl | ⟨rfl, rfl⟩
  · have i2 : Inv { s1 with found := true } a [] := ⟨by simp, i1.len, i1.val, i1.canon⟩
    obtain ⟨s3, e3, f3, i3⟩ := ploop_digits i2 b hb
    refine ⟨s3, ?_, by simpa using i3⟩
    rw [ploop_append, ploop_append, e1]
    simp only [ploop, pstep, if_true, f1, Bool.false_eq_true, if_false, e3]
  · exact ⟨s1, by simpa using e1, i1⟩

theorem digit_ne_minus {d : ℕ} (h : d < 10) : digit d ≠ '-' ∧ digit d ≠ '+' := by
  constructor <;> interval_cases d <;> decide

/-- C11: reading any decimal literal gives the number it denotes, in lowest form. -/
theorem C11_parse {s : List Char} {n : Bool} {a b : List ℕ} (h : IsLiteral s n a b) :
    ∃ d, parse s = .ok d ∧ d.toRational = litValue n a b ∧ d.IsCanonical := by
  obtain ⟨ha, hb, sign, point, rfl, hs, hp⟩ := h
  obtain ⟨st, e, i⟩ := ploop_literal ha hb hp
  rw [List.append_assoc] at e
  have hc : ∀ z : ℤ, (z = 1 ∨ z = -1) → (⟨st.p * z, st.q⟩ : Decimal).IsCanonical := by
    intro z hz
    by_cases hq : st.q = 0
    · left; exact hq
    · right; rcases hz with rfl | rfl
      · simpa using i.canon hq
      · simpa using i.canon hq
  rcases hs with ⟨rfl, rfl⟩ | ⟨rfl | rfl, rfl⟩
  · refine ⟨⟨st.p * -1, st.q⟩, ?_, ?_, hc _ (by simp)⟩
    · simp [parse, e]
    · simp only [toRational, litValue, if_true]; push_cast; rw [← i.val]; ring
  · refine ⟨⟨st.p * 1, st.q⟩, ?_, ?_, hc _ (by simp)⟩
    · simp [parse, e]
    · simp only [toRational, litValue]; push_cast; rw [← i.val]; simp
  · refine ⟨⟨st.p * 1, st.q⟩, ?_, ?_, hc _ (by simp)⟩
    · have hm : ∀ t, (([] : List Char) ++ a.map digit ++ point ++ b.map digit) = '-' :: t → False := by
        intro t ht
        cases a with
        | cons x a => simp at ht; exact (digit_ne_minus (ha x (by simp))).1 ht.1
        | nil =>
          rcases hp with rfl | ⟨rfl, rfl⟩
          · simp at ht
          · simp at ht
      have hpl : ∀ t, (([] : List Char) ++ a.map digit ++ point ++ b.map digit) = '+' :: t → False := by
        intro t ht
        cases a with
        | cons x a => simp at ht; exact (digit_ne_minus (ha x (by simp))).2 ht.1
        | nil =>
          rcases hp with rfl | ⟨rfl, rfl⟩
          · simp at ht
          · simp at ht
      unfold parse
      generalize hgen : (([] : List Char) ++ a.map digit ++ point ++ b.map digit) = str at *
      have e' : ploop ⟨false, 0, 0, 0⟩ str = .ok st := by
        rw [← hgen]; simpa using e
      split
      rename_i s0 rest heq
      split at heq
      · exact absurd rfl (fun h' => hm _ h')
      · exact absurd rfl (fun h' => hpl _ h')
      · simp only [Prod.mk.injEq] at heq
        obtain ⟨rfl, rfl⟩ := heq
        rw [e']
    · simp only [toRational, litValue]; push_cast; rw [← i.val]; simp

theorem toNat_digit (c : Char) (h1 : 48 ≤ c.toNat) (h2 : c.toNat ≤ 57) :
    ∃ d, d < 10 ∧ c = digit d := by
  refine ⟨c.toNat - 48, by omega, ?_⟩
  unfold digit
  rw [show 48 + (c.toNat - 48) = c.toNat by omega]
  exact (Char.ofNat_toNat c).symm

theorem ploop_found {st st' : PState} (hf : st.found = true) {cs : List Char} (h : ploop st cs = .ok st') :
    ∃ b : List ℕ, (∀ d ∈ b, d < 10) ∧ cs = b.map digit := by
  induction cs generalizing st with
  | nil => exact ⟨[], by simp, rfl⟩
  | cons c cs ih =>
    simp only [ploop] at h
    cases hs : pstep st c with
    | error e => simp [hs] at h
    | ok s =>
      simp only [hs] at h
      unfold pstep at hs
      by_cases hc : c = '.'
      · simp [hc, hf] at hs
      · rw [if_neg hc] at hs
        by_cases hr : c.toNat < 48 ∨ c.toNat > 57
        · simp [hr] at hs
        · obtain ⟨d, hd, rfl⟩ := toNat_digit c (by omega) (by omega)
          rw [if_neg hr, if_pos hf] at hs
          have hs' : s.found = true := by
            split_ifs at hs
            · have := Except.ok.inj hs; rw [← this]; exact hf
            · have := Except.ok.inj hs; rw [← this]
          obtain ⟨b, hb, rfl⟩ := ih hs' h
          exact ⟨d :: b, by simpa [hd] using hb, rfl⟩

theorem ploop_notfound {st st' : PState} (hf : st.found = false) {cs : List Char} (h : ploop st cs = .ok st') :
    ∃ (a b : List ℕ) (point : List Char), (∀ d ∈ a, d < 10) ∧ (∀ d ∈ b, d < 10) ∧
      cs = a.map digit ++ point ++ b.map digit ∧ (point = ['.'] ∨ point = [] ∧ b = []) := by
  induction cs generalizing st with
  | nil => exact ⟨[], [], [], by simp, by simp, rfl, by simp⟩
  | cons c cs ih =>
    simp only [ploop] at h
    cases hs : pstep st c with
    | error e => simp [hs] at h
    | ok s =>
      simp only [hs] at h
      unfold pstep at hs
      by_cases hc : c = '.'
      · simp only [hc, hf, if_true, Bool.false_eq_true, if_false] at hs
        have := Except.ok.inj hs
        obtain ⟨b, hb, rfl⟩ := ploop_found (by rw [← this]) h
        exact ⟨[], b, ['.'], by simp, hb, by simp [hc], by simp⟩
      · rw [if_neg hc] at hs
        by_cases hr : c.toNat < 48 ∨ c.toNat > 57
        · simp [hr] at hs
        · obtain ⟨d, hd, rfl⟩ := toNat_digit c (by omega) (by omega)
          rw [if_neg hr] at hs
          simp only [hf, Bool.false_eq_true, if_false] at hs
          have := Except.ok.inj hs
          obtain ⟨a, b, pt, ha, hb, rfl, hp⟩ := ih (by rw [← this]) h
          exact ⟨d :: a, b, pt, by simpa [hd] using ha, hb, by simp, hp⟩

/-- C11: a text is accepted only if it is a decimal literal; everything else is
rejected with an exception. -/
theorem C11_reject {s : List Char} {d : Decimal} (h : parse s = .ok d) :
    ∃ n a b, IsLiteral s n a b := by
  unfold parse at h
  split at h
  rename_i s0 rest heq
  cases hl : ploop ⟨false, 0, 0, 0⟩ rest with
  | error e => simp [hl] at h
  | ok st =>
    obtain ⟨a, b, pt, ha, hb, e, hp⟩ := ploop_notfound rfl hl
    split at heq
    · rename_i cs
      simp only [Prod.mk.injEq] at heq
      refine ⟨true, a, b, ha, hb, ['-'], pt, ?_, by simp, hp⟩
      rw [heq.2, e]; simp
    · rename_i cs
      simp only [Prod.mk.injEq] at heq
      refine ⟨false, a, b, ha, hb, ['+'], pt, ?_, by simp, hp⟩
      rw [heq.2, e]; simp
    · simp only [Prod.mk.injEq] at heq
      refine ⟨false, a, b, ha, hb, [], pt, ?_, by simp, hp⟩
      rw [heq.2, e]; simp

/-- the digits written for a natural number, most significant first -/
def natDigits (n : ℕ) : List ℕ := if n = 0 then [0] else (Nat.digits 10 n).reverse

theorem printNat_eq (n : ℕ) : printNat n = (natDigits n).map digit := by
  unfold printNat natDigits
  split_ifs
  · rfl
  · rfl

theorem natDigits_lt {n d : ℕ} (h : d ∈ natDigits n) : d < 10 := by
  unfold natDigits at h
  split_ifs at h
  · simp at h; omega
  · rw [List.mem_reverse] at h
    exact Nat.digits_lt_base (by norm_num) h

theorem intPart_reverse (l : List ℕ) : intPart l.reverse = (Nat.ofDigits 10 l : ℕ) := by
  induction l with
  | nil => simp [intPart]
  | cons d l ih => rw [List.reverse_cons, intPart_append, ih, Nat.ofDigits_cons]; push_cast; ring

theorem intPart_natDigits (n : ℕ) : intPart (natDigits n) = n := by
  unfold natDigits
  split_ifs with h
  · simp [intPart, h]
  · rw [intPart_reverse, Nat.ofDigits_digits]

theorem fracPart_eq (l : List ℕ) : fracPart l = intPart l / 10 ^ l.length := by
  induction l with
  | nil => simp [fracPart, intPart]
  | cons d l ih =>
    simp only [fracPart, intPart, ih, List.length_cons, pow_succ]
    field_simp

theorem fracPart_zeros (k : ℕ) (l : List ℕ) : fracPart (List.replicate k 0 ++ l) = fracPart l / 10 ^ k := by
  induction k with
  | zero => simp
  | succ k ih =>
    simp only [List.replicate_succ, List.cons_append, fracPart, ih, pow_succ]
    push_cast; field_simp; simp

theorem natDigits_length {n k : ℕ} (h1 : 10 ^ k ≤ n) (h2 : n < 10 ^ (k + 1)) :
    (natDigits n).length = k + 1 := by
  have h0 : n ≠ 0 := by have : 0 < 10 ^ k := by positivity
                        omega
  unfold natDigits
  rw [if_neg h0, List.length_reverse, Nat.digits_len 10 n (by norm_num) h0]
  rw [(Nat.log_eq_iff (Or.inr ⟨by norm_num, h0⟩)).2 ⟨h1, h2⟩]

theorem padding_spec (r : ℕ) (hr : r ≠ 0) (k : ℕ) (h : r < 10 ^ k) :
    ∃ z, padding r (10 ^ k) = (List.replicate z 0).map digit ∧
      z + (natDigits r).length = k := by
  induction k with
  | zero => simp at h; omega
  | succ k ih =>
    by_cases hlt : r * 10 < 10 ^ (k + 1)
    · have h' : r < 10 ^ k := by rw [pow_succ] at hlt; omega
      obtain ⟨z, e, hz⟩ := ih h'
      refine ⟨z + 1, ?_, by omega⟩
      rw [padding, dif_pos hlt, pow_succ, Nat.mul_div_cancel _ (by norm_num), e]
      rfl
    · refine ⟨0, ?_, ?_⟩
      · rw [padding, dif_neg hlt]; rfl
      · rw [natDigits_length (k := k) ?_ h]
        · omega
        · rw [pow_succ] at hlt; omega

/-- The text written for a decimal denotes exactly its value. -/
theorem print_literal (d : Decimal) :
    ∃ a b, IsLiteral (print d) (decide (d.p < 0)) a b ∧ litValue (decide (d.p < 0)) a b = d.toRational := by
  set p := d.p.natAbs with hp
  set r := p - p / 10 ^ d.q * 10 ^ d.q with hr
  have hdm : p / 10 ^ d.q * 10 ^ d.q + r = p := by
    have := Nat.div_mul_le_self p (10 ^ d.q); omega
  have hrlt : r < 10 ^ d.q := by
    have h1 := Nat.div_add_mod p (10 ^ d.q)
    have h2 := Nat.mod_lt p (show 0 < 10 ^ d.q by positivity)
    rw [mul_comm] at h1; omega
  have hq := ten_ne d.q
  have hval : (p : ℚ) / 10 ^ d.q = (p / 10 ^ d.q : ℕ) + (r : ℚ) / 10 ^ d.q := by
    rw [eq_comm, ← sub_eq_zero]
    have : (p : ℚ) = (p / 10 ^ d.q : ℕ) * 10 ^ d.q + r := by exact_mod_cast hdm.symm
    rw [this]; field_simp; ring
  have hsgn : (if decide (d.p < 0) = true then (-1 : ℚ) else 1) * p = d.p := by
    by_cases h : d.p < 0
    · simp only [h, decide_true, if_true]
      have : (p : ℤ) = -d.p := by omega
      have : (p : ℚ) = -d.p := by exact_mod_cast this
      rw [this]; ring
    · simp only [h, decide_false, Bool.false_eq_true, if_false]
      have : (p : ℤ) = d.p := by omega
      have : (p : ℚ) = d.p := by exact_mod_cast this
      rw [this]; ring
  have hfin : ∀ b, fracPart b = (r : ℚ) / 10 ^ d.q →
      litValue (decide (d.p < 0)) (natDigits (p / 10 ^ d.q)) b = d.toRational := by
    intro b hb
    unfold litValue
    rw [intPart_natDigits, hb, ← hval, ← mul_div_assoc, hsgn]; rfl
  have hsign : (if d.p < 0 then ['-'] else []) = ['-'] ∧ decide (d.p < 0) = true ∨
      ((if d.p < 0 then ['-'] else []) = ['+'] ∨ (if d.p < 0 then ['-'] else ([] : List Char)) = []) ∧
        decide (d.p < 0) = false := by
    by_cases h : d.p < 0 <;> simp [h]
  by_cases h0 : r = 0
  · refine ⟨natDigits (p / 10 ^ d.q), [], ⟨fun _ h => natDigits_lt h, by simp, _, ['.'], ?_, hsign, by simp⟩,
      hfin _ (by simp [fracPart, h0])⟩
    simp only [print, ← hp, ← hr, h0, printNat_eq]; simp
  · obtain ⟨z, hz, hlen⟩ := padding_spec r h0 d.q hrlt
    refine ⟨natDigits (p / 10 ^ d.q), List.replicate z 0 ++ natDigits r,
      ⟨fun _ h => natDigits_lt h, ?_, _, ['.'], ?_, hsign, by simp⟩, hfin _ ?_⟩
    · intro x hx
      rw [List.mem_append] at hx
      rcases hx with hx | hx
      · have := List.eq_of_mem_replicate hx; omega
      · exact natDigits_lt hx
    · simp only [print, ← hp, ← hr, ne_eq, h0, not_false_eq_true, if_true, printNat_eq, hz, List.map_append]
    · rw [fracPart_zeros, fracPart_eq, intPart_natDigits, ← hlen, pow_add]
      have := ten_ne z; have := ten_ne (natDigits r).length
      field_simp

/-- C11: a decimal written as text and read back has the same value; a decimal in
lowest form is recovered exactly. -/
theorem C11_roundtrip (d : Decimal) :
    ∃ d', parse (print d) = .ok d' ∧ d'.toRational = d.toRational ∧ (d.IsCanonical → d' = d) := by
  obtain ⟨a, b, h, e⟩ := print_literal d
  obtain ⟨d', h1, h2, h3⟩ := C11_parse h
  have h4 := h2.trans e
  exact ⟨d', h1, h4, fun hc => (C10_canonical d d).2.2 d' d h3 hc h4⟩

/-- C11: the text determines the number. -/
theorem C11_print_injective {x y : Decimal} (h : print x = print y) : x.toRational = y.toRational := by
  obtain ⟨d1, e1, v1, _⟩ := C11_roundtrip x
  obtain ⟨d2, e2, v2, _⟩ := C11_roundtrip y
  rw [h, e2] at e1
  rw [← v1, ← v2, Except.ok.inj e1]

/-- Non-vacuity: a literal, and a canonical decimal with padding zeros. -/
example : IsLiteral "-12.0340".toList true [1, 2] [0, 3, 4, 0] :=
  ⟨by decide, by decide, ['-'], ['.'], by decide, by decide, by decide⟩
example : parse "-12.0340".toList = .ok ⟨-12034, 3⟩ := by rfl
example : parse "1.2.3".toList = .error .twoPoints := by rfl
example : (⟨-12034, 3⟩ : Decimal).IsCanonical := by right; decide
example : (add ⟨15, 1⟩ ⟨5, 1⟩) = ⟨2, 0⟩ := by decide

end Ariadne.Decimal
