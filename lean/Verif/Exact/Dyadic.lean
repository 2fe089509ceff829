import Verif.Exact.Model
import Verif.Exact.Spec
import Verif.Decimal.Props
import Mathlib.Tactic.Linarith
import Mathlib.Data.Nat.Prime.Basic
import Mathlib.Algebra.Ring.Int.Parity
import Mathlib.Tactic.FieldSimp
import Mathlib.Tactic.Ring
import Mathlib.Algebra.Order.Field.Power
import Mathlib.Algebra.Order.Archimedean.Basic

/-!
# C12: representation, rounding and printing of dyadic numbers
-/

namespace Ariadne.Exact
open ExactSpec DecimalSpec Decimal

theorem two_ne (n : ℕ) : (2 : ℚ) ^ n ≠ 0 := pow_ne_zero _ (by norm_num)

theorem den_of_dyadic {x : ℚ} (h : IsDyadic x) : ∃ k, x.den = 2 ^ k := by
  obtain ⟨p, q, rfl⟩ := h
  have h1 : ((p / 2 ^ q : ℚ).den : ℤ) ∣ 2 ^ q := by
    have := Rat.den_dvd p (2 ^ q)
    push_cast at this
    rw [Rat.divInt_eq_div] at this
    push_cast at this
    exact this
  have h2 : (p / 2 ^ q : ℚ).den ∣ 2 ^ q := by exact_mod_cast h1
  obtain ⟨k, _, hk⟩ := (Nat.dvd_prime_pow Nat.prime_two).1 h2
  exact ⟨k, hk⟩

/-- C12: the mantissa and the exponent represent the number in lowest terms. -/
theorem C12_mantissa_exponent {x : ℚ} (h : IsDyadic x) :
    x = mantissa x / 2 ^ exponent x ∧ (exponent x = 0 ∨ Odd (mantissa x)) := by
  obtain ⟨k, hk⟩ := den_of_dyadic h
  have he : exponent x = k := by
    unfold exponent log2floor; rw [hk]; exact Nat.log_pow (by norm_num) k
  constructor
  · rw [he]
    conv_lhs => rw [← Rat.num_div_den x, hk]
    unfold mantissa; push_cast; rfl
  · rcases Nat.eq_zero_or_pos k with h0 | h0
    · left; omega
    · right
      have hc := x.reduced
      rw [hk] at hc
      have : Nat.Coprime x.num.natAbs 2 := Nat.Coprime.coprime_dvd_right (dvd_pow_self 2 (by omega)) hc
      have : Odd x.num.natAbs := by
        rw [← Nat.coprime_two_right]; exact this
      exact Int.natAbs_odd.1 this

/-- C12: the mantissa and the exponent of a number are the only such pair. -/
theorem C12_mantissa_exponent_unique (m : ℤ) (e : ℕ) (h : e = 0 ∨ Odd m) :
    mantissa (m / 2 ^ e) = m ∧ exponent (m / 2 ^ e) = e := by
  have hc : Nat.Coprime m.natAbs (2 ^ e) := by
    rcases h with h | h
    · rw [h]; simp
    · exact Nat.Coprime.pow_right _ (Nat.coprime_two_right.2 (Int.natAbs_odd.2 h))
  have h1 : (m / 2 ^ e : ℚ) = (m : ℚ) / ((2 ^ e : ℕ) : ℤ) := by push_cast; rfl
  have hn := Rat.num_div_eq_of_coprime (a := m) (b := ((2 ^ e : ℕ) : ℤ)) (by positivity) (by simpa using hc)
  have hd := Rat.den_div_eq_of_coprime (a := m) (b := ((2 ^ e : ℕ) : ℤ)) (by positivity) (by simpa using hc)
  constructor
  · unfold mantissa; rw [h1]; exact hn
  · unfold exponent log2floor
    rw [h1]
    have : ((m : ℚ) / ((2 ^ e : ℕ) : ℤ)).den = 2 ^ e := by exact_mod_cast hd
    rw [this]; exact Nat.log_pow (by norm_num) e

/-- C12: conversion to a decimal is exact. -/
theorem C12_toDecimal {x : ℚ} (h : IsDyadic x) :
    (Decimal.ofDyadic (mantissa x) (exponent x)).toRational = x := by
  rw [(C10_ofDyadic _ _).1, ← (C12_mantissa_exponent h).1]

theorem truncF_spec (y : ℚ) : |(truncF y : ℚ)| ≤ |y| ∧ |y| < |(truncF y : ℚ)| + 1 ∧
    (0 ≤ y → 0 ≤ truncF y) ∧ (y ≤ 0 → truncF y ≤ 0) := by
  unfold truncF
  by_cases h : 0 ≤ y
  · rw [if_pos h]
    have h0 := Int.floor_nonneg.2 h
    have h1 : (0 : ℚ) ≤ ⌊y⌋ := by exact_mod_cast h0
    rw [abs_of_nonneg h1, abs_of_nonneg h]
    refine ⟨Int.floor_le _, Int.lt_floor_add_one _, fun _ => h0, fun h2 => ?_⟩
    have : y = 0 := le_antisymm h2 h
    rw [this]; simp
  · rw [if_neg h]
    push Not at h
    have h0 : 0 ≤ ⌊-y⌋ := Int.floor_nonneg.2 (by linarith)
    have h1 : (0 : ℚ) ≤ ⌊-y⌋ := by exact_mod_cast h0
    push_cast
    rw [abs_neg, abs_of_nonneg h1, abs_of_neg h]
    exact ⟨Int.floor_le _, Int.lt_floor_add_one _, fun h2 => absurd h2 (by linarith), fun _ => by omega⟩

/-- Truncating `x+1/2` or `x-1/2` rounds to nearest with ties away from zero. -/
theorem nearest_of_trunc (x : ℚ) (n : ℤ)
    (h1 : 0 ≤ x → 0 ≤ n ∧ (n : ℚ) ≤ x + 1 / 2 ∧ x + 1 / 2 < n + 1)
    (h2 : x < 0 → n ≤ 0 ∧ x - 1 / 2 ≤ n ∧ (n : ℚ) - 1 < x - 1 / 2) : IsNearest n x := by
  rcases le_or_gt 0 x with h | h
  · obtain ⟨a, b, c⟩ := h1 h
    have a' : (0 : ℚ) ≤ n := by exact_mod_cast a
    refine ⟨abs_le.2 ⟨by linarith, by linarith⟩, fun e => ?_⟩
    rw [abs_of_nonneg h, abs_of_nonneg a']
    by_contra hlt; push Not at hlt
    rw [abs_of_neg (by linarith)] at e; linarith
  · obtain ⟨a, b, c⟩ := h2 h
    have a' : (n : ℚ) ≤ 0 := by exact_mod_cast a
    refine ⟨abs_le.2 ⟨by linarith, by linarith⟩, fun e => ?_⟩
    rw [abs_of_neg h, abs_of_nonpos a']
    by_contra hlt; push Not at hlt
    rw [abs_of_pos (by linarith)] at e; linarith

/-- C12: `round` returns the nearest integer, ties away from zero. -/
theorem C12_round (x : ℚ) : IsNearest (roundW x) x := by
  apply nearest_of_trunc
  · intro h
    have hr : roundW x = truncF (x + 1 / 2) := by
      unfold roundW; dsimp only
      rw [if_pos (by linarith)]; congr 1; ring
    have hy : 0 ≤ x + 1 / 2 := by linarith
    obtain ⟨a, b, c, _⟩ := truncF_spec (x + 1 / 2)
    have hn := c hy
    have hn' : (0 : ℚ) ≤ truncF (x + 1 / 2) := by exact_mod_cast hn
    rw [hr]; rw [abs_of_nonneg hn', abs_of_nonneg hy] at a b
    exact ⟨hn, a, b⟩
  · intro h
    have hr : roundW x = truncF (x - 1 / 2) := by
      unfold roundW; dsimp only
      rw [if_neg (by linarith)]; congr 1; ring
    have hy : x - 1 / 2 ≤ 0 := by linarith
    obtain ⟨a, b, _, c⟩ := truncF_spec (x - 1 / 2)
    have hn := c hy
    have hn' : (truncF (x - 1 / 2) : ℚ) ≤ 0 := by exact_mod_cast hn
    rw [hr]; rw [abs_of_nonpos hn', abs_of_nonpos hy] at a b
    exact ⟨hn, by linarith, by linarith⟩

/-! ### Text of integers -/

theorem natDigits_ne_nil (n : ℕ) : natDigits n ≠ [] := by
  intro h
  unfold natDigits at h
  split at h
  · simp at h
  · rename_i h0
    rw [List.reverse_eq_nil_iff, Nat.digits_eq_nil_iff_eq_zero] at h
    exact h0 h

theorem printInt_text (z : ℤ) : IsIntText (printInt z) z := by
  refine ⟨natDigits z.natAbs, natDigits_ne_nil _, fun d hd => natDigits_lt hd, ?_⟩
  unfold printInt
  rw [intPart_natDigits, printNat_eq]
  by_cases h : z < 0
  · right
    rw [if_pos h]
    refine ⟨rfl, ?_⟩
    have : -(z.natAbs : ℤ) = z := by omega
    exact_mod_cast this
  · left
    rw [if_neg h]
    refine ⟨rfl, ?_⟩
    have : (z.natAbs : ℤ) = z := by omega
    conv_rhs => rw [← this]
    rfl

theorem map_digit_injective {a b : List ℕ} (ha : ∀ d ∈ a, d < 10) (hb : ∀ d ∈ b, d < 10)
    (h : a.map digit = b.map digit) : a = b := by
  induction a generalizing b with
  | nil => cases b with
    | nil => rfl
    | cons y b => simp at h
  | cons x a ih => cases b with
    | nil => simp at h
    | cons y b =>
      simp only [List.map_cons, List.cons.injEq] at h
      have hx := ha x (by simp)
      have hy := hb y (by simp)
      have e : x = y := by
        have := congrArg Char.toNat h.1
        rw [digit_toNat hx, digit_toNat hy] at this
        omega
      rw [e, ih (fun d hd => ha d (by simp [hd])) (fun d hd => hb d (by simp [hd])) h.2]

/-- The text determines the integer. -/
theorem intText_unique {s : List Char} {m n : ℤ} (hm : IsIntText s m) (hn : IsIntText s n) : m = n := by
  obtain ⟨a, a0, ha, h1⟩ := hm
  obtain ⟨b, b0, hb, h2⟩ := hn
  have key : ∀ {c : List ℕ} {t : List Char}, (∀ d ∈ c, d < 10) → c ≠ [] → c.map digit ≠ '-' :: t := by
    intro c t hc c0 e
    cases c with
    | nil => exact c0 rfl
    | cons x c =>
      simp only [List.map_cons, List.cons.injEq] at e
      exact (digit_ne_minus (hc x (by simp))).1 e.1
  rcases h1 with ⟨e1, v1⟩ | ⟨e1, v1⟩ <;> rcases h2 with ⟨e2, v2⟩ | ⟨e2, v2⟩
  · have := map_digit_injective ha hb (e1.symm.trans e2)
    rw [this, v2] at v1; exact_mod_cast v1.symm
  · exact absurd (e1.symm.trans e2) (key ha a0)
  · exact absurd (e2.symm.trans e1) (key hb b0)
  · have e := e1.symm.trans e2
    rw [List.cons.injEq] at e
    have := map_digit_injective ha hb e.2
    rw [this, v2] at v1; exact_mod_cast v1.symm

theorem printInt_injective {m n : ℤ} (h : printInt m = printInt n) : m = n :=
  intText_unique (printInt_text m) (h ▸ printInt_text n)

/-! ### Decimal writer -/

theorem printInt_digit {d : ℕ} (h : d < 10) : printInt d = [digit d] := by
  unfold printInt
  rw [if_neg (by omega)]
  have : d = 0 ∨ d = 1 ∨ d = 2 ∨ d = 3 ∨ d = 4 ∨ d = 5 ∨ d = 6 ∨ d = 7 ∨ d = 8 ∨ d = 9 := by omega
  rcases this with h | h | h | h | h | h | h | h | h | h <;> subst h <;> decide +kernel

theorem fracLoop_spec (q : ℕ) : ∀ (m : ℤ) (fuel : ℕ), 0 ≤ (m / 2 ^ q : ℚ) → (m / 2 ^ q : ℚ) < 1 → q ≤ fuel →
    ∃ b : List ℕ, fracLoop (m / 2 ^ q) fuel = some (b.map digit) ∧ (∀ d ∈ b, d < 10) ∧
      fracPart b = m / 2 ^ q ∧ b.length ≤ q := by
  induction q with
  | zero =>
    intro m fuel h0 h1 _
    have e : m = 0 := by
      simp only [pow_zero, div_one] at h0 h1
      have h0' : 0 ≤ m := by exact_mod_cast h0
      have h1' : m < 1 := by exact_mod_cast h1
      omega
    refine ⟨[], ?_, by simp, by simp [fracPart, e], by simp⟩
    rw [e]; cases fuel <;> simp [fracLoop]
  | succ q ih =>
    intro m fuel h0 h1 hf
    obtain ⟨fuel, rfl⟩ : ∃ k, fuel = k + 1 := ⟨fuel - 1, by omega⟩
    by_cases hz : (m / 2 ^ (q + 1) : ℚ) = 0
    · exact ⟨[], by simp [fracLoop, hz], by simp, by simp [fracPart, hz], by simp⟩
    · set w : ℚ := m / 2 ^ (q + 1) with hw
      have hfl0 : 0 ≤ ⌊w * 10⌋ := Int.floor_nonneg.2 (by linarith)
      have hfl1 : ⌊w * 10⌋ < 10 := Int.floor_lt.2 (by push_cast; linarith)
      obtain ⟨d, hd⟩ : ∃ d : ℕ, ⌊w * 10⌋ = d := ⟨⌊w * 10⌋.toNat, by omega⟩
      have hd10 : d < 10 := by omega
      have hnext : w * 10 - ⌊w * 10⌋ = ((5 * m - 2 ^ q * d : ℤ) : ℚ) / 2 ^ q := by
        rw [hd, hw, pow_succ]; push_cast
        have := two_ne q
        field_simp; ring
      have hn0 : 0 ≤ w * 10 - ⌊w * 10⌋ := by have := Int.floor_le (w * 10); linarith
      have hn1 : w * 10 - ⌊w * 10⌋ < 1 := by have := Int.lt_floor_add_one (w * 10); linarith
      rw [hnext] at hn0 hn1
      obtain ⟨b, hb, hlt, hv, hl⟩ := ih _ fuel hn0 hn1 (by omega)
      refine ⟨d :: b, ?_, ?_, ?_, by simp; omega⟩
      · rw [fracLoop, if_neg hz, hnext, hb, hd, printInt_digit hd10]; rfl
      · intro x hx
        rcases List.mem_cons.1 hx with h | h
        · omega
        · exact hlt x h
      · rw [fracPart, hv, ← hnext, hd]; push_cast; ring

/-- C12: the decimal writer terminates, and prints exactly the number. -/
theorem C12_decimal_writer {x : ℚ} (h : IsDyadic x) :
    ∃ N, ∀ fuel ≥ N, ∃ s a b, decimalWriter fuel x = some s ∧
      IsLiteral s (decide (x < 0)) a b ∧ litValue (decide (x < 0)) a b = x := by
  obtain ⟨p, q, hx⟩ := h
  refine ⟨q, fun fuel hf => ?_⟩
  set w : ℚ := if x < 0 then -x else x with hw
  have hw0 : 0 ≤ w := by
    rw [hw]; split_ifs with h
    · linarith
    · exact not_lt.1 h
  obtain ⟨p', hp'⟩ : ∃ p' : ℤ, w = p' / 2 ^ q := by
    rw [hw]; split_ifs
    · exact ⟨-p, by rw [hx]; push_cast; ring⟩
    · exact ⟨p, hx⟩
  have hfl : w - ⌊w⌋ = ((p' - 2 ^ q * ⌊w⌋ : ℤ) : ℚ) / 2 ^ q := by
    push_cast
    have h1 := hp'
    have := two_ne q
    rw [sub_div, ← h1]; field_simp
  have h0 : 0 ≤ w - ⌊w⌋ := by have := Int.floor_le w; linarith
  have h1 : w - ⌊w⌋ < 1 := by have := Int.lt_floor_add_one w; linarith
  rw [hfl] at h0 h1
  obtain ⟨b, hb, hlt, hv, _⟩ := fracLoop_spec q _ fuel h0 h1 hf
  rw [← hfl] at hb hv
  have hfn : 0 ≤ ⌊w⌋ := Int.floor_nonneg.2 hw0
  have hpr : printInt ⌊w⌋ = (natDigits ⌊w⌋.natAbs).map digit := by
    unfold printInt; rw [if_neg (by omega), printNat_eq]; rfl
  refine ⟨_, natDigits ⌊w⌋.natAbs, b, ?_, ⟨fun d hd => natDigits_lt hd, hlt, if x < 0 then ['-'] else [], ['.'], rfl, ?_, by simp⟩, ?_⟩
  · simp only [decimalWriter, ← hw, hb, Option.map_some, hpr]
  · by_cases h : x < 0 <;> simp [h]
  · unfold litValue
    rw [intPart_natDigits, hv]
    have : ((⌊w⌋.natAbs : ℕ) : ℚ) = ⌊w⌋ := by
      have : ((⌊w⌋.natAbs : ℕ) : ℤ) = ⌊w⌋ := by omega
      conv_rhs => rw [← this]
      rfl
    rw [this]
    by_cases h : x < 0
    · simp only [h, decide_true, if_true] at hw ⊢; rw [hw]; ring
    · simp only [h, decide_false, Bool.false_eq_true, if_false] at hw ⊢; rw [hw]; ring

/-- C12: the printed text, read as a decimal, gives the number back. -/
theorem C12_decimal_roundtrip {x : ℚ} (h : IsDyadic x) :
    ∃ N, ∀ fuel ≥ N, ∃ s d, decimalWriter fuel x = some s ∧ parse s = .ok d ∧ d.toRational = x := by
  obtain ⟨N, hN⟩ := C12_decimal_writer h
  refine ⟨N, fun fuel hf => ?_⟩
  obtain ⟨s, a, b, e, hl, hv⟩ := hN fuel hf
  obtain ⟨d, hd, hv', _⟩ := C11_parse hl
  exact ⟨s, d, e, hd, hv'.trans hv⟩

/-! ### Scientific writer -/

theorem halveLoop_spec (fuel : ℕ) : ∀ (w : ℚ) (e : ℤ), 0 < w → w < 2 ^ (fuel + 1) →
    ∃ w' e', halveLoop w e fuel = some (w', e') ∧ 0 < w' ∧ w' < 2 ∧ w' * 2 ^ e' = w * 2 ^ e ∧ (1 ≤ w → 1 ≤ w')
      ∧ (w < 1 → w' = w) := by
  induction fuel with
  | zero =>
    intro w e h0 h1
    refine ⟨w, e, ?_, h0, by simpa using h1, rfl, id, fun _ => rfl⟩
    rw [halveLoop, if_neg (by simpa using h1)]
  | succ fuel ih =>
    intro w e h0 h1
    by_cases h2 : w ≥ 2
    · obtain ⟨w', e', a, b, c, d, f, g⟩ := ih (w / 2) (e + 1) (by linarith) (by rw [pow_succ] at h1; linarith)
      refine ⟨w', e', by rw [halveLoop, if_pos h2, a], b, c, ?_, fun _ => f (by linarith), fun h => by linarith⟩
      rw [d, zpow_add₀ (by norm_num)]; simp; ring
    · exact ⟨w, e, by rw [halveLoop, if_neg h2], h0, not_le.1 h2, rfl, id, fun _ => rfl⟩

theorem doubleLoop_spec (fuel : ℕ) : ∀ (w : ℚ) (e : ℤ), 1 ≤ w * 2 ^ fuel → w < 2 →
    ∃ w' e', doubleLoop w e fuel = some (w', e') ∧ 1 ≤ w' ∧ w' < 2 ∧ w' * 2 ^ e' = w * 2 ^ e := by
  induction fuel with
  | zero =>
    intro w e h1 h2
    have h1' : 1 ≤ w := by simpa using h1
    exact ⟨w, e, by rw [doubleLoop, if_neg (not_lt.2 h1')], h1', h2, rfl⟩
  | succ fuel ih =>
    intro w e h1 h2
    by_cases h : w < 1
    · obtain ⟨w', e', a, b, c, d⟩ := ih (w * 2) (e - 1) (by rw [pow_succ] at h1; linarith) (by linarith)
      refine ⟨w', e', by rw [doubleLoop, if_pos h, a], b, c, ?_⟩
      rw [d, zpow_sub₀ (by norm_num)]; simp; ring
    · exact ⟨w, e, by rw [doubleLoop, if_neg h], not_lt.1 h, h2, rfl⟩

theorem dyadic_mul_zpow {x : ℚ} (h : IsDyadic x) (e : ℤ) : IsDyadic (x * 2 ^ e) := by
  obtain ⟨p, q, rfl⟩ := h
  rcases le_total 0 e with he | he
  · obtain ⟨n, rfl⟩ := Int.eq_ofNat_of_zero_le he
    exact ⟨p * 2 ^ n, q, by push_cast; simp only [zpow_natCast]; ring⟩
  · obtain ⟨n, hn⟩ := Int.eq_ofNat_of_zero_le (show 0 ≤ -e by omega)
    obtain rfl : e = -(n : ℤ) := by omega
    refine ⟨p, q + n, ?_⟩
    rw [zpow_neg, zpow_natCast, pow_add, ← div_eq_mul_inv, div_div]

/-- C12, without zero: the scientific writer terminates on every nonzero number; it prints
the sign, a significand in `[1,2)` and an exponent whose product is the number. -/
theorem C12_scientific_partial {x : ℚ} (h : IsDyadic x) (hx : x ≠ 0) :
    ∃ N, ∀ fuel ≥ N, ∃ w e s t a b,
      scientificWriter fuel x = some ((if x < 0 then ['-'] else []) ++ s ++ ['*', '2', '^'] ++ t) ∧
      IsLiteral s false a b ∧ litValue false a b = w ∧ IsIntText t e ∧ 1 ≤ w ∧ w < 2 ∧
      x = (if x < 0 then -1 else 1) * w * 2 ^ e := by
  set y : ℚ := if x < 0 then -x else x with hy
  have hy0 : 0 < y := by
    rw [hy]; split_ifs with h'
    · linarith
    · exact lt_of_le_of_ne (not_lt.1 h') (Ne.symm hx)
  have hyd : IsDyadic y := by
    rw [hy]; split_ifs
    · obtain ⟨p, q, e⟩ := h; exact ⟨-p, q, by rw [e]; push_cast; ring⟩
    · exact h
  obtain ⟨N1, hN1⟩ := pow_unbounded_of_one_lt y (show (1 : ℚ) < 2 by norm_num)
  obtain ⟨N2, hN2⟩ := pow_unbounded_of_one_lt y⁻¹ (show (1 : ℚ) < 2 by norm_num)
  -- the significand does not depend on the amount of fuel: 1 ≤ w < 2 fixes it
  have hparts : ∀ fuel ≥ max N1 N2, ∃ w e, scientificParts fuel x = some (w, e) ∧ 1 ≤ w ∧ w < 2 ∧ w * 2 ^ e = y := by
    intro fuel hf
    have h1 : y < 2 ^ (fuel + 1) := hN1.trans_le (pow_le_pow_right₀ (by norm_num) (by omega))
    have h2 : y⁻¹ < 2 ^ fuel := hN2.trans_le (pow_le_pow_right₀ (by norm_num) (by omega))
    obtain ⟨w1, e1, p1, p2, p3, p4, p5, p6⟩ := halveLoop_spec fuel y 0 hy0 h1
    have h3 : 1 ≤ w1 * 2 ^ fuel := by
      rcases le_or_gt 1 y with hle | hlt
      · have := p5 hle
        have h4 : (1 : ℚ) ≤ 2 ^ fuel := one_le_pow₀ (by norm_num)
        nlinarith
      · rw [p6 hlt]
        have := mul_lt_mul_of_pos_left h2 hy0
        rw [mul_inv_cancel₀ hy0.ne'] at this
        exact this.le
    obtain ⟨w2, e2, q1, q2, q3, q4⟩ := doubleLoop_spec fuel w1 e1 h3 p3
    refine ⟨w2, e2, ?_, q2, q3, by rw [q4, p4]; simp⟩
    simp only [scientificParts, ← hy, p1, q1]
  obtain ⟨w, e, _, hw1, hw2, hwe⟩ := hparts (max N1 N2) le_rfl
  have huniq : ∀ w' (e' : ℤ), 1 ≤ w' → w' < 2 → w' * 2 ^ e' = y → w' = w ∧ e' = e := by
    intro w' e' h1 h2 h3
    have hee : e' = e := by
      have hp : (0 : ℚ) < 2 ^ e := zpow_pos (by norm_num) _
      have hp' : (0 : ℚ) < 2 ^ e' := zpow_pos (by norm_num) _
      by_contra hne
      rcases lt_or_gt_of_ne hne with hlt | hgt
      · have : (2 : ℚ) ^ (e' + 1) ≤ 2 ^ e := zpow_le_zpow_right₀ (by norm_num) (by omega)
        rw [zpow_add₀ (by norm_num), zpow_one] at this
        nlinarith
      · have : (2 : ℚ) ^ (e + 1) ≤ 2 ^ e' := zpow_le_zpow_right₀ (by norm_num) (by omega)
        rw [zpow_add₀ (by norm_num), zpow_one] at this
        nlinarith
    refine ⟨?_, hee⟩
    rw [hee, ← hwe] at h3
    exact mul_right_cancel₀ (zpow_ne_zero _ (by norm_num)) h3
  have hwd : IsDyadic w := by
    have := dyadic_mul_zpow hyd (-e)
    rw [← hwe, mul_assoc, ← zpow_add₀ (by norm_num)] at this
    simpa using this
  obtain ⟨N3, hN3⟩ := C12_decimal_writer hwd
  refine ⟨max (max N1 N2) N3, fun fuel hf => ?_⟩
  obtain ⟨w', e', hp, h1, h2, h3⟩ := hparts fuel (le_trans (le_max_left _ _) hf)
  obtain ⟨rfl, rfl⟩ := huniq w' e' h1 h2 h3
  obtain ⟨s, a, b, hs, hl, hv⟩ := hN3 fuel (le_trans (le_max_right _ _) hf)
  have hnn : decide (w' < 0) = false := by simp; linarith
  rw [hnn] at hl hv
  refine ⟨w', e', s, printInt e', a, b, ?_, hl, hv, printInt_text e', h1, h2, ?_⟩
  · simp only [scientificWriter, hp, hs, Option.map_some]
  · rw [mul_assoc, h3, hy]; split_ifs <;> ring

theorem doubleLoop_zero (fuel : ℕ) : ∀ e, doubleLoop 0 e fuel = none := by
  induction fuel with
  | zero => intro e; simp [doubleLoop]
  | succ fuel ih => intro e; rw [doubleLoop, if_pos (by norm_num), zero_mul, ih]

/-- C12 fails: the scientific writer never terminates on zero. -/
theorem C12_scientific_zero_diverges (fuel : ℕ) : scientificWriter fuel 0 = none := by
  have h : halveLoop 0 0 fuel = some (0, 0) := by
    cases fuel <;> simp [halveLoop]
  simp [scientificWriter, scientificParts, h, doubleLoop_zero]

/-! ### Fraction writer -/

theorem printInt_no_slash (z : ℤ) : '/' ∉ printInt z := by
  obtain ⟨a, _, ha, h⟩ := printInt_text z
  have key : '/' ∉ a.map digit := by
    intro hm
    obtain ⟨d, hd, e⟩ := List.mem_map.1 hm
    have := congrArg Char.toNat e
    rw [digit_toNat (ha d hd)] at this
    have h47 : '/'.toNat = 47 := rfl
    omega
  rcases h with ⟨e, _⟩ | ⟨e, _⟩
  · rw [e]; exact key
  · rw [e]; simpa using key

theorem append_slash_cancel {a b c d : List Char} (ha : '/' ∉ a) (hb : '/' ∉ b)
    (hc : c = [] ∨ ∃ t, c = '/' :: t) (hd : d = [] ∨ ∃ t, d = '/' :: t) (h : a ++ c = b ++ d) : a = b ∧ c = d := by
  induction a generalizing b with
  | nil =>
    cases b with
    | nil => exact ⟨rfl, h⟩
    | cons y b =>
      rcases hc with hc | ⟨t, hc⟩
      · simp [hc] at h
      · rw [hc] at h
        simp only [List.nil_append, List.cons_append, List.cons.injEq] at h
        exact absurd h.1 (fun e => hb (by rw [e]; simp))
  | cons x a ih =>
    cases b with
    | nil =>
      rcases hd with hd | ⟨t, hd⟩
      · simp [hd] at h
      · rw [hd] at h
        simp only [List.nil_append, List.cons_append, List.cons.injEq] at h
        exact absurd h.1 (fun e => ha (by rw [e]; simp))
    | cons y b =>
      simp only [List.cons_append, List.cons.injEq] at h
      have := ih (fun hm => ha (by simp [hm])) (fun hm => hb (by simp [hm])) h.2
      exact ⟨by rw [h.1, this.1], this.2⟩

theorem printNat_injective {m n : ℕ} (h : printNat m = printNat n) : m = n := by
  have : printInt m = printInt n := by
    unfold printInt; rw [if_neg (by omega), if_neg (by omega)]; simpa using h
  exact_mod_cast printInt_injective this

/-- C12: the fraction writer prints a numerator and a power of two whose quotient is the
number, `p`, `p/2` or `p/2^e`. -/
theorem C12_fraction_writer {x : ℚ} (h : IsDyadic x) :
    ∃ s p, IsIntText s p ∧
      (fractionWriter x = s ∧ x = p ∨
       fractionWriter x = s ++ ['/', '2'] ∧ x = p / 2 ∨
       ∃ t e, IsIntText t (e : ℕ) ∧ fractionWriter x = s ++ ['/', '2', '^'] ++ t ∧ x = p / 2 ^ e) := by
  have hv := (C12_mantissa_exponent h).1
  refine ⟨printInt (mantissa x), mantissa x, printInt_text _, ?_⟩
  unfold fractionWriter
  by_cases h0 : exponent x = 0
  · left; simp only [h0] at hv ⊢; simpa using hv
  · by_cases h1 : exponent x = 1
    · right; left; simp only [h1] at hv ⊢; simpa using hv
    · right; right
      refine ⟨printInt (exponent x : ℕ), exponent x, printInt_text _, ?_, hv⟩
      simp [h0, h1, printInt]

/-- C12: different numbers have different fraction texts. -/
theorem C12_fraction_injective {x y : ℚ} (hx : IsDyadic x) (hy : IsDyadic y)
    (h : fractionWriter x = fractionWriter y) : x = y := by
  unfold fractionWriter at h
  have shape : ∀ e : ℕ, (if e ≠ 0 then (if e = 1 then ['/', '2'] else ['/', '2', '^'] ++ printNat e) else []) = [] ∨
      ∃ t, (if e ≠ 0 then (if e = 1 then ['/', '2'] else ['/', '2', '^'] ++ printNat e) else []) = '/' :: t := by
    intro e
    by_cases h0 : e = 0
    · simp [h0]
    · right; by_cases h1 : e = 1 <;> simp [h0, h1]
  obtain ⟨hm, he⟩ := append_slash_cancel (printInt_no_slash _) (printInt_no_slash _) (shape _) (shape _) h
  have hm' := printInt_injective hm
  have he' : exponent x = exponent y := by
    by_cases a0 : exponent x = 0 <;> by_cases b0 : exponent y = 0
    · omega
    · by_cases b1 : exponent y = 1 <;> simp [a0, b0, b1] at he
    · by_cases a1 : exponent x = 1 <;> simp [a0, b0, a1] at he
    · by_cases a1 : exponent x = 1 <;> by_cases b1 : exponent y = 1
      · omega
      · simp [a1, b0, b1] at he
      · simp [a0, a1, b1] at he
      · simp [a0, a1, b0, b1] at he
        exact printNat_injective he
  rw [(C12_mantissa_exponent hx).1, (C12_mantissa_exponent hy).1, hm', he']

/-- C12: construction from text accepts only text whose decimal value is the number
constructed, whatever the underlying conversion returns. -/
theorem C12_ofString {setStr : List Char → Option ℚ} (hs : ∀ s t, setStr s = some t → IsDyadic t)
    {str : List Char} {x : ℚ} (h : dyadicOfString setStr str = some x) :
    ∃ neg a b, IsLiteral str neg a b ∧ litValue neg a b = x := by
  unfold dyadicOfString at h
  cases e1 : setStr str with
  | none => simp [e1] at h
  | some t =>
    cases e2 : parse str with
    | error _ => simp [e1, e2] at h
    | ok d =>
      simp only [e1, e2] at h
      split_ifs at h with hc
      simp only [Option.some.injEq] at h
      subst h
      obtain ⟨n, a, b, hl⟩ := C11_reject e2
      obtain ⟨d', e3, hv, _⟩ := C11_parse hl
      rw [e2] at e3; cases e3
      refine ⟨n, a, b, hl, ?_⟩
      have hne : ¬ (Decimal.ofDyadic (mantissa t) (exponent t)).toRational ≠ d.toRational := by
        intro hne
        apply hc
        exact ((C10_compare_partial _ _).2.2.2.2.2.2.1).2 hne
      rw [← hv, ← not_ne_iff.1 hne, C12_toDecimal (hs _ _ e1)]

/-- C12 fails: construction from GMP's `mpf_t` returns zero whatever the argument. -/
theorem C12_ofMpf_counterexample : ofMpf 1 ≠ 1 := by decide

example : IsDyadic (-5 / 8) := ⟨-5, 3, by norm_num⟩
example : decimalWriter 3 (-5 / 8) = some "-0.625".toList := by decide +kernel
example : scientificWriter 5 (-5 / 8) = some "-1.25*2^-1".toList := by decide +kernel
example : fractionWriter (-5 / 8) = "-5/2^3".toList := by decide +kernel
example : roundW (-5 / 2) = -3 := by decide +kernel

end Ariadne.Exact
