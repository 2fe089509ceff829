import Verif.Exact.Dyadic
import Mathlib.Data.Int.ModEq
import Mathlib.Tactic.NormNum

/-!
# C49: integers and rationals — conversion, division, rounding, powers and text
-/

namespace Ariadne.Exact
open ExactSpec DecimalSpec Decimal

theorem ofNat64_small : ∀ n : ℕ, n < 2 ^ 32 * (2 ^ 31 - 1) → ofNat64 n = n := by
  intro n
  induction n using Nat.strong_induction_on with
  | _ n ih =>
    intro hn
    rw [ofNat64]
    have hq : n / (2 ^ 31 - 1) < 2 ^ 32 := Nat.div_lt_of_lt_mul (by rw [mul_comm]; exact hn)
    have hdm := Nat.div_add_mod n (2 ^ 31 - 1)
    by_cases h : n / (2 ^ 31 - 1) = 0
    · rw [dif_pos h]; rw [h] at hdm
      have : n % (2 ^ 31 - 1) = n := by omega
      rw [this]
    · rw [dif_neg h, Nat.mod_eq_of_lt hq]
      have h0 : 0 < n := by
        by_contra h0
        apply h
        have : n = 0 := by omega
        rw [this]; rfl
      have hlt := Nat.div_lt_self h0 (show 1 < 2 ^ 31 - 1 by norm_num)
      rw [ih _ hlt (by omega)]
      have : ((2 ^ 31 - 1 : ℕ) : ℤ) * ((n / (2 ^ 31 - 1) : ℕ) : ℤ) + ((n % (2 ^ 31 - 1) : ℕ) : ℤ) = n := by
        exact_mod_cast hdm
      linarith

/-- C49: conversion of an unsigned 64-bit number is exact precisely below
`2^32 (2^31-1)`; above, the quotient is truncated and the result is wrong. -/
theorem C49_ofNat64_partial (n : ℕ) (hn : n < 2 ^ 64) : ofNat64 n = n ↔ n < 2 ^ 32 * (2 ^ 31 - 1) := by
  refine ⟨fun h => ?_, ofNat64_small n⟩
  by_contra hge
  push Not at hge
  have hq : 2 ^ 32 ≤ n / (2 ^ 31 - 1) := (Nat.le_div_iff_mul_le (by norm_num)).2 hge
  have hdm := Nat.div_add_mod n (2 ^ 31 - 1)
  have hmod : n / (2 ^ 31 - 1) % 2 ^ 32 < 2 ^ 32 := Nat.mod_lt _ (by norm_num)
  have hs := ofNat64_small (n / (2 ^ 31 - 1) % 2 ^ 32) (by omega)
  rw [ofNat64] at h
  rw [dif_neg (by omega), hs] at h
  have : ((n % (2 ^ 31 - 1) + n / (2 ^ 31 - 1) % 2 ^ 32 * (2 ^ 31 - 1) : ℕ) : ℤ) = n := by
    rw [← h]; push_cast; rfl
  have : n % (2 ^ 31 - 1) + n / (2 ^ 31 - 1) % 2 ^ 32 * (2 ^ 31 - 1) = n := by exact_mod_cast this
  omega

/-- C49 fails: the largest 64-bit number is converted to another number. -/
theorem C49_ofNat64_counterexample : ofNat64 (2 ^ 64 - 1) ≠ ((2 ^ 64 - 1 : ℕ) : ℤ) := by
  rw [ne_eq, C49_ofNat64_partial _ (by norm_num)]; norm_num

/-- C49: conversion of a signed 64-bit number is exact up to the same limit. -/
theorem C49_ofInt64_partial (n : ℤ) (h1 : -(2 ^ 63) ≤ n) (h2 : n < 2 ^ 63) :
    ofInt64 n = some n ↔ |n| < 2 ^ 32 * (2 ^ 31 - 1) := by
  unfold ofInt64
  by_cases h : n < 0
  · rw [if_pos h, abs_of_neg h]
    by_cases hm : n = -2 ^ 63
    · rw [if_pos hm, hm]; constructor
      · intro h; cases h
      · intro h; norm_num at h
    · rw [if_neg hm, Option.some_inj]
      have := C49_ofNat64_partial (-n).toNat (by omega)
      have e : (((-n).toNat : ℕ) : ℤ) = -n := by omega
      constructor
      · intro h3
        have := this.1 (by omega)
        omega
      · intro h3
        have := this.2 (by omega)
        omega
  · rw [if_neg h, abs_of_nonneg (by omega), Option.some_inj]
    have := C49_ofNat64_partial n.toNat (by omega)
    have e : ((n.toNat : ℕ) : ℤ) = n := by omega
    constructor
    · intro h3
      have := this.1 (by omega)
      omega
    · intro h3
      have := this.2 (by omega)
      omega

/-- C49: the constructor from `Int32` is exact precisely on nonnegative numbers. -/
theorem C49_ofInt32_partial (n : ℤ) (h1 : -(2 ^ 31) ≤ n) (h2 : n < 2 ^ 31) : ofInt32 n = n ↔ 0 ≤ n := by
  unfold ofInt32; omega

/-- C49: `make_integer` and `make_dyadic` are exact for every argument. -/
theorem C49_makeInteger (n : ℕ) : makeInteger n = n := by
  induction n using Nat.strong_induction_on with
  | _ n ih =>
    rw [makeInteger]
    have hdm := Nat.div_add_mod n (2 ^ 31 - 1)
    by_cases h : n / (2 ^ 31 - 1) = 0
    · rw [dif_pos h]; rw [h] at hdm
      have : n % (2 ^ 31 - 1) = n := by omega
      rw [this]
    · rw [dif_neg h]
      have h0 : 0 < n := by
        by_contra h0
        apply h
        have : n = 0 := by omega
        rw [this]; rfl
      rw [ih _ (Nat.div_lt_self h0 (by norm_num))]
      have : ((2 ^ 31 - 1 : ℕ) : ℤ) * ((n / (2 ^ 31 - 1) : ℕ) : ℤ) + ((n % (2 ^ 31 - 1) : ℕ) : ℤ) = n := by
        exact_mod_cast hdm
      linarith

/-- C49: `quot` is the quotient rounded down, `rem` the remainder of the quotient
rounded up. -/
theorem C49_quot_rem_partial (a b : ℤ) (hb : b ≠ 0) :
    quot a b = ⌊(a : ℚ) / b⌋ ∧ rem a b = a - b * ⌈(a : ℚ) / b⌉ := by
  have hpos : ∀ c b : ℤ, 0 < b → c.fdiv b = ⌊(c : ℚ) / b⌋ := by
    intro c b hp
    symm
    rw [Int.floor_eq_iff]
    have e := Int.mul_fdiv_add_fmod c b
    have eq : (c : ℚ) = b * c.fdiv b + c.fmod b := by exact_mod_cast e.symm
    have hbq : (b : ℚ) ≠ 0 := by exact_mod_cast hp.ne'
    have hdiv : (c : ℚ) / b = c.fdiv b + c.fmod b / b := by
      conv_lhs => rw [eq]
      field_simp
    have m1 := Int.fmod_nonneg_of_pos c hp
    have m2 := Int.fmod_lt_of_pos c hp
    have hp' : (0 : ℚ) < b := by exact_mod_cast hp
    have m1' : (0 : ℚ) ≤ c.fmod b := by exact_mod_cast m1
    have m2' : (c.fmod b : ℚ) < b := by exact_mod_cast m2
    have := div_nonneg m1' hp'.le
    have := (div_lt_one hp').2 m2'
    constructor <;> linarith
  have h1 : ∀ c : ℤ, c.fdiv b = ⌊(c : ℚ) / b⌋ := by
    intro c
    rcases lt_or_gt_of_ne hb with hn | hp
    · rw [← Int.neg_fdiv_neg, hpos (-c) (-b) (by omega)]
      push_cast; rw [neg_div_neg_eq]
    · exact hpos c b hp
  refine ⟨h1 a, ?_⟩
  unfold rem
  rw [h1 (-a)]
  have : ((-a : ℤ) : ℚ) / b = -((a : ℚ) / b) := by push_cast; ring
  rw [this, Int.floor_neg]; ring

/-- C49 fails: quotient and remainder fit together only if the division is exact. -/
theorem C49_quot_rem_mismatch (a b : ℤ) (hb : b ≠ 0) : quot a b * b + rem a b = a ↔ b ∣ a := by
  obtain ⟨h1, h2⟩ := C49_quot_rem_partial a b hb
  have hbq : (b : ℚ) ≠ 0 := by exact_mod_cast hb
  rw [h1, h2]
  constructor
  · intro h
    have h3 : b * (⌊(a : ℚ) / b⌋ - ⌈(a : ℚ) / b⌉) = 0 := by linarith
    have h4 : ⌊(a : ℚ) / b⌋ = ⌈(a : ℚ) / b⌉ := by
      rcases mul_eq_zero.1 h3 with h | h
      · exact absurd h hb
      · omega
    have h5 : (a : ℚ) / b = ⌊(a : ℚ) / b⌋ := by
      apply le_antisymm
      · rw [h4]; exact Int.le_ceil _
      · exact Int.floor_le _
    refine ⟨⌊(a : ℚ) / b⌋, ?_⟩
    rw [div_eq_iff hbq, mul_comm] at h5
    exact_mod_cast h5
  · rintro ⟨c, rfl⟩
    have : ((b * c : ℤ) : ℚ) / b = c := by push_cast; field_simp
    rw [this]; simp; ring

theorem C49_quot_rem_counterexample : quot 7 2 * 2 + rem 7 2 ≠ 7 := by decide

/-! ### Rounding of rationals -/

/-- C49: `floor` and `ceil` of a rational. -/
theorem C49_floor_ceil (x : ℚ) : floorQ x = ⌊x⌋ ∧ ceilQ x = ⌈x⌉ := by
  have hd : ((x.den : ℤ)) ≠ 0 := by exact_mod_cast x.den_nz
  have e : ((x.num : ℤ) : ℚ) / ((x.den : ℤ) : ℚ) = x := by
    have := Rat.num_div_den x; push_cast; exact this
  constructor
  · have := (C49_quot_rem_partial x.num x.den hd).1
    unfold quot at this
    unfold floorQ; rw [this, e]
  · have := (C49_quot_rem_partial (-x.num) x.den hd).1
    unfold quot at this
    unfold ceilQ; rw [this]
    have e' : ((-x.num : ℤ) : ℚ) / ((x.den : ℤ) : ℚ) = -x := by
      rw [Int.cast_neg, neg_div, e]
    rw [e', Int.floor_neg]; ring

theorem tdiv_eq (a : ℤ) (b : ℕ) (hb : 0 < b) : tdiv a b = truncF ((a : ℚ) / b) := by
  have hb' : ((b : ℤ)) ≠ 0 := by omega
  have hbq : (0 : ℚ) < b := by exact_mod_cast hb
  unfold tdiv truncF
  by_cases h : 0 ≤ a
  · have : (0 : ℚ) ≤ (a : ℚ) / b := div_nonneg (by exact_mod_cast h) hbq.le
    rw [if_pos this, Int.tdiv_eq_ediv_of_nonneg h]
    have := (C49_quot_rem_partial a b hb').1
    unfold quot at this
    rw [← Int.fdiv_eq_ediv_of_nonneg a (by omega : (0 : ℤ) ≤ b), this]; push_cast; rfl
  · push Not at h
    have ha : ((a : ℚ)) < 0 := by exact_mod_cast h
    have : (a : ℚ) / b < 0 := div_neg_of_neg_of_pos ha hbq
    rw [if_neg (not_le.2 this)]
    have h2 := (C49_quot_rem_partial (-a) b hb').1
    unfold quot at h2
    rw [Int.fdiv_eq_ediv_of_nonneg _ (by omega : (0 : ℤ) ≤ b), ← Int.tdiv_eq_ediv_of_nonneg (by omega), Int.neg_tdiv] at h2
    have e : ((-a : ℤ) : ℚ) / ((b : ℤ) : ℚ) = -((a : ℚ) / b) := by push_cast; ring
    rw [e] at h2
    omega

/-- C49: `round` of a rational returns the nearest integer, ties away from zero. -/
theorem C49_round (x : ℚ) : IsNearest (roundQ x) x := by
  have hd : (0 : ℚ) < x.den := by exact_mod_cast x.den_pos
  have e : (x.num : ℚ) / x.den = x := Rat.num_div_den x
  have hsgn : 2 * x.num ≥ 0 ↔ 0 ≤ x := by
    rw [← Rat.num_nonneg]; omega
  have key : roundQ x = roundW x := by
    unfold roundQ roundW
    dsimp only
    have hc : (((2 * x.den : ℕ)) : ℤ) = 2 * (x.den : ℤ) := by push_cast; rfl
    by_cases h : 0 ≤ x
    · rw [if_pos (hsgn.2 h), if_pos (by linarith), ← hc, tdiv_eq _ _ (by have := x.den_pos; omega)]
      congr 1
      push_cast
      conv_rhs => rw [← e]
      field_simp
    · rw [if_neg (fun h' => h (hsgn.1 h')), if_neg (by linarith), ← hc, tdiv_eq _ _ (by have := x.den_pos; omega)]
      congr 1
      push_cast
      conv_rhs => rw [← e]
      field_simp
  rw [key]; exact C12_round x

/-! ### Powers -/

theorem powLoop_eq (m : ℕ) : ∀ r p : ℚ, powLoop r p m = r * p ^ m := by
  induction m using Nat.strong_induction_on with
  | _ m ih =>
    intro r p
    rw [powLoop]
    by_cases h : m = 0
    · rw [dif_pos h, h]; simp
    · rw [dif_neg h, ih _ (by omega)]
      have hm := Nat.div_add_mod m 2
      have hp : p ^ m = (p * p) ^ (m / 2) * p ^ (m % 2) := by
        rw [← pow_two, ← pow_mul, ← pow_add, hm]
      rw [hp]
      rcases Nat.mod_two_eq_zero_or_one m with h2 | h2
      · rw [h2, if_neg (by norm_num)]; ring
      · rw [h2, if_pos rfl]; ring

/-- C49: powers by repeated squaring are exact; negative powers are reciprocals, and of zero undefined. -/
theorem C49_pow (q : ℚ) (m : ℕ) (n : ℤ) :
    powQ q m = q ^ m ∧ (powQInt q n = none ↔ q = 0 ∧ n < 0) ∧ (∀ r, powQInt q n = some r → r = q ^ n) := by
  have h : ∀ m, powQ q m = q ^ m := fun m => by unfold powQ; rw [powLoop_eq, one_mul]
  refine ⟨h m, ?_, ?_⟩
  · unfold powQInt
    by_cases hn : n < 0
    · rw [if_pos hn, h]
      by_cases hq : q = 0
      · rw [hq, zero_pow (by omega)]; simp [hn]
      · simp [hq, pow_ne_zero]
    · simp [hn]
  · intro r hr
    unfold powQInt at hr
    by_cases hn : n < 0
    · rw [if_pos hn] at hr
      split_ifs at hr
      rw [h, Option.some_inj] at hr
      rw [← hr, ← zpow_natCast, ← zpow_neg]
      congr 1; omega
    · rw [if_neg hn, h, Option.some_inj] at hr
      rw [← hr, ← zpow_natCast]
      congr 1; omega

/-! ### Text of rationals -/

/-- C49: if a rational is written at all, it is written as numerator and denominator in
lowest terms, without the denominator 1. -/
theorem C49_print_partial {x : ℚ} {s : List Char} (h : printQ x = some s) :
    ∃ p : ℤ, ∃ d : ℕ, x = p / d ∧ p.natAbs.Coprime d ∧ ∃ a, IsIntText a p ∧
      (d = 1 ∧ s = a ∨ d ≠ 1 ∧ ∃ b, IsIntText b d ∧ s = a ++ ['/'] ++ b) := by
  refine ⟨x.num, x.den, (Rat.num_div_den x).symm, x.reduced, printInt x.num, printInt_text _, ?_⟩
  unfold printQ writeMpz at h
  by_cases h1 : (printInt x.num).length + 1 ≤ 512
  · rw [if_pos h1] at h
    by_cases hd : x.den = 1
    · left; simp [hd] at h; exact ⟨hd, h.symm⟩
    · right
      refine ⟨hd, printInt x.den, printInt_text _, ?_⟩
      have : ((x.den : ℤ)) ≠ 1 := by exact_mod_cast hd
      simp only [this, ne_eq, not_false_eq_true, if_true] at h
      by_cases h2 : (printInt (x.den : ℤ)).length + 1 ≤ 512
      · rw [if_pos h2] at h; simpa using h.symm
      · rw [if_neg h2] at h; simp at h
  · rw [if_neg h1] at h; simp at h

/-- C49: numbers of up to 510 digits are written. -/
theorem C49_print_total {x : ℚ} (h1 : (printInt x.num).length ≤ 511) (h2 : (printInt x.den).length ≤ 511) :
    ∃ s, printQ x = some s := by
  unfold printQ writeMpz
  rw [if_pos (by omega)]
  by_cases hd : (x.den : ℤ) = 1
  · simp [hd]
  · simp [hd, show (printInt (x.den : ℤ)).length < 512 by omega]

/-- C49 fails: writing `10^511` overruns the buffer. -/
theorem C49_print_counterexample : printQ (10 ^ 511) = none := by
  have hn : ((10 : ℚ) ^ 511).num = 10 ^ 511 := by
    have : ((10 : ℚ) ^ 511) = ((10 ^ 511 : ℤ) : ℚ) := by push_cast; rfl
    rw [this, Rat.num_intCast]
  have hl : (printInt (10 ^ 511)).length = 512 := by
    unfold printInt
    have e : ((10 : ℤ) ^ 511).natAbs = 10 ^ 511 := by rw [Int.natAbs_pow]; rfl
    rw [if_neg (not_lt.2 (by positivity)), e, printNat_eq, List.nil_append, List.length_map,
      natDigits_length (k := 511) le_rfl (Nat.pow_lt_pow_right (by norm_num) (by norm_num))]
  unfold printQ writeMpz
  rw [hn, if_neg (by rw [hl]; norm_num)]

example : ofNat64 (2 ^ 40 + 5) = 2 ^ 40 + 5 := by
  have := ofNat64_small (2 ^ 40 + 5) (by norm_num); push_cast at this; exact this
example : roundQ (7 / 2) = 4 ∧ roundQ (-7 / 2) = -4 ∧ roundQ (10 / 3) = 3 := by decide +kernel
example : printQ (-7 / 2) = some "-7/2".toList := by decide +kernel
example : quot (-7) 2 = -4 ∧ rem (-7) 2 = -1 := by decide

end Ariadne.Exact
