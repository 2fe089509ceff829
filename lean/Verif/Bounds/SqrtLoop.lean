import Mathlib.Algebra.Order.Archimedean.Basic
import Verif.Bounds.Sqrt
import Mathlib.Tactic.Positivity
import Mathlib.Algebra.Order.Floor.Ring

/-!
# C85: termination of the rounded square root

Rounded upwards, the Newton loop of `sqrt_rnd` (source/numeric/double.cpp 135-139) stops; rounded downwards it need
not.
-/

namespace Ariadne
namespace Sqrt

variable {K : Type*} [Field K] [LinearOrder K] [IsStrictOrderedRing K] [FloorRing K]

/-- The positive numbers with `p` bits that are at least `2^a` are multiples of one power of two. -/
theorem rep_multiple {p : ℕ} {x : K} (h : PBit.Rep p x) {a : ℤ} (hx : (2 : K) ^ a ≤ x) :
    ∃ k : ℤ, x = k * 2 ^ (a - p) := by
  obtain ⟨m, e, rfl, hm⟩ := h
  have hlt : (2 : K) ^ (a - p) < 2 ^ e := by
    have h1 : (m : K) < 2 ^ p := by
      have := (le_abs_self m).trans_lt hm
      exact_mod_cast this
    have h2 : (0 : K) < 2 ^ e := by positivity
    have h3 : (2 : K) ^ a < 2 ^ p * 2 ^ e := hx.trans_lt (mul_lt_mul_of_pos_right h1 h2)
    rw [zpow_sub₀ (by norm_num), zpow_natCast, div_lt_iff₀ (by positivity)]
    linarith
  have he : a - p < e := (zpow_lt_zpow_iff_right₀ (by norm_num)).1 hlt
  refine ⟨m * 2 ^ (e - (a - p)).toNat, ?_⟩
  have : ((2 : ℤ) ^ (e - (a - p)).toNat : ℤ) = ((2 : ℤ) ^ (e - (a - p)).toNat) := rfl
  push_cast
  rw [mul_assoc, ← zpow_natCast, Int.toNat_of_nonneg (by omega), ← zpow_add₀ (by norm_num)]
  congr 2
  omega

variable {p : ℕ} (hp : 1 ≤ p)

include hp in
/-- From a number that is at least the square root, the loop goes downwards, and stops. -/
theorem newton_up_stops {y : K} {a : ℤ} (h0 : 0 < y) (ha : (2 : K) ^ a * 2 ^ a ≤ y) :
    ∀ (n : ℕ) (a' b : K), PBit.Rep p b → 0 < b → y ≤ b * b → b < 2 ^ a + n * 2 ^ (a - p) →
      ∃ r, newton (PBit.up p) y (n + 2) a' b = some r := by
  intro n
  have hpos : (0 : K) < 2 ^ a := by positivity
  have hbase : ∀ b : K, 0 < b → y ≤ b * b → (2 : K) ^ a ≤ b := by
    intro b hb hy
    by_contra hc
    push Not at hc
    have := mul_self_lt_mul_self hb.le hc
    linarith
  induction n with
  | zero =>
    intro a' b hb hb0 hy hlt
    have := hbase b hb0 hy
    simp only [Nat.cast_zero, zero_mul, add_zero] at hlt
    exact absurd hlt (not_lt.2 this)
  | succ n ih =>
    intro a' b hb hb0 hy hlt
    by_cases hab : a' = b
    · exact ⟨b, by unfold newton; rw [if_pos hab]⟩
    · set R := PBit.rounding (K := K) p hp with hR
      set b' := PBit.up p (b + PBit.up p (y / b)) / 2 with hb'
      have hstep : newton (PBit.up p) y (n + 1 + 2) a' b = newton (PBit.up p) y (n + 2) b b' := by
        rw [newton, if_neg hab]
      have h1 : y / b ≤ PBit.up p (y / b) := PBit.le_up p _
      have h2 : b + PBit.up p (y / b) ≤ PBit.up p (b + PBit.up p (y / b)) := PBit.le_up p _
      have hq : 0 < y / b := div_pos h0 hb0
      have hb'0 : 0 < b' := by
        have : 0 < PBit.up p (b + PBit.up p (y / b)) := by linarith
        positivity
      have hb'y : y ≤ b' * b' := by
        have h3 : (b + y / b) / 2 ≤ b' := by
          rw [hb']
          linarith
        have h4 : y ≤ (b + y / b) / 2 * ((b + y / b) / 2) := by
          have h5 : b * (y / b) = y := mul_div_cancel₀ _ hb0.ne'
          nlinarith [sq_nonneg (b - y / b)]
        exact h4.trans (mul_self_le_mul_self (by positivity) h3)
      have hb'r : PBit.Rep p b' := PBit.rep_half (PBit.rep_up hp _)
      have hle : b' ≤ b := by
        have h3 : y / b ≤ b := by rwa [div_le_iff₀ hb0]
        have h4 : PBit.up p (y / b) ≤ b := PBit.up_min hp _ _ hb h3
        have h5 : PBit.up p (b + PBit.up p (y / b)) ≤ 2 * b := PBit.up_min hp _ _ (PBit.rep_two hb) (by linarith)
        rw [hb']
        linarith
      rw [hstep]
      by_cases heq : b = b'
      · refine ⟨b', ?_⟩
        unfold newton
        rw [if_pos heq]
      · refine ih b b' hb'r hb'0 hb'y ?_
        obtain ⟨k, hk⟩ := rep_multiple hb (hbase b hb0 hy)
        obtain ⟨k', hk'⟩ := rep_multiple hb'r (hbase b' hb'0 hb'y)
        have hd : (0 : K) < 2 ^ (a - p) := by positivity
        have hkk : k' + 1 ≤ k := by
          have : b' < b := lt_of_le_of_ne hle fun h => heq h.symm
          rw [hk, hk', mul_lt_mul_iff_left₀ hd] at this
          have : k' < k := by exact_mod_cast this
          omega
        have : ((k' : K) + 1) * 2 ^ (a - p) ≤ k * 2 ^ (a - p) :=
          mul_le_mul_of_nonneg_right (by exact_mod_cast hkk) hd.le
        push_cast at hlt
        linarith

include hp in
/-- **C85** (termination).  Rounded upwards to `p` bits, the square root of every number is computed in finitely many
steps. -/
theorem C85_terminates_partial {x : K} (hx : PBit.Rep p x) (h0 : 0 ≤ x) :
    ∃ fuel r, sqrtRnd (PBit.up p) fuel x = some r := by
  unfold sqrtRnd
  simp only [if_neg (not_lt.2 h0)]
  by_cases hz : x = 0
  · exact ⟨0, 0, by rw [if_pos hz]⟩
  · set y := x / 2 ^ evenExponent x with hy
    have hpos : 0 < x := lt_of_le_of_ne h0 (Ne.symm hz)
    have hy0 : 0 < y := by positivity
    have hyr : PBit.Rep p y := rep_zpow_div (PBit.rounding p hp) hx _
    obtain ⟨n, hn⟩ := exists_nat_gt (y⁻¹)
    -- a power of two below the square root
    obtain ⟨a, ha⟩ : ∃ a : ℤ, (2 : K) ^ a * 2 ^ a ≤ y := by
      refine ⟨-n, ?_⟩
      have h1 : (n : K) ≤ 2 ^ n := by
        have := (Nat.lt_two_pow_self (n := n)).le
        exact_mod_cast this
      have h2 : y⁻¹ < 2 ^ n := hn.trans_le h1
      have h3 : ((2 : K) ^ n)⁻¹ ≤ y := by
        rw [inv_le_comm₀ (by positivity) hy0]
        exact h2.le
      rw [zpow_neg, zpow_natCast]
      have h4 : ((2 : K) ^ n)⁻¹ ≤ 1 := inv_le_one_of_one_le₀ (one_le_pow₀ (by norm_num))
      have h5 : (0 : K) ≤ ((2 : K) ^ n)⁻¹ := by positivity
      nlinarith
    set b := PBit.up p (y + PBit.up p (y / y)) / 2 with hb
    have h1 : y / y = 1 := div_self hy0.ne'
    have h2 : (1 : K) ≤ PBit.up p (y / y) := by rw [h1]; exact PBit.le_up p 1
    have h3 : y + PBit.up p (y / y) ≤ PBit.up p (y + PBit.up p (y / y)) := PBit.le_up p _
    have hb1 : (y + 1) / 2 ≤ b := by rw [hb]; linarith
    have hby : y ≤ b * b := by
      have : y ≤ (y + 1) / 2 * ((y + 1) / 2) := by nlinarith [sq_nonneg (y - 1)]
      exact this.trans (mul_self_le_mul_self (by linarith) hb1)
    have hb0 : 0 < b := by linarith
    obtain ⟨m, hm⟩ := exists_nat_gt (b / 2 ^ (a - p))
    have hd : (0 : K) < 2 ^ (a - p) := by positivity
    obtain ⟨r, hr⟩ := newton_up_stops hp hy0 ha m y b (PBit.rep_half (PBit.rep_up hp _)) hb0 hby (by
      rw [div_lt_iff₀ hd] at hm
      have : (0 : K) < 2 ^ a := by positivity
      linarith)
    refine ⟨m + 3, r * 2 ^ (evenExponent x / 2), ?_⟩
    rw [if_neg hz]
    show (newton (PBit.up p) y (m + 3) 0 y).map (fun b => b * 2 ^ (evenExponent x / 2)) = _
    have : newton (PBit.up p) y (m + 3) 0 y = newton (PBit.up p) y (m + 2) y b := by
      rw [newton, if_neg hy0.ne]
    rw [this, hr]
    rfl

/-- **C85** fails for termination: rounded downwards in double precision, the loop for `1+2^(-51)` goes on for ever
between `1` and `1+2^(-52)`. -/
theorem C85_infinite_loop (fuel : ℕ) : sqrtRnd (PBit.down 53 : ℚ → ℚ) fuel (1 + 2 / 2 ^ 52) = none := by
  have key : ∀ n, newton (PBit.down 53 : ℚ → ℚ) (1 + 2 / 2 ^ 52) n 1 (1 + 1 / 2 ^ 52) = none ∧
      newton (PBit.down 53 : ℚ → ℚ) (1 + 2 / 2 ^ 52) n (1 + 1 / 2 ^ 52) 1 = none := by
    intro n
    induction n with
    | zero => exact ⟨rfl, rfl⟩
    | succ n ih =>
      have e1 : (PBit.down 53 (1 + 1 / 2 ^ 52 + PBit.down 53 ((1 + 2 / 2 ^ 52) / (1 + 1 / 2 ^ 52))) / 2 : ℚ) = 1 := by
        decide +kernel
      have e2 : (PBit.down 53 (1 + PBit.down 53 ((1 + 2 / 2 ^ 52) / 1)) / 2 : ℚ) = 1 + 1 / 2 ^ 52 := by
        decide +kernel
      constructor
      · rw [newton, if_neg (by norm_num), e1]
        exact ih.2
      · rw [newton, if_neg (by norm_num), e2]
        exact ih.1
  have hn : evenExponent (1 + 2 / 2 ^ 52 : ℚ) = 0 := by decide +kernel
  unfold sqrtRnd
  rw [if_neg (by norm_num), if_neg (by norm_num)]
  simp only
  rw [hn, zpow_zero, div_one]
  cases fuel with
  | zero => rfl
  | succ n =>
    rw [newton, if_neg (by norm_num)]
    have e3 : (PBit.down 53 (1 + 2 / 2 ^ 52 + PBit.down 53 ((1 + 2 / 2 ^ 52) / (1 + 2 / 2 ^ 52))) / 2 : ℚ) =
        1 + 1 / 2 ^ 52 := by decide +kernel
    rw [e3]
    cases n with
    | zero => rfl
    | succ n =>
      rw [newton, if_neg (by norm_num)]
      have e1 : (PBit.down 53 (1 + 1 / 2 ^ 52 + PBit.down 53 ((1 + 2 / 2 ^ 52) / (1 + 1 / 2 ^ 52))) / 2 : ℚ) = 1 := by
        decide +kernel
      rw [e1, (key n).2]
      rfl

end Sqrt
end Ariadne
