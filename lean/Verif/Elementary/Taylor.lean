import Mathlib.Analysis.SpecialFunctions.Trigonometric.Series
import Mathlib.Analysis.SpecialFunctions.Complex.Arctan
import Mathlib.Analysis.SpecificLimits.Normed
import Mathlib.Analysis.Complex.Exponential
import Mathlib.Tactic.NormNum.NatFactorial
import Mathlib.Data.Rat.Cast.Order

/-!
# Bounds for elementary functions by partial sums

Facts about the real functions; nothing here refers to the code.
-/

namespace Verif.Elementary

open Finset Filter Topology

/-- The partial sum of the series of the cosine. -/
def cosSum {K : Type*} [Field K] (n : ℕ) (x : K) : K :=
  ∑ k ∈ range n, (-1) ^ k * x ^ (2 * k) / (2 * k).factorial

/-- The partial sum of the series of the sine. -/
def sinSum {K : Type*} [Field K] (n : ℕ) (x : K) : K :=
  ∑ k ∈ range n, (-1) ^ k * x ^ (2 * k + 1) / (2 * k + 1).factorial

theorem cosSum_cast (n : ℕ) (x : ℚ) : ((cosSum n x : ℚ) : ℝ) = cosSum n (x : ℝ) := by
  simp [cosSum]

theorem sinSum_cast (n : ℕ) (x : ℚ) : ((sinSum n x : ℚ) : ℝ) = sinSum n (x : ℝ) := by
  simp [sinSum]

theorem exp_sum (x : ℝ) (n : ℕ) :
    ∑ m ∈ range (2 * n), ((x : ℂ) * Complex.I) ^ m / m.factorial =
      (cosSum n x : ℝ) + (sinSum n x : ℝ) * Complex.I := by
  induction n with
  | zero => simp [cosSum, sinSum]
  | succ n ih =>
    rw [show 2 * (n + 1) = 2 * n + 1 + 1 by ring, sum_range_succ, sum_range_succ, ih]
    unfold cosSum sinSum
    rw [sum_range_succ, sum_range_succ]
    push_cast
    have h1 : ((x : ℂ) * Complex.I) ^ (2 * n) = (-1) ^ n * (x : ℂ) ^ (2 * n) := by
      rw [mul_pow, pow_mul Complex.I, Complex.I_sq, mul_comm]
    have h2 : ((x : ℂ) * Complex.I) ^ (2 * n + 1) = (-1) ^ n * (x : ℂ) ^ (2 * n + 1) * Complex.I := by
      rw [pow_succ, h1]
      ring
    rw [h1, h2]
    ring

theorem abs_parts (a b : ℝ) : |a| ≤ ‖(a : ℂ) + b * Complex.I‖ ∧ |b| ≤ ‖(a : ℂ) + b * Complex.I‖ := by
  constructor
  · simpa using Complex.abs_re_le_norm ((a : ℂ) + b * Complex.I)
  · simpa using Complex.abs_im_le_norm ((a : ℂ) + b * Complex.I)

theorem cos_sin_taylor (x : ℝ) (n : ℕ) (h : |x| ≤ n) :
    |Real.cos x - cosSum n x| ≤ |x| ^ (2 * n) / (2 * n).factorial * 2 ∧
      |Real.sin x - sinSum n x| ≤ |x| ^ (2 * n) / (2 * n).factorial * 2 := by
  have hz : ‖(x : ℂ) * Complex.I‖ = |x| := by simp
  have hb := Complex.exp_bound' (x := (x : ℂ) * Complex.I) (n := 2 * n) (by
    rw [hz, div_le_iff₀ (by positivity)]
    push_cast
    linarith)
  rw [exp_sum, hz, Complex.exp_mul_I] at hb
  have e : Complex.cos x + Complex.sin x * Complex.I - ((cosSum n x : ℝ) + (sinSum n x : ℝ) * Complex.I) =
      ((Real.cos x - cosSum n x : ℝ) : ℂ) + ((Real.sin x - sinSum n x : ℝ) : ℂ) * Complex.I := by
    push_cast
    ring
  rw [e] at hb
  exact ⟨(abs_parts _ _).1.trans hb, (abs_parts _ _).2.trans hb⟩

/-- The bound for the error of the partial sums. -/
def trigErr (n : ℕ) (x : ℚ) : ℚ := |x| ^ (2 * n) / (2 * n).factorial * 2

theorem cos_enclosed (x : ℚ) (n : ℕ) (h : |x| ≤ n) :
    ((cosSum n x - trigErr n x : ℚ) : ℝ) ≤ Real.cos x ∧ Real.cos x ≤ ((cosSum n x + trigErr n x : ℚ) : ℝ) := by
  have := (cos_sin_taylor (x : ℝ) n (by exact_mod_cast h)).1
  rw [abs_le] at this
  push_cast [cosSum_cast, trigErr]
  constructor <;> linarith [this.1, this.2]

theorem sin_enclosed (x : ℚ) (n : ℕ) (h : |x| ≤ n) :
    ((sinSum n x - trigErr n x : ℚ) : ℝ) ≤ Real.sin x ∧ Real.sin x ≤ ((sinSum n x + trigErr n x : ℚ) : ℝ) := by
  have := (cos_sin_taylor (x : ℝ) n (by exact_mod_cast h)).2
  rw [abs_le] at this
  push_cast [sinSum_cast, trigErr]
  constructor <;> linarith [this.1, this.2]

end Verif.Elementary
