import Mathlib.Data.Nat.Choose.Basic
import Mathlib.Data.Nat.Factorial.Basic
import Mathlib.Tactic.NormNum

/-!
# Factorials and binomial coefficients in fixed-width arithmetic

Model of `source/numeric/int.cpp` and Property C54.  `none` is a failed assertion.
-/

namespace Verif.Numeric

/-- The loop `for(i=1; i<=n; ++i) { r*=i; }` in `w`-bit arithmetic, e.g. `int.cpp` lines 40-42. -/
def facLoop (w : Nat) : Nat → Nat
  | 0 => 1
  | i + 1 => facLoop w i * (i + 1) % 2 ^ w

/-- `fac`, `int.cpp` lines 35-44, 62-71, 90-99 and 120-129, with the assertion `n<bound`. -/
def fac (w bound n : Nat) : Option Nat := if n < bound then some (facLoop w n) else none

/-- The loop `for(i=1; i<=k; ++i) { r*=(n+1-i); r/=i; }` in `w`-bit arithmetic, e.g. `int.cpp` lines
55-58.  In the 16-bit version the product is computed in `int` and truncated on assignment, which is
the same. -/
def binLoop (w n : Nat) : Nat → Nat
  | 0 => 1
  | i + 1 => (binLoop w n i * (n + 1 - (i + 1)) % 2 ^ w) / (i + 1)

/-- `bin`, `int.cpp` lines 46-60, 73-88, 101-116 and 131-146, with the assertion `n<bound`. -/
def bin (w bound n k : Nat) : Option Nat :=
  if n < bound then
    if k > n + 1 then none
    else if k = n + 1 then some 0
    else some (binLoop w n k)
  else none

/-- `fac(uint8_t)`, lines 35-44. -/
def fac8 := fac 32 13
/-- `bin(uint8_t,uint8_t)`, lines 46-60. -/
def bin8 := bin 32 32
/-- `fac(uint16_t)`, lines 62-71. -/
def fac16 := fac 16 9
/-- `bin(uint16_t,uint16_t)`, lines 74-88. -/
def bin16 := bin 16 16
/-- `fac(uint32_t)`, lines 90-99. -/
def fac32 := fac 32 13
/-- `bin(uint32_t,uint32_t)`, lines 102-116. -/
def bin32 := bin 32 31
/-- `fac(uint64_t)`, lines 120-129. -/
def fac64 := fac 64 21
/-- `bin(uint64_t,uint64_t)`, lines 132-146. -/
def bin64 := bin 64 63

/-! ## Correctness -/

theorem facLoop_eq (w n : Nat) (h : n.factorial < 2 ^ w) : facLoop w n = n.factorial := by
  induction n with
  | zero => rfl
  | succ n ih =>
    rw [facLoop, ih (lt_of_le_of_lt (Nat.factorial_le (Nat.le_succ n)) h), Nat.factorial_succ,
      Nat.mul_comm, ← Nat.factorial_succ, Nat.mod_eq_of_lt h]

theorem binLoop_eq (w n k : Nat) (h : ∀ i, i < k → n.choose i * (n - i) < 2 ^ w) :
    binLoop w n k = n.choose k := by
  induction k with
  | zero => simp [binLoop]
  | succ k ih =>
    rw [binLoop, ih (fun i hi => h i (by omega)), Nat.add_sub_add_right,
      Nat.mod_eq_of_lt (h k (Nat.lt_succ_self k)), ← Nat.choose_succ_right_eq,
      Nat.mul_div_cancel _ (Nat.succ_pos k)]

/-- The loop without truncation, used to bound the intermediate results. -/
def binExact (n : Nat) : Nat → Nat
  | 0 => 1
  | i + 1 => (binExact n i * (n - i)) / (i + 1)

theorem binExact_eq (n k : Nat) : binExact n k = n.choose k := by
  induction k with
  | zero => simp [binExact]
  | succ k ih =>
    rw [binExact, ih, ← Nat.choose_succ_right_eq, Nat.mul_div_cancel _ (Nat.succ_pos k)]

/-- What `bin` must return: the binomial coefficient for `k≤n+1`, and a failure otherwise. -/
def BinSpec (b : Nat → Nat → Option Nat) (bound : Nat) : Prop :=
  ∀ n k, b n k = if n < bound ∧ k ≤ n + 1 then some (n.choose k) else none

theorem bin_spec (w bound : Nat)
    (h : ∀ n, n < bound → ∀ i, i < n → binExact n i * (n - i) < 2 ^ w) :
    BinSpec (bin w bound) bound := by
  intro n k
  unfold bin
  by_cases hn : n < bound
  · rw [if_pos hn]
    by_cases h1 : k > n + 1
    · rw [if_pos h1, if_neg (by omega)]
    · rw [if_neg h1, if_pos (show n < bound ∧ k ≤ n + 1 by omega)]
      by_cases h2 : k = n + 1
      · rw [if_pos h2, h2, Nat.choose_eq_zero_of_lt (Nat.lt_succ_self n)]
      · rw [if_neg h2, binLoop_eq]
        intro i hi
        rw [← binExact_eq]
        exact h n hn i (by omega)
  · rw [if_neg hn, if_neg (by omega)]

/-- **C54** (factorials): every width returns the factorial within its stated range and fails
outside it. -/
theorem C54_fac (n : Nat) :
    fac8 n = (if n < 13 then some n.factorial else none) ∧
    fac16 n = (if n < 9 then some n.factorial else none) ∧
    fac32 n = (if n < 13 then some n.factorial else none) ∧
    fac64 n = (if n < 21 then some n.factorial else none) := by
  have key : ∀ w b, (b - 1).factorial < 2 ^ w →
      fac w b n = (if n < b then some n.factorial else none) := by
    intro w b h
    unfold fac
    by_cases hn : n < b
    · rw [if_pos hn, if_pos hn, facLoop_eq]
      exact lt_of_le_of_lt (Nat.factorial_le (by omega)) h
    · rw [if_neg hn, if_neg hn]
  exact ⟨key 32 13 (by decide), key 16 9 (by decide), key 32 13 (by decide), key 64 21 (by decide)⟩

/-- **C54** (binomial coefficients): the 16, 32 and 64-bit versions return the binomial coefficient
for every first argument within the stated range. -/
theorem C54_bin : BinSpec bin16 16 ∧ BinSpec bin32 31 ∧ BinSpec bin64 63 := by
  refine ⟨bin_spec 16 16 ?_, bin_spec 32 31 ?_, bin_spec 64 63 ?_⟩ <;> decide +kernel

/-- **C54** (8-bit arguments, partial): correct for `n<31`; for `n=31`, which the code accepts, it
is wrong: `C54_bin8_counterexample`. -/
theorem C54_bin8_partial (n k : Nat) (hn : n < 31) :
    bin8 n k = if k ≤ n + 1 then some (n.choose k) else none := by
  have h : bin8 n k = bin 32 31 n k := by
    unfold bin8 bin
    rw [if_pos hn, if_pos (by omega)]
  have h2 : bin 32 31 n k = _ := C54_bin.2.1 n k
  rw [h, h2]
  simp [hn]

/-- **C54** fails for 8-bit arguments at `n=31`: the intermediate product overflows. -/
theorem C54_bin8_counterexample :
    bin8 31 15 = some 14209041 ∧ Nat.choose 31 15 = 300540195 := by
  refine ⟨by decide +kernel, ?_⟩
  rw [← binExact_eq]
  decide +kernel

/-- The ranges cannot be extended: at the next argument the loops overflow. -/
theorem C54_ranges_sharp :
    binLoop 32 31 15 ≠ Nat.choose 31 15 ∧ binLoop 64 63 31 ≠ Nat.choose 63 31 ∧
      facLoop 32 13 ≠ Nat.factorial 13 ∧ facLoop 16 9 ≠ Nat.factorial 9 ∧
      facLoop 64 21 ≠ Nat.factorial 21 := by
  refine ⟨?_, ?_, by decide, by decide, by decide⟩ <;> rw [← binExact_eq] <;> decide +kernel

/-- Non-vacuity of C54. -/
example : bin16 15 7 = some 6435 ∧ bin16 15 16 = some 0 ∧ bin16 15 17 = none ∧ bin16 16 3 = none ∧
    fac64 20 = some 2432902008176640000 := by decide +kernel

end Verif.Numeric
