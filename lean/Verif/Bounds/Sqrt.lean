import Verif.Bounds.Props

/-!
# C46: the rounded square root

Model of `sqrt_rnd` (source/numeric/double.cpp 124-142), the square root of
`FloatDP` in the current rounding mode, and of `sqrt(Bounds)`
(source/numeric/float_bounds.hpp 241-242).
-/

namespace Ariadne

variable {K : Type*} [Field K] [LinearOrder K] [IsStrictOrderedRing K]

namespace Sqrt

/-- The Newton loop `a=0; b=y; while(a!=b) { a=b; b=(a+y/a)/2; }`
(double.cpp 135-139), where every operation is rounded by `rnd` and halving is
exact.  `fuel` bounds the number of iterations; `none` means that the loop has
not stopped by then. -/
def newton (rnd : K → K) (y : K) : ℕ → K → K → Option K
  | 0, _, _ => none
  | fuel + 1, a, b =>
    if a = b then some b
    else newton rnd y fuel b (rnd (b + rnd (y / b)) / 2)

variable [FloorRing K]

/-- The exponent computed by `frexp(x,&n)` followed by `if(n%2) { n-=1; }`
(double.cpp 131-132): the even one among `e` and `e-1` where `2^(e-1) <= x < 2^e`. -/
def evenExponent (x : K) : ℤ :=
  let n := Int.log 2 x + 1
  if n % 2 = 0 then n else n - 1

/-- `sqrt_rnd` (double.cpp 124-142).  `none` is a failed assertion (negative
argument) or a loop that has not stopped within `fuel` iterations. -/
def sqrtRnd (rnd : K → K) (fuel : ℕ) (x : K) : Option K :=
  if x < 0 then none
  else if x = 0 then some 0
  else
    let n := evenExponent x
    let y := x / 2 ^ n
    (newton rnd y fuel 0 y).map fun b => b * 2 ^ (n / 2)

/-- `sqrt(Bounds)` (float_bounds.hpp 241-242) on finite bounds. -/
def sqrtBounds (R : Rounding K) (fuel : ℕ) (l u : K) : Option (K × K) :=
  match sqrtRnd R.down fuel l, sqrtRnd R.up fuel u with
  | some a, some b => some (a, b)
  | _, _ => none

end Sqrt

namespace Sqrt

variable (R : Rounding K)

theorem rep_pow_mul {x : K} (h : R.Rep x) (n : ℕ) : R.Rep (2 ^ n * x) := by
  induction n with
  | zero => simpa
  | succ n ih => have := R.rep_two _ ih; rw [pow_succ, mul_comm (2 ^ n), mul_assoc]; exact this

theorem rep_pow_div {x : K} (h : R.Rep x) (n : ℕ) : R.Rep (x / 2 ^ n) := by
  induction n with
  | zero => simpa
  | succ n ih => have := R.rep_half _ ih; rwa [div_div, ← pow_succ] at this

theorem rep_zpow_div {x : K} (h : R.Rep x) (n : ℤ) : R.Rep (x / 2 ^ n) := by
  obtain ⟨k, rfl | rfl⟩ := n.eq_nat_or_neg
  · simpa using rep_pow_div R h k
  · have := rep_pow_mul R h k
    rw [zpow_neg, div_inv_eq_mul, zpow_natCast, mul_comm]; exact this

/-- Every value of the loop variable `b` is positive and representable, and the
loop stops at a fixed point of the rounded Newton step. -/
theorem newton_fixed {rnd : K → K} (h0 : ∀ x, 0 ≤ x → 0 ≤ rnd x)
    (hm : ∀ x y, R.Rep y → y ≤ x → y ≤ rnd x) (hrep : ∀ x, R.Rep (rnd x))
    {y : K} (hy : 0 < y) :
    ∀ (fuel : ℕ) (a b r : K), 0 < b → R.Rep b →
      (a = b → b = rnd (b + rnd (y / b)) / 2) → (a ≠ b → a ≠ 0 → b = rnd (a + rnd (y / a)) / 2) →
      newton rnd y fuel a b = some r →
      0 < r ∧ r = rnd (r + rnd (y / r)) / 2 := by
  intro fuel
  induction fuel with
  | zero => intro a b r _ _ _ _ h; simp [newton] at h
  | succ fuel ih =>
    intro a b r hb hbr hfix _ h
    unfold newton at h
    split_ifs at h with e
    · obtain rfl : b = r := by simpa using h
      exact ⟨hb, hfix e⟩
    · refine ih b _ r ?_ ?_ ?_ ?_ h
      · have h1 : 0 ≤ rnd (y / b) := h0 _ (div_nonneg hy.le hb.le)
        have h2 := hm (b + rnd (y / b)) b hbr (by linarith)
        linarith
      · exact R.rep_half _ (hrep _)
      · intro e'; rw [← e']; exact e'
      · intro _ _; rfl

theorem newton_down {y : K} (hy : 0 < y) (hyr : R.Rep y) {fuel : ℕ} {r : K}
    (h : newton R.down y fuel 0 y = some r) : 0 < r ∧ r * r ≤ y := by
  obtain ⟨h1, h2⟩ := newton_fixed R (rnd := R.down)
    (fun x hx => R.down_max x 0 R.rep_zero hx) R.down_max R.rep_down hy fuel 0 y r hy hyr
    (fun e => absurd e hy.ne) (fun _ e => absurd rfl e) h
  refine ⟨h1, ?_⟩
  have h3 := R.down_le (r + R.down (y / r))
  have h4 := R.down_le (y / r)
  have h5 : r ≤ y / r := by linarith
  rwa [le_div_iff₀ h1] at h5

theorem newton_up {y : K} (hy : 0 < y) (hyr : R.Rep y) {fuel : ℕ} {r : K}
    (h : newton R.up y fuel 0 y = some r) : 0 < r ∧ y ≤ r * r := by
  obtain ⟨h1, h2⟩ := newton_fixed R (rnd := R.up)
    (fun x hx => hx.trans (R.le_up x)) (fun x y _ h => h.trans (R.le_up x)) R.rep_up hy
    fuel 0 y r hy hyr (fun e => absurd e hy.ne) (fun _ e => absurd rfl e) h
  refine ⟨h1, ?_⟩
  have h3 := R.le_up (r + R.up (y / r))
  have h4 := R.le_up (y / r)
  have h5 : y / r ≤ r := by linarith
  rwa [div_le_iff₀ h1] at h5

variable [FloorRing K]

theorem evenExponent_even (x : K) : evenExponent x % 2 = 0 := by
  unfold evenExponent; simp only; split_ifs <;> omega

theorem scale_sq (n : ℤ) (hn : n % 2 = 0) (b : K) :
    (b * 2 ^ (n / 2)) * (b * 2 ^ (n / 2)) = b * b * 2 ^ n := by
  have : (2 : K) ^ n = 2 ^ (n / 2) * 2 ^ (n / 2) := by
    rw [← zpow_add₀ (by norm_num)]; congr 1; omega
  rw [this]; ring

/-- C46: whenever the downward-rounded square root returns a value, the value is
nonnegative and its square does not exceed the argument. -/
theorem C46_sqrt_down {x r : K} {fuel : ℕ} (hx : R.Rep x)
    (h : sqrtRnd R.down fuel x = some r) : 0 ≤ r ∧ r * r ≤ x := by
  unfold sqrtRnd at h
  split_ifs at h with h1 h2
  · obtain rfl : (0 : K) = r := by simpa using h
    subst h2; simp
  · simp only [Option.map_eq_some_iff] at h
    obtain ⟨b, hb, rfl⟩ := h
    have hx0 : 0 < x := lt_of_le_of_ne (not_lt.1 h1) (Ne.symm h2)
    have hp : (0 : K) < 2 ^ evenExponent x := by positivity
    have := newton_down R (div_pos hx0 hp) (rep_zpow_div R hx _) hb
    have hq : (0 : K) < 2 ^ (evenExponent x / 2) := by positivity
    refine ⟨(mul_pos this.1 hq).le, ?_⟩
    rw [scale_sq _ (evenExponent_even x)]
    rw [le_div_iff₀ hp] at this
    exact this.2

/-- C46: whenever the upward-rounded square root returns a value, the value is
nonnegative and its square is at least the argument. -/
theorem C46_sqrt_up {x r : K} {fuel : ℕ} (hx : R.Rep x)
    (h : sqrtRnd R.up fuel x = some r) : 0 ≤ r ∧ x ≤ r * r := by
  unfold sqrtRnd at h
  split_ifs at h with h1 h2
  · obtain rfl : (0 : K) = r := by simpa using h
    subst h2; simp
  · simp only [Option.map_eq_some_iff] at h
    obtain ⟨b, hb, rfl⟩ := h
    have hx0 : 0 < x := lt_of_le_of_ne (not_lt.1 h1) (Ne.symm h2)
    have hp : (0 : K) < 2 ^ evenExponent x := by positivity
    have := newton_up R (div_pos hx0 hp) (rep_zpow_div R hx _) hb
    have hq : (0 : K) < 2 ^ (evenExponent x / 2) := by positivity
    refine ⟨(mul_pos this.1 hq).le, ?_⟩
    rw [scale_sq _ (evenExponent_even x)]
    rw [div_le_iff₀ hp] at this
    exact this.2

/-- C46: the square root of bounds encloses the square root of every point: if
`s >= 0` and `s*s` lies in `[l,u]` then `s` lies in the computed bounds. -/
theorem C46_sqrt_bounds {l u a b s : K} {fuel : ℕ} (hl : R.Rep l) (hu : R.Rep u)
    (h : sqrtBounds R fuel l u = some (a, b)) (hs : 0 ≤ s) (h1 : l ≤ s * s) (h2 : s * s ≤ u) :
    a ≤ s ∧ s ≤ b := by
  unfold sqrtBounds at h
  split at h
  · rename_i a' b' ha hb
    obtain ⟨rfl, rfl⟩ : a' = a ∧ b' = b := by simpa using h
    have ha' := C46_sqrt_down R hl ha
    have hb' := C46_sqrt_up R hu hb
    exact ⟨by by_contra hc; push Not at hc; nlinarith, by by_contra hc; push Not at hc; nlinarith⟩
  · simp at h

/-- Exact rounding is never wrong. -/
def exactRounding (K : Type*) [Field K] [LinearOrder K] [IsStrictOrderedRing K] : Rounding K where
  Rep _ := True
  down x := x
  up x := x
  near x := x
  rep_down _ := trivial
  rep_up _ := trivial
  down_le _ := le_refl _
  le_up _ := le_refl _
  down_max _ _ _ h := h
  up_min _ _ _ h := h
  near_cases _ := Or.inl rfl
  near_down _ := by simp
  near_up _ := by simp
  rep_zero := trivial
  rep_one := trivial
  rep_neg _ _ := trivial
  rep_half _ _ := trivial
  rep_two _ _ := trivial

/-- Non-vacuity: the loop stops on `1` (`frexp` gives `1/2`, which becomes `1`). -/
example : newton (fun x : ℚ => x) 1 5 0 1 = some 1 := by decide +kernel

/-- Non-vacuity: the square root of `4` in two-bit arithmetic. -/
example : sqrtRnd (PBit.down 2 : ℚ → ℚ) 10 4 = some 2 := by decide +kernel

end Sqrt
end Ariadne
