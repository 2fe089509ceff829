import Verif.Rounding.Model

/-!
# C45: rounding to a working precision
-/

namespace Ariadne
namespace PBit

variable {K : Type*} [Field K] [LinearOrder K] [IsStrictOrderedRing K] [FloorRing K]

theorem ulp_pos (p : ℕ) (x : K) : 0 < ulp p x := by
  unfold ulp; positivity

theorem rep_of_le {p : ℕ} (hp : 1 ≤ p) {x : K} (m e : ℤ) (hx : x = (m : K) * 2 ^ e)
    (hm : |m| ≤ 2 ^ p) : Rep p x := by
  rcases lt_or_eq_of_le hm with h | h
  · exact ⟨m, e, hx, h⟩
  · obtain ⟨q, rfl⟩ : ∃ q, p = q + 1 := ⟨p - 1, by omega⟩
    have hs : (2 : ℤ) ^ q < 2 ^ (q + 1) := by
      have : (0 : ℤ) < 2 ^ q := by positivity
      rw [pow_succ]; omega
    rcases abs_choice m with hc | hc
    · refine ⟨2 ^ q, e + 1, ?_, by rwa [abs_of_pos (by positivity)]⟩
      rw [hx, ← hc, h, zpow_add₀ (by norm_num)]
      push_cast; rw [pow_succ]; ring
    · refine ⟨-2 ^ q, e + 1, ?_, by rwa [abs_neg, abs_of_pos (by positivity)]⟩
      have : m = -(2 ^ (q + 1)) := by omega
      rw [hx, this, zpow_add₀ (by norm_num)]
      push_cast; rw [pow_succ]; ring

theorem rep_zero (p : ℕ) : Rep p (0 : K) := ⟨0, 0, by simp, by simp⟩

theorem rep_one {p : ℕ} (hp : 1 ≤ p) : Rep p (1 : K) :=
  rep_of_le hp 1 0 (by simp) (by simp; exact one_le_pow₀ (by norm_num))

theorem rep_neg {p : ℕ} {x : K} (h : Rep p x) : Rep p (-x) := by
  obtain ⟨m, e, h, hm⟩ := h
  exact ⟨-m, e, by rw [h]; push_cast; ring, by rwa [abs_neg]⟩

theorem rep_half {p : ℕ} {x : K} (h : Rep p x) : Rep p (x / 2) := by
  obtain ⟨m, e, h, hm⟩ := h
  refine ⟨m, e - 1, ?_, hm⟩
  rw [h, zpow_sub₀ (by norm_num)]; simp; ring

theorem rep_two {p : ℕ} {x : K} (h : Rep p x) : Rep p (2 * x) := by
  obtain ⟨m, e, h, hm⟩ := h
  refine ⟨m, e + 1, ?_, hm⟩
  rw [h, zpow_add₀ (by norm_num)]; simp; ring

theorem abs_lt_pow {x : K} : |x| < 2 ^ (Int.log 2 |x| + 1) := by
  have := Int.lt_zpow_succ_log_self (b := 2) (by norm_num) |x|
  simpa using this

theorem pow_le_abs {x : K} (hx : x ≠ 0) : 2 ^ (Int.log 2 |x|) ≤ |x| := by
  have := Int.zpow_log_le_self (b := 2) (r := |x|) (by norm_num) (abs_pos.2 hx)
  simpa using this

theorem pow_eq_ulp {p : ℕ} (x : K) :
    (2 : K) ^ (Int.log 2 |x| + 1) = 2 ^ p * ulp p x := by
  unfold ulp
  rw [← zpow_natCast, ← zpow_add₀ (by norm_num)]
  congr 1; ring

theorem down_le (p : ℕ) (x : K) : down p x ≤ x := by
  unfold down
  have h := ulp_pos p x
  have := Int.floor_le (x / ulp p x)
  calc _ ≤ x / ulp p x * ulp p x := by gcongr
    _ = x := by field_simp

theorem lt_down_add (p : ℕ) (x : K) : x < down p x + ulp p x := by
  unfold down
  have h := ulp_pos p x
  have := Int.lt_floor_add_one (x / ulp p x)
  calc x = x / ulp p x * ulp p x := by field_simp
    _ < (⌊x / ulp p x⌋ + 1) * ulp p x := by gcongr
    _ = _ := by ring

theorem rep_down {p : ℕ} (hp : 1 ≤ p) (x : K) : Rep p (down p x) := by
  refine rep_of_le hp ⌊x / ulp p x⌋ _ rfl ?_
  have h := ulp_pos p x
  have hx : |x| < 2 ^ p * ulp p x := by rw [← pow_eq_ulp]; exact abs_lt_pow
  have h1 : |x / ulp p x| < 2 ^ p := by
    rw [abs_div, abs_of_pos h, div_lt_iff₀ h]; exact hx
  rw [abs_lt] at h1
  rw [abs_le]
  constructor
  · rw [Int.le_floor]; push_cast; exact h1.1.le
  · apply le_of_lt; rw [Int.floor_lt]; push_cast; exact h1.2

theorem down_max {p : ℕ} (hp : 1 ≤ p) (x y : K) (hy : Rep p y) (hyx : y ≤ x) :
    y ≤ down p x := by
  have hu := ulp_pos p x
  obtain ⟨m, f, hmf, hm⟩ := hy
  by_cases hf : Int.log 2 |x| - (p : ℤ) + 1 ≤ f
  · -- `y` is a multiple of the unit in the last place
    obtain ⟨d, hd⟩ := Int.le.dest hf
    have hyk : y = ((m * 2 ^ d : ℤ) : K) * ulp p x := by
      rw [hmf, ← hd, zpow_add₀ (by norm_num)]
      unfold ulp; push_cast; rw [zpow_natCast]; ring
    unfold down
    rw [hyk]
    gcongr
    rw [Int.le_floor, le_div_iff₀ hu, ← hyk]; exact hyx
  · by_cases hx0 : x = 0
    · subst hx0; simpa [down] using hyx
    have hyl : |y| < 2 ^ (Int.log 2 |x|) := by
      rw [hmf, abs_mul, abs_of_pos (a := (2 : K) ^ f) (by positivity)]
      have hm' : (|m| : K) < 2 ^ p := by exact_mod_cast hm
      have : (2 : K) ^ f ≤ 2 ^ (Int.log 2 |x| - p) :=
        zpow_le_zpow_right₀ (by norm_num) (by omega)
      calc (|(m : K)|) * 2 ^ f < 2 ^ p * 2 ^ f := by
            have : (0 : K) < 2 ^ f := by positivity
            gcongr
        _ ≤ 2 ^ p * 2 ^ (Int.log 2 |x| - p) := by gcongr
        _ = _ := by
          rw [← zpow_natCast, ← zpow_add₀ (by norm_num)]; congr 1; ring
    have hxl := pow_le_abs hx0
    rcases lt_or_gt_of_ne hx0 with hneg | hpos
    · exfalso
      have : |x| ≤ |y| := by
        rw [abs_of_neg hneg, abs_of_neg (lt_of_le_of_lt hyx hneg)]; linarith
      linarith
    · have h1 : (2 : K) ^ (Int.log 2 |x|) ≤ down p x := by
        obtain ⟨q, rfl⟩ : ∃ q, p = q + 1 := ⟨p - 1, by omega⟩
        have he : (2 : K) ^ (Int.log 2 |x|) = ((2 ^ q : ℤ) : K) * ulp (q + 1) x := by
          unfold ulp; push_cast
          rw [← zpow_natCast, ← zpow_add₀ (by norm_num)]; congr 1; push_cast; ring
        unfold down
        rw [he]
        gcongr
        rw [Int.le_floor, le_div_iff₀ hu, ← he]
        rwa [abs_of_pos hpos] at hxl ⊢
      have := le_abs_self y
      linarith

theorem le_up (p : ℕ) (x : K) : x ≤ up p x := by
  have := down_le p (-x); unfold up; linarith

theorem rep_up {p : ℕ} (hp : 1 ≤ p) (x : K) : Rep p (up p x) := rep_neg (rep_down hp _)

theorem up_min {p : ℕ} (hp : 1 ≤ p) (x y : K) (hy : Rep p y) (h : x ≤ y) : up p x ≤ y := by
  have := down_max hp (-x) (-y) (rep_neg hy) (by linarith)
  unfold up; linarith

theorem near_cases (p : ℕ) (x : K) : near p x = down p x ∨ near p x = up p x := by
  unfold near; split_ifs <;> simp

theorem near_le (p : ℕ) (x : K) :
    |near p x - x| ≤ x - down p x ∧ |near p x - x| ≤ up p x - x := by
  have h1 := down_le p x
  have h2 := le_up p x
  have e1 : |down p x - x| = x - down p x := by rw [abs_sub_comm, abs_of_nonneg (by linarith)]
  have e2 : |up p x - x| = up p x - x := by rw [abs_of_nonneg (by linarith)]
  unfold near
  split_ifs <;> constructor <;> (first | rw [e1] | rw [e2]) <;> linarith

/-- Rounding to `p` significant bits meets the contract `Rounding`. -/
def rounding (p : ℕ) (hp : 1 ≤ p) : Rounding K where
  Rep := Rep p
  down := down p
  up := up p
  near := near p
  rep_down := rep_down hp
  rep_up := rep_up hp
  down_le := down_le p
  le_up := le_up p
  down_max := down_max hp
  up_min := up_min hp
  near_cases := near_cases p
  near_down x := (near_le p x).1
  near_up x := (near_le p x).2
  rep_zero := rep_zero p
  rep_one := rep_one hp
  rep_neg _ := rep_neg
  rep_half _ := rep_half
  rep_two _ := rep_two

end PBit

namespace Rounding

variable {K : Type*} [Field K] [LinearOrder K] [IsStrictOrderedRing K] (R : Rounding K)

theorem down_of_rep {x : K} (h : R.Rep x) : R.down x = x :=
  le_antisymm (R.down_le x) (R.down_max x x h le_rfl)

theorem up_of_rep {x : K} (h : R.Rep x) : R.up x = x :=
  le_antisymm (R.up_min x x h le_rfl) (R.le_up x)

theorem near_of_rep {x : K} (h : R.Rep x) : R.near x = x := by
  rcases R.near_cases x with e | e <;> rw [e]
  exacts [R.down_of_rep h, R.up_of_rep h]

theorem rep_near (x : K) : R.Rep (R.near x) := by
  rcases R.near_cases x with e | e <;> rw [e]
  exacts [R.rep_down x, R.rep_up x]

theorem down_mono {x y : K} (h : x ≤ y) : R.down x ≤ R.down y :=
  R.down_max _ _ (R.rep_down x) ((R.down_le x).trans h)

theorem up_mono {x y : K} (h : x ≤ y) : R.up x ≤ R.up y :=
  R.up_min _ _ (R.rep_up y) (h.trans (R.le_up y))

theorem down_le_of_le {x y : K} (h : x ≤ y) : R.down x ≤ y := (R.down_le x).trans h
theorem le_up_of_le {x y : K} (h : x ≤ y) : x ≤ R.up y := h.trans (R.le_up y)

theorem up_neg (x : K) : R.up (-x) = -R.down x := by
  apply le_antisymm
  · exact R.up_min _ _ (R.rep_neg _ (R.rep_down x)) (neg_le_neg (R.down_le x))
  · have := R.down_max x (-R.up (-x)) (R.rep_neg _ (R.rep_up _))
      (by have := R.le_up (-x); linarith)
    linarith

theorem down_neg (x : K) : R.down (-x) = -R.up x := by
  have := R.up_neg (-x); rw [neg_neg] at this; rw [this, neg_neg]

theorem near_nearest (x y : K) (hy : R.Rep y) : |R.near x - x| ≤ |y - x| := by
  rcases le_total y x with h | h
  · have h1 := R.down_max x y hy h
    rw [abs_sub_comm y x, abs_of_nonneg (a := x - y) (by linarith)]
    have := R.near_down x; linarith
  · have h1 := R.up_min x y hy h
    rw [abs_of_nonneg (sub_nonneg.2 h)]
    have := R.near_up x; linarith

theorem near_mono {x y : K} (h : x ≤ y) : R.near x ≤ R.near y := by
  by_contra hc
  push Not at hc
  have hx := R.near_nearest x (R.near y) (R.rep_near y)
  have hy := R.near_nearest y (R.near x) (R.rep_near x)
  -- both values are at the same distance from both arguments, so `x = y`
  rcases lt_or_eq_of_le h with hlt | rfl
  · rcases le_total (R.near x) x with a | a
    · have : R.near y ≤ x := le_of_lt (lt_of_lt_of_le hc a)
      rw [abs_of_nonpos (by linarith), abs_of_nonpos (by linarith)] at hy
      linarith
    · rcases le_total (R.near y) y with b | b
      · rw [abs_of_nonneg (by linarith)] at hx
        rw [abs_of_nonpos (by linarith)] at hy
        rcases le_total x (R.near y) with c | c
        · rw [abs_of_nonneg (by linarith)] at hx; linarith
        · rw [abs_of_nonpos (by linarith)] at hx
          rcases le_total (R.near x) y with d | d
          · rw [abs_of_nonpos (by linarith)] at hy; linarith
          · rw [abs_of_nonneg (by linarith)] at hy
            linarith
      · have : y ≤ R.near x := by linarith
        rw [abs_of_nonneg (by linarith), abs_of_nonneg (by linarith)] at hx
        linarith
  · exact lt_irrefl _ hc

end Rounding

/-! ## The property -/

section C45
variable {K : Type*} [Field K] [LinearOrder K] [IsStrictOrderedRing K] [FloorRing K]

/-- C45, direction down: the result has at most `p` bits, is below the argument,
and every `p`-bit number below the argument is below the result. -/
theorem C45_down (p : ℕ) (hp : 1 ≤ p) (x : K) :
    IsGreatest {y : K | PBit.Rep p y ∧ y ≤ x} (PBit.down p x) :=
  ⟨⟨PBit.rep_down hp x, PBit.down_le p x⟩, fun y hy => PBit.down_max hp x y hy.1 hy.2⟩

/-- C45, direction up. -/
theorem C45_up (p : ℕ) (hp : 1 ≤ p) (x : K) :
    IsLeast {y : K | PBit.Rep p y ∧ x ≤ y} (PBit.up p x) :=
  ⟨⟨PBit.rep_up hp x, PBit.le_up p x⟩, fun y hy => PBit.up_min hp x y hy.1 hy.2⟩

/-- C45, nearest: a `p`-bit number as close to the argument as any `p`-bit number. -/
theorem C45_near (p : ℕ) (hp : 1 ≤ p) (x : K) :
    PBit.Rep p (PBit.near p x) ∧
      ∀ y : K, PBit.Rep p y → |PBit.near p x - x| ≤ |y - x| :=
  ⟨(PBit.rounding p hp).rep_near x, (PBit.rounding p hp).near_nearest x⟩

/-- C45: the three roundings are monotone. -/
theorem C45_monotone (p : ℕ) (hp : 1 ≤ p) :
    Monotone (PBit.down p : K → K) ∧ Monotone (PBit.up p : K → K) ∧
      Monotone (PBit.near p : K → K) :=
  ⟨fun _ _ h => (PBit.rounding p hp).down_mono h, fun _ _ h => (PBit.rounding p hp).up_mono h,
    fun _ _ h => (PBit.rounding p hp).near_mono h⟩

/-- C45: the three roundings leave `p`-bit numbers unchanged. -/
theorem C45_identity (p : ℕ) (hp : 1 ≤ p) (x : K) (hx : PBit.Rep p x) :
    PBit.down p x = x ∧ PBit.up p x = x ∧ PBit.near p x = x :=
  ⟨(PBit.rounding p hp).down_of_rep hx, (PBit.rounding p hp).up_of_rep hx,
    (PBit.rounding p hp).near_of_rep hx⟩

/-- C45: the relative error of a directed rounding is below `2^(1-p)`. -/
theorem C45_relative_error (p : ℕ) (x : K) (hx : x ≠ 0) :
    x - PBit.down p x < 2 ^ (1 - (p : ℤ)) * |x| ∧
      PBit.up p x - x < 2 ^ (1 - (p : ℤ)) * |x| := by
  have key : ∀ y : K, y ≠ 0 → y - PBit.down p y < 2 ^ (1 - (p : ℤ)) * |y| := by
    intro y hy
    have h1 := PBit.lt_down_add p y
    have h2 : PBit.ulp p y ≤ 2 ^ (1 - (p : ℤ)) * |y| := by
      have e : PBit.ulp p y = 2 ^ (1 - (p : ℤ)) * 2 ^ (Int.log 2 |y|) := by
        unfold PBit.ulp; rw [← zpow_add₀ (by norm_num)]; congr 1; ring
      rw [e]
      have := PBit.pow_le_abs hy
      gcongr
    linarith
  refine ⟨key x hx, ?_⟩
  have := key (-x) (neg_ne_zero.2 hx)
  rw [abs_neg] at this
  unfold PBit.up; linarith

/-- A case that needs rounding: `11/2` is not a two-bit number. -/
example : PBit.Rep 2 (6 : ℚ) ∧ ¬ PBit.Rep 2 ((11 : ℚ) / 2) := by
  refine ⟨⟨3, 1, by norm_num, by norm_num⟩, ?_⟩
  rintro ⟨m, e, h, hm⟩
  have hm' : |m| < 4 := by simpa using hm
  rw [abs_lt] at hm'
  obtain ⟨h1, h2⟩ := hm'
  have hpos : (0 : ℚ) < 2 ^ e := by positivity
  rcases le_or_gt 0 e with he | he
  · obtain ⟨k, rfl⟩ := Int.eq_ofNat_of_zero_le he
    rw [zpow_natCast] at h
    have h3 : (11 : ℚ) = ((2 * m * 2 ^ k : ℤ) : ℚ) := by push_cast; linarith
    have h4 : (11 : ℤ) = 2 * m * 2 ^ k := by exact_mod_cast h3
    have h5 : (11 : ℤ) = 2 * (m * 2 ^ k) := by rw [h4]; ring
    omega
  · have : (2 : ℚ) ^ e ≤ 1 := by
      rw [← zpow_zero (2 : ℚ)]; exact zpow_le_zpow_right₀ (by norm_num) he.le
    have h3 : (m : ℚ) ≤ 3 := by exact_mod_cast (by omega : m ≤ 3)
    nlinarith

end C45
end Ariadne
