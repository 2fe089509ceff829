import Verif.Real.Finite

/-!
# C77: examples and counterexamples
-/

namespace Verif.RealNumber

open Ariadne (Ext Bounds XRounding IsLower IsUpper Describes)
open Ariadne.Logical (LV)
open Ariadne.Ext (fin)
open Filter Topology

/-! ## Floating-point numbers with `p` bits -/

/-- Double precision with 53 bits (without overflow), multiple precision with the given number of bits. -/
noncomputable def pbits : Floats
  | .dp => XRounding.ofRounding (Ariadne.PBit.rounding 53 (by norm_num))
  | .mp p => XRounding.ofRounding (Ariadne.PBit.rounding (max p 1) (le_max_right _ _))

theorem pbits_error (q : ℕ) (hq : 1 ≤ q) (w : ℝ) :
    |Ariadne.PBit.down q w - w| ≤ (1 / 2) ^ (q - 1) * |w| ∧ |Ariadne.PBit.up q w - w| ≤ (1 / 2) ^ (q - 1) * |w| := by
  have e : (2 : ℝ) ^ (1 - (q : ℤ)) = (1 / 2) ^ (q - 1) := by
    rw [show (1 - (q : ℤ)) = -((q - 1 : ℕ) : ℤ) by omega, zpow_neg, zpow_natCast]; simp
  have h1 := (Ariadne.PBit.rounding q hq).down_le w
  have h2 := (Ariadne.PBit.rounding q hq).le_up w
  have h1' : Ariadne.PBit.down q w ≤ w := h1
  have h2' : w ≤ Ariadne.PBit.up q w := h2
  rcases eq_or_ne w 0 with rfl | hw
  · obtain ⟨a, b, -⟩ := Ariadne.C45_identity q hq (0 : ℝ) (Ariadne.PBit.rounding q hq).rep_zero
    rw [a, b]; simp
  · obtain ⟨a, b⟩ := Ariadne.C45_relative_error q w hw
    rw [e] at a b
    rw [abs_le, abs_le]
    refine ⟨⟨by linarith, ?_⟩, ?_, by linarith⟩
    · have : 0 ≤ (1 / 2 : ℝ) ^ (q - 1) * |w| := by positivity
      linarith
    · have : 0 ≤ (1 / 2 : ℝ) ^ (q - 1) * |w| := by positivity
      linarith

/-- C77: rounding to `p` bits is fine. -/
theorem C77_pbits_fine : Fine pbits := by
  intro v ε hε
  have t : Tendsto (fun p : ℕ => (1 / 2 : ℝ) ^ (p - 1) * (|v| + 1)) atTop (𝓝 (0 * (|v| + 1))) := by
    refine Tendsto.mul_const _ ?_
    exact (tendsto_pow_atTop_nhds_zero_of_lt_one (by norm_num) (by norm_num)).comp (tendsto_sub_atTop_nat 1)
  rw [zero_mul] at t
  obtain ⟨N, hN⟩ := eventually_atTop.1 (t.eventually_lt_const (show (0 : ℝ) < ε / 2 by linarith))
  refine ⟨max N 1, min 1 (ε / 2), lt_min one_pos (by linarith), fun p hp w hw => ?_⟩
  have hp1 : 1 ≤ p := (le_max_right _ _).trans hp
  have hm : max p 1 = p := max_eq_left hp1
  have h1 := hN p ((le_max_left _ _).trans hp)
  have hw1 : |w - v| < 1 := hw.trans_le (min_le_left _ _)
  have hw2 : |w - v| < ε / 2 := hw.trans_le (min_le_right _ _)
  have hwv : |w| ≤ |v| + 1 := by
    have := abs_sub_abs_le_abs_sub w v
    linarith
  have h3 : (1 / 2 : ℝ) ^ (p - 1) * |w| < ε / 2 := lt_of_le_of_lt (by gcongr) h1
  obtain ⟨a, b⟩ := pbits_error (max p 1) (le_max_right _ _) w
  rw [hm] at a b
  refine ⟨⟨Ariadne.PBit.down (max p 1) w, rfl, ?_⟩, Ariadne.PBit.up (max p 1) w, rfl, ?_⟩
  · rw [hm]
    calc |Ariadne.PBit.down p w - v| = |(Ariadne.PBit.down p w - w) + (w - v)| := by congr 1; ring
      _ ≤ _ := abs_add_le _ _
      _ < ε := by linarith
  · rw [hm]
    calc |Ariadne.PBit.up p w - v| = |(Ariadne.PBit.up p w - w) + (w - v)| := by congr 1; ring
      _ ≤ _ := abs_add_le _ _
      _ < ε := by linarith

/-! ## Examples -/

/-- `1/3 + (1/3)*(1/3)`, and minus `1/3`. -/
noncomputable def ninths : Re := .bin opAdd (.cnst (1 / 3)) (.bin opMul (.cnst (1 / 3)) (.cnst (1 / 3)))
noncomputable def minusThird : Re := .un opNeg (.cnst (1 / 3))

theorem ninths_denotes : Denotes ninths (4 / 9) := by
  refine ⟨1 / 3, 1 / 9, rfl, ⟨1 / 3, 1 / 3, rfl, rfl, ?_⟩, ?_⟩
  · show (1 / 9 : ℝ) = 1 / 3 * (1 / 3); norm_num
  · show (4 / 9 : ℝ) = 1 / 3 + 1 / 9; norm_num

theorem minusThird_denotes : Denotes minusThird (-(1 / 3)) := ⟨1 / 3, rfl, rfl⟩

theorem ninths_effective : ninths.Effective pbits :=
  ⟨opAdd_tight C77_pbits_fine, trivial, opMul_tight C77_pbits_fine, trivial, trivial⟩

theorem minusThird_effective : minusThird.Effective pbits := ⟨opNeg_tight, trivial⟩

/-- `C77_effective`, `C77_comparisons_decided`: the bounds converge, and the comparison is decided. -/
example : Converges (code pbits ninths).dy (4 / 9) ∧
    ∃ N, ∀ e ≥ N, compare ltD (code pbits minusThird) (code pbits ninths) e = some .true_ := by
  have h1 := (C77_effective pbits C77_pbits_fine _ _ ninths_effective ninths_denotes).1
  have h2 := (C77_effective pbits C77_pbits_fine _ _ minusThird_effective minusThird_denotes).1
  obtain ⟨N, hN⟩ := C77_comparisons_decided _ _ _ _ h2 h1 (by norm_num)
  exact ⟨h1, N, fun e he => (hN e he).1⟩

/-- `C77_total`, `C77_accuracy`, `C77_accuracy_terminates`: with accuracy 1/100 the computation terminates, and its result contains the
number. -/
example : ∃ b, ComputesTo (code pbits minusThird).dy (1 / 100) b ∧ b.Contains (-(1 / 3)) ∧
    ∃ l u : ℝ, b = ⟨fin l, fin u⟩ ∧ (u - l) / 2 < 1 / 100 := by
  have ht : minusThird.Total pbits := ⟨(C77_total_operators pbits).2.1, trivial⟩
  have hn : ∀ e, ((clean pbits minusThird).dy e).isSome := by
    intro e
    obtain ⟨b, hb, -⟩ := (C77_total pbits _ _ ht minusThird_denotes).2 e
    rw [hb]; rfl
  have hn' : ∀ e, ((code pbits minusThird).dy e).isSome := by
    intro e
    obtain ⟨b, hb⟩ := Option.isSome_iff_exists.1 (hn e)
    rw [(clean_below pbits minusThird).2 _ _ hb]; rfl
  have hc := (C77_effective pbits C77_pbits_fine _ _ minusThird_effective minusThird_denotes).1
  obtain ⟨b, hb⟩ := C77_accuracy_terminates _ _ (1 / 100) (by norm_num) hc hn'
  have := C77_accuracy pbits minusThird _ _ ⟨opNeg_sound _, trivial⟩ minusThird_denotes hn b hb
  exact ⟨b, hb, this.2⟩

/-- `C77_finite`, `C77_comparisons_sound`: the hypotheses are met for every effort, so that no comparison is ever wrong. -/
example (e : ℕ) : ((clean pbits ninths).dy e).isSome ∧
    (∀ v, compare ltD (code pbits minusThird) (code pbits ninths) e = some v → Describes v (-(1 / 3 : ℝ) < 4 / 9)) := by
  have hf : NoOverflow pbits := by intro pr x; cases pr <;> exact ⟨_, _, rfl, rfl⟩
  obtain ⟨k1, k2⟩ := C77_finite_operators pbits hf
  obtain ⟨b, hb, -⟩ := (C77_finite pbits hf ninths _
    ⟨k2 _ (by simp), trivial, k2 _ (by simp), trivial, trivial⟩ ninths_denotes).2 e
  obtain ⟨c, hc, -⟩ := (C77_finite pbits hf minusThird _ ⟨k1 _ (by simp), trivial⟩ minusThird_denotes).2 e
  refine ⟨by rw [hb]; rfl, ?_⟩
  exact (C77_comparisons_sound pbits minusThird ninths _ _ ⟨opNeg_sound _, trivial⟩
    ⟨opAdd_sound _, trivial, opMul_sound _, trivial, trivial⟩ minusThird_denotes ninths_denotes e (by rw [hc]; rfl)
    (by rw [hb]; rfl)).1

/-- `C77_limit`: the limit of the constant numbers `(1/2)^(n+1)` is zero, and the dyadic bounds converge. -/
example : Denotes (.limR fun n => .cnst ((1 / 2) ^ n / 2)) 0 ∧
    Converges (code pbits (.limR fun n => .cnst ((1 / 2) ^ n / 2))).dy 0 := by
  have hc : FastCauchy fun n => (1 / 2 : ℝ) ^ n / 2 := by
    intro m n
    have key : ∀ m n : ℕ, m ≤ n → |(1 / 2 : ℝ) ^ m / 2 - (1 / 2) ^ n / 2| ≤ (1 / 2) ^ m := by
      intro m n h
      have h1 : (1 / 2 : ℝ) ^ n ≤ (1 / 2) ^ m := pow_le_pow_of_le_one (by norm_num) (by norm_num) h
      have h2 : (0 : ℝ) < (1 / 2) ^ n := by positivity
      rw [abs_le]; constructor <;> linarith
    rcases le_total m n with h | h
    · rw [min_eq_left h]; exact key m n h
    · rw [min_eq_right h, abs_sub_comm]; exact key n m h
  have t : Tendsto (fun n : ℕ => (1 / 2 : ℝ) ^ n) atTop (𝓝 0) :=
    tendsto_pow_atTop_nhds_zero_of_lt_one (by norm_num) (by norm_num)
  have ht : Tendsto (fun n => (1 / 2 : ℝ) ^ n / 2) atTop (𝓝 0) := by simpa using t.div_const 2
  refine ⟨⟨fun n => (1 / 2) ^ n / 2, fun n => rfl, hc, ht⟩, C77_limit pbits _ _ 0 hc ht ?_⟩
  intro ε hε
  have h1 : Tendsto (fun e : ℕ => (1 / 2 : ℝ) ^ (e + 1) / 2) atTop (𝓝 0) := ht.comp (tendsto_add_atTop_nat 1)
  obtain ⟨N, hN⟩ := eventually_atTop.1 (h1.eventually_lt_const (show (0 : ℝ) < ε by linarith))
  refine ⟨max N 4, fun e he => ?_⟩
  have h2 := hN e ((le_max_left _ _).trans he)
  have h4 : 4 ≤ e := (le_max_right _ _).trans he
  set c : ℝ := (1 / 2) ^ (e + 1) / 2 with hcdef
  have hc0 : 0 < c := by positivity
  refine ⟨Bounds.ofExact (pbits (.mp (e * 16))) c, ?_, _, _, rfl, ?_, ?_⟩
  · show exprDy (fun pr _ => chk false (Bounds.ofExact (pbits pr) c)) e = _
    unfold exprDy
    rw [if_neg (by omega)]
    exact chk_false _
  · have := (pbits_error (max (e * 16) 1) (le_max_right _ _) c).1
    rw [abs_of_pos hc0] at this
    have h5 : (1 / 2 : ℝ) ^ (max (e * 16) 1 - 1) ≤ 1 := pow_le_one₀ (by norm_num) (by norm_num)
    have h6 : (1 / 2 : ℝ) ^ (max (e * 16) 1 - 1) * c ≤ 1 * c := by gcongr
    exact lt_of_le_of_lt (this.trans (by linarith)) h2
  · have := (pbits_error (max (e * 16) 1) (le_max_right _ _) c).2
    rw [abs_of_pos hc0] at this
    have h5 : (1 / 2 : ℝ) ^ (max (e * 16) 1 - 1) ≤ 1 := pow_le_one₀ (by norm_num) (by norm_num)
    have h6 : (1 / 2 : ℝ) ^ (max (e * 16) 1 - 1) * c ≤ 1 * c := by gcongr
    exact lt_of_le_of_lt (this.trans (by linarith)) h2

/-- The condition `2 > 1`, and the condition `2 < 1` which is refuted from effort 1. -/
def yes : Cond := ⟨True, fun _ => .true_⟩
def no : Cond := ⟨False, fun e => if e = 0 then .indeterminate else .false_⟩
/-- A condition which is refuted with any effort. -/
def never : Cond := ⟨False, fun _ => .false_⟩

theorem yes_ok : yes.Sound ∧ yes.Effective := by
  constructor
  · intro e h; simp [yes, LV.possibly] at h
  · intro h; exact (h trivial).elim

theorem no_ok : no.Sound ∧ no.Effective := by
  constructor
  · intro e h h'; exact h'
  · intro _
    refine ⟨1, fun e he => ?_⟩
    have : e ≠ 0 := by omega
    simp [no, this, LV.possibly]

/-- `C77_effective` for `when`: `when(2>1 => 4/9, 2<1 => -1/3)`. -/
example : Converges (code pbits (.when_ yes no ninths minusThird)).dy (4 / 9) :=
  (C77_effective pbits C77_pbits_fine (.when_ yes no ninths minusThird) _
    ⟨yes_ok.1, no_ok.1, yes_ok.2, no_ok.2, ninths_effective, minusThird_effective⟩
    ⟨Or.inl trivial, fun _ => ninths_denotes, fun h => h.elim⟩).1

/-! ## Counterexamples -/

/-- C77: `when` evaluates both alternatives as long as both conditions are possible, and an alternative whose condition is
false need not have a value: an exception is thrown although the expression denotes a number. -/
theorem C77_when_throws (fl : Floats) :
    let r := Re.when_ yes no (.cnst 1) (.when_ never never (.cnst 0) (.cnst 0))
    Denotes r 1 ∧ r.Sound fl ∧ (code fl r).dy 0 = none ∧ ((code fl r).dy 1).isSome := by
  refine ⟨⟨Or.inl trivial, fun _ => rfl, fun h => h.elim⟩, ⟨yes_ok.1, no_ok.1, trivial, ?_⟩, ?_, ?_⟩
  · exact ⟨fun e _ h => h, fun e _ h => h, trivial, trivial⟩
  · simp [code, Re.ev, whenDy, yes, no, never, LV.possibly]
  · simp [code, Re.ev, whenDy, yes, no, LV.possibly, exprDy, chk_false]

/-- The bounds [-1,1] below effort `2n`, the exact bounds [0,0] from there. -/
noncomputable def lateZero (n e : ℕ) : Bounds ℝ := if e < 2 * n then ⟨fin (-1), fin 1⟩ else ⟨fin 0, fin 0⟩

/-- C77: the limit of a constant sequence of zeros, each of which has converging bounds, need not have converging bounds: the
effort for the `n`-th element is only `n-1`. -/
theorem C77_limit_stalls (fl : Floats) :
    let s := fun n => Re.limB (lateZero n)
    (∀ n, Denotes (s n) 0 ∧ Converges (code fl (s n)).dy 0) ∧ Denotes (.limR s) 0 ∧
      (∀ e b, (code fl (.limR s)).dy e = some b → b.Contains (-1) ∧ b.Contains 1) ∧
      ¬ Converges (code fl (.limR s)).dy 0 := by
  intro s
  have hd : ∀ n, Denotes (s n) 0 := by
    intro n e
    unfold lateZero
    split_ifs
    · exact ⟨show (-1 : ℝ) ≤ 0 by norm_num, show (0 : ℝ) ≤ 1 by norm_num⟩
    · exact ⟨le_refl (0 : ℝ), le_refl (0 : ℝ)⟩
  have he : ∀ e, (code fl (.limR s)).dy e = some (pmD ⟨fin (-1), fin 1⟩ (twoNeg (e + 1))) := by
    intro e
    show (((code fl (s (e + 1))).dy e).bind fun x => chk false (pmD x (twoNeg (e + 1)))) = _
    have : (code fl (s (e + 1))).dy e = some ⟨fin (-1), fin 1⟩ := by
      show chk false (lateZero (e + 1) e) = _
      rw [chk_false]
      unfold lateZero
      rw [if_pos (by omega)]
    rw [this, Option.bind_some, chk_false]
  have hb : ∀ e b, (code fl (.limR s)).dy e = some b → b.Contains (-1) ∧ b.Contains 1 := by
    intro e b h
    rw [he] at h
    obtain rfl := Option.some.inj h
    have := twoNeg_pos (e + 1)
    refine ⟨⟨?_, ?_⟩, ?_, ?_⟩
    · show (-1 : ℝ) + -twoNeg (e + 1) ≤ -1; linarith
    · show (-1 : ℝ) ≤ 1 + twoNeg (e + 1); linarith
    · show (-1 : ℝ) + -twoNeg (e + 1) ≤ 1; linarith
    · show (1 : ℝ) ≤ 1 + twoNeg (e + 1); linarith
  refine ⟨fun n => ⟨hd n, ?_⟩, ⟨fun _ => 0, hd, ?_, tendsto_const_nhds⟩, hb, ?_⟩
  · intro ε hε
    refine ⟨2 * n, fun e h => ⟨⟨fin 0, fin 0⟩, ?_, 0, 0, rfl, by simpa, by simpa⟩⟩
    show chk false (lateZero n e) = _
    rw [chk_false]
    unfold lateZero
    rw [if_neg (by omega)]
  · intro m n; simp
  · intro h
    obtain ⟨N, hN⟩ := h 1 one_pos
    obtain ⟨b, h1, l, u, rfl, h2, h3⟩ := hN N le_rfl
    have h4 : (1 : ℝ) ≤ u := (hb N _ h1).2.2
    rw [abs_lt] at h3
    linarith

/-- C77: arithmetic with a limit of real numbers never becomes accurate: `limit(0,0,...)+0` is zero, but `compute(Accuracy(1))`
does not return for any of the efforts below `2^31`. -/
theorem C77_limit_arithmetic_wrong (fl : Floats) :
    let r := Re.bin opAdd (.limR fun _ => .cnst 0) (.cnst 0)
    Denotes r 0 ∧ r.Sound fl ∧ (∀ e b, e < 2 ^ 31 → (code fl r).dy e = some b → IsUpper b.u (2 ^ 31)) ∧
      ∀ k < 2 ^ 31, accLoop (code fl r).dy 1 k 1 = none := by
  intro r
  have c0 : ∀ pr, (Bounds.ofExact (fl pr) 0).Contains 0 := fun pr => Bounds.C05_ofExact (fl pr) 0
  have hL : ∀ pr e, e < 2 ^ 31 → ∃ L, (code fl (.limR fun _ => .cnst 0)).flt pr e = some L ∧ L.Contains 0 ∧
      IsUpper L.u (2 ^ 31) := by
    intro pr e he
    have h1 : (code fl (.limR fun _ => .cnst 0)).flt pr e = some (Bounds.add (fl pr) (Bounds.ofExact (fl pr) 0)
        (ofEnds (fl pr) (-twoNeg (e + 1)) (xorTerm (e + 1)))) := by
      simp [code, Re.ev, chk_false]
    refine ⟨_, h1, ?_, ?_⟩
    · have h2 : (ofEnds (fl pr) (-twoNeg (e + 1)) (xorTerm (e + 1))).Contains 0 := by
        have := twoNeg_pos (e + 1)
        exact ⟨(fl pr).down_of_le (by linarith), (fl pr).up_of_le (by positivity)⟩
      have := Bounds.C05_add (fl pr) (c0 pr) h2
      rwa [add_zero] at this
    · have := C77_limit_float_wrong fl (fun _ => .cnst 0) pr e he _ 0 (by
        intro c hc
        have : c = Bounds.ofExact (fl pr) 0 := by
          simpa [code, Re.ev, chk_false] using hc.symm
        rw [this]; exact c0 pr) h1
      rwa [zero_add] at this
  have hr : ∀ pr e, e < 2 ^ 31 → ∃ b, (code fl r).flt pr e = some b ∧ b.Contains 0 ∧ IsUpper b.u (2 ^ 31) := by
    intro pr e he
    cases pr with
    | dp =>
      obtain ⟨L, h1, h2, h3⟩ := hL .dp 0 (by norm_num)
      refine ⟨Bounds.add (fl .dp) L (Bounds.ofExact (fl .dp) 0), ?_, ?_, ?_⟩
      · show (((code fl (.limR fun _ => .cnst 0)).flt .dp 0).bind fun x =>
          (some (Bounds.ofExact (fl .dp) 0)).bind fun y => some (Bounds.add (fl .dp) x y)) = _
        rw [h1]; rfl
      · have := Bounds.C05_add (fl .dp) h2 (c0 .dp); rwa [add_zero] at this
      · have := Ariadne.add_up (fl .dp) h3 (c0 .dp).2; rwa [add_zero] at this
    | mp p =>
      obtain ⟨L, h1, h2, h3⟩ := hL (.mp p) e he
      refine ⟨Bounds.add (fl (.mp p)) L (Bounds.ofExact (fl (.mp p)) 0), ?_, ?_, ?_⟩
      · show (((code fl (.limR fun _ => .cnst 0)).flt (.mp p) e).bind fun x =>
          (some (Bounds.ofExact (fl (.mp p)) 0)).bind fun y => some (Bounds.add (fl (.mp p)) x y)) = _
        rw [h1]; rfl
      · have := Bounds.C05_add (fl (.mp p)) h2 (c0 (.mp p)); rwa [add_zero] at this
      · have := Ariadne.add_up (fl (.mp p)) h3 (c0 (.mp p)).2; rwa [add_zero] at this
  have hdy : ∀ e, e < 2 ^ 31 → ∃ b, (code fl r).dy e = some b ∧ b.Contains 0 ∧ IsUpper b.u (2 ^ 31) := by
    intro e he
    show ∃ b, exprDy (code fl r).flt e = some b ∧ _
    unfold exprDy
    by_cases c : e * 16 ≤ 52
    · rw [if_pos c]; exact hr _ _ he
    · rw [if_neg c]; exact hr _ _ he
  refine ⟨⟨0, 0, ⟨fun _ => 0, fun _ => rfl, fun m n => by simp, tendsto_const_nhds⟩, rfl, (add_zero 0).symm⟩,
    ⟨opAdd_sound fl, fun _ => trivial, trivial⟩, ?_, ?_⟩
  · intro e b he hb
    obtain ⟨c, h1, -, h2⟩ := hdy e he
    rw [hb] at h1
    obtain rfl := Option.some.inj h1
    exact h2
  · intro k hk
    by_contra hne
    obtain ⟨b, hb⟩ := Option.ne_none_iff_exists'.1 hne
    obtain ⟨n, h1, h2, h3, h4⟩ := accLoop_some hb
    obtain ⟨c, h5, h6, h7⟩ := hdy n (by omega)
    rw [h3] at h5
    obtain rfl := Option.some.inj h5
    obtain ⟨l, u⟩ := b
    obtain ⟨h6, -⟩ := h6
    rcases l with - | l | - | - <;> rcases u with - | u | - | - <;>
      simp_all [halfWidth, Ext.sub, Ext.add, Ext.neg, Ext.hlf, Ext.lt, IsLower, IsUpper]
    linarith

/-- Bounds of the number one, which at effort zero contain zero. -/
noncomputable def lateOne (e : ℕ) : Bounds ℝ := ⟨fin (1 - 1 / (e + 1)), fin 1⟩

theorem down_rep (R : XRounding ℝ) {x : ℝ} (h : R.Rep x) : R.down x = fin x := by
  have h1 := R.down_le x
  have h2 := R.down_max x x h le_rfl
  cases hd : R.down x <;> simp_all [Ext.le]
  exact le_antisymm h1 h2

theorem up_rep (R : XRounding ℝ) {x : ℝ} (h : R.Rep x) : R.up x = fin x := by
  have h1 := R.le_up x
  have h2 := R.up_min x x h le_rfl
  cases hd : R.up x <;> simp_all [Ext.le]
  exact le_antisymm h2 h1

/-- `max(0,rec(z)*0+1)`, where `z` is one. -/
noncomputable def hidden : Re :=
  .bin opMax (.cnst 0) (.bin opAdd (.bin opMul (.un opRec (.limB lateOne)) (.cnst 0)) (.cnst 1))

/-- C77: a NaN is not noticed: `max(0,rec(z)*0+1)` is one, but if the first bounds of `z` contain zero, then the computed
bounds are `[0,0]`.  The comparison with one is then definitely wrong, and any accuracy is met with the wrong bounds. -/
theorem C77_nan_wrong (fl : Floats) :
    hidden.Sound fl ∧ (Fine fl → hidden.Effective fl) ∧ Denotes hidden 1 ∧
      (code fl hidden).dy 1 = some ⟨fin 0, fin 0⟩ ∧
      compare ltD (code fl hidden) (code fl (.cnst 1)) 1 = some .true_ ∧
      ∀ err > 0, ComputesTo (code fl hidden).dy err ⟨fin 0, fin 0⟩ := by
  have d0 := down_rep (fl .dp) (fl .dp).rep_zero
  have u0 := up_rep (fl .dp) (fl .dp).rep_zero
  have d1 := down_rep (fl .dp) (fl .dp).rep_one
  have u1 := up_rep (fl .dp) (fl .dp).rep_one
  have h1 : ((Re.limB lateOne).ev fl false).get .dp = some ⟨fin 0, fin 1⟩ := by
    show chk false (roundB (fl .dp) (lateOne 0)) = _
    rw [chk_false]
    simp [roundB, roundExt, lateOne, d0, u1]
  have h2 : ∀ e, ((Re.un opRec (.limB lateOne)).ev fl false).flt .dp e = some ⟨.ninf, .pinf⟩ := by
    intro e
    show ((((Re.limB lateOne).ev fl false).get .dp).bind fun x => chk false (Bounds.recip (fl .dp) x)) = _
    rw [h1, Option.bind_some, chk_false]
    simp [Bounds.recip, Ext.lt]
  have hc0 : ∀ e, ((Re.cnst 0).ev fl false).flt .dp e = some ⟨fin 0, fin 0⟩ := by
    intro e
    show chk false (Bounds.ofExact (fl .dp) 0) = _
    rw [chk_false, Bounds.ofExact, d0, u0]
  have hc1 : ∀ e, ((Re.cnst 1).ev fl false).flt .dp e = some ⟨fin 1, fin 1⟩ := by
    intro e
    show chk false (Bounds.ofExact (fl .dp) 1) = _
    rw [chk_false, Bounds.ofExact, d1, u1]
  have h3 : ∀ e, ((Re.bin opMul (.un opRec (.limB lateOne)) (.cnst 0)).ev fl false).flt .dp e = some ⟨.nan, .nan⟩ := by
    intro e
    show (((Re.un opRec (.limB lateOne)).ev fl false).flt .dp 0).bind (fun x => (((Re.cnst 0).ev fl false).flt .dp 0).bind
      fun y => chk false (Bounds.mul (fl .dp) x y)) = _
    rw [h2, hc0, Option.bind_some, Option.bind_some, chk_false]
    simp [Bounds.mul, Ext.le, Ext.mul, Ext.infSign]
  have h4 : ∀ e, ((Re.bin opAdd (.bin opMul (.un opRec (.limB lateOne)) (.cnst 0)) (.cnst 1)).ev fl false).flt .dp e =
      some ⟨.nan, .nan⟩ := by
    intro e
    show (((Re.bin opMul (.un opRec (.limB lateOne)) (.cnst 0)).ev fl false).flt .dp 0).bind (fun x =>
      (((Re.cnst 1).ev fl false).flt .dp 0).bind fun y => chk false (Bounds.add (fl .dp) x y)) = _
    rw [h3, hc1, Option.bind_some, Option.bind_some, chk_false]
    simp [Bounds.add, Ext.add]
  have h5 : ∀ e, (code fl hidden).flt .dp e = some ⟨fin 0, fin 0⟩ := by
    intro e
    show (((Re.cnst 0).ev fl false).flt .dp 0).bind (fun x =>
      (((Re.bin opAdd (.bin opMul (.un opRec (.limB lateOne)) (.cnst 0)) (.cnst 1)).ev fl false).flt .dp 0).bind fun y =>
        chk false (Bounds.max x y)) = _
    rw [h4, hc0, Option.bind_some, Option.bind_some, chk_false]
    simp [Bounds.max, Ext.max, Ext.lt]
  have hdy : (code fl hidden).dy 1 = some ⟨fin 0, fin 0⟩ := by
    show exprDy (code fl hidden).flt 1 = _
    unfold exprDy
    rw [if_pos (by norm_num)]
    exact h5 1
  have hcont : ∀ e, (lateOne e).Contains 1 := by
    intro e
    refine ⟨?_, le_refl (1 : ℝ)⟩
    show 1 - 1 / ((e : ℝ) + 1) ≤ 1
    have : 0 < 1 / ((e : ℝ) + 1) := by positivity
    linarith
  have hsh : Shrinks lateOne := by
    intro ε hε
    have t := tendsto_one_div_add_atTop_nhds_zero_nat (𝕜 := ℝ)
    obtain ⟨N, hN⟩ := eventually_atTop.1 (t.eventually_lt_const hε)
    refine ⟨N, fun n hn => ⟨_, _, rfl, ?_⟩⟩
    have := hN n hn
    linarith
  refine ⟨⟨opMax_sound fl, trivial, opAdd_sound fl, ⟨opMul_sound fl, ⟨opRec_sound fl, trivial⟩, trivial⟩, trivial⟩, ?_, ?_,
    hdy, ?_, ?_⟩
  · intro hf
    exact ⟨opMax_tight, trivial, opAdd_tight hf, ⟨opMul_tight hf, ⟨opRec_tight hf, hsh⟩, trivial⟩, trivial⟩
  · refine ⟨0, 1, rfl, ⟨0, 1, ⟨1, 0, ⟨1, hcont, ?_⟩, rfl, ?_⟩, rfl, ?_⟩, ?_⟩
    · show (1 : ℝ) ≠ 0 ∧ (1 : ℝ) = 1 / 1; norm_num
    · show (0 : ℝ) = 1 * 0; norm_num
    · show (1 : ℝ) = 0 + 1; norm_num
    · show (1 : ℝ) = max 0 1; norm_num
  · have h6 : (code fl (.cnst 1)).dy 1 = some ⟨fin 1, fin 1⟩ := by
      show exprDy (code fl (.cnst 1)).flt 1 = _
      unfold exprDy
      rw [if_pos (by norm_num)]
      exact hc1 1
    simp [compare, hdy, h6, ltD, Ext.lt]
  · intro err herr
    refine ⟨1, ?_⟩
    simp only [accLoop, hdy, Option.bind_some]
    rw [if_pos]
    simp [halfWidth, Ext.sub, Ext.add, Ext.neg, Ext.hlf, Ext.lt, herr]

end Verif.RealNumber
