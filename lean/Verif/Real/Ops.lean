import Verif.Real.Limits

/-!
# The operators are sound and tight
-/

namespace Verif.RealNumber

open Ariadne (Ext Bounds XRounding)
open Ariadne.Ext (fin)
open Filter Topology

/-! ## Sound operators -/

section sound

variable (fl : Floats)

theorem opPos_sound : opPos.Sound fl := by
  rintro pr X x y - h rfl -
  exact Bounds.C05_pos h

theorem opNeg_sound : opNeg.Sound fl := by
  rintro pr X x y - h rfl -
  exact Bounds.C05_neg h

theorem opHlf_sound : opHlf.Sound fl := by
  rintro pr X x y - h rfl -
  exact Bounds.C05_hlf h

theorem opSqr_sound : opSqr.Sound fl := by
  rintro pr X x y - h rfl -
  exact Bounds.C05_sqr _ h

theorem opRec_sound : opRec.Sound fl := by
  rintro pr X x y - h ⟨-, rfl⟩ -
  exact Bounds.C06_rec _ h

theorem opAbs_sound : opAbs.Sound fl := by
  rintro pr X x y - h rfl -
  exact Bounds.C05_abs h

theorem opPow_sound (n : ℤ) : (opPow n).Sound fl := by
  rintro pr X x y - h ⟨-, rfl⟩ -
  exact Bounds.C06_pow_int _ n h

theorem opAdd_sound : opAdd.Sound fl := by
  rintro pr X Y x y z - - h h' rfl -
  exact Bounds.C05_add _ h h'

theorem opSub_sound : opSub.Sound fl := by
  rintro pr X Y x y z - - h h' rfl -
  exact Bounds.C05_sub _ h h'

theorem opMul_sound : opMul.Sound fl := by
  rintro pr X Y x y z - - h h' rfl hn
  exact Bounds.C05_mul_extended _ h h' hn

theorem opDiv_sound : opDiv.Sound fl := by
  rintro pr X Y x y z - - h h' ⟨-, rfl⟩ -
  exact Bounds.C06_div _ h h'

theorem opMax_sound : opMax.Sound fl := by
  rintro pr X Y x y z - - h h' rfl -
  exact Bounds.C05_max h h'

theorem opMin_sound : opMin.Sound fl := by
  rintro pr X Y x y z - - h h' rfl -
  exact Bounds.C05_min h h'

end sound

/-! ## Tight operators -/

section limits

variable {ι : Type*} {F : Filter ι} {f : ι → Ext ℝ} {rnd : ι → ℝ → Ext ℝ} {x y : ℝ}

theorem not_lt_of_lt_ext {a b : Ext ℝ} (h : Ext.lt a b = true) : ¬ Ext.lt b a = true := by
  cases a <;> cases b <;> simp_all [Ext.lt]
  exact h.le

theorem nE_abs (hf : Tendsto f F (nE x)) : Tendsto (fun i => (f i).abs) F (nE |x|) := by
  obtain ⟨f', e, t⟩ := tendsto_nE.1 hf
  refine Tendsto.congr' ?_ (nE_fin t.abs)
  filter_upwards [e] with i h
  rw [h]; rfl

theorem nE_powPosLoop (hr : FineR F rnd) (m : ℕ) : ∀ (r p : ι → Ext ℝ) (A P : ℝ), Tendsto r F (nE A) →
    Tendsto p F (nE P) → Tendsto (fun i => Ext.powPosLoop (rnd i) m (r i) (p i)) F (nE (A * P ^ m)) := by
  induction m using Nat.strong_induction_on with
  | _ m ih =>
    intro r p A P hA hP
    by_cases h0 : m = 0
    · subst h0
      have : (fun i => Ext.powPosLoop (rnd i) 0 (r i) (p i)) = r := by
        funext i; rw [Ext.powPosLoop]; simp
      rw [this]; simpa using hA
    · have : (fun i => Ext.powPosLoop (rnd i) m (r i) (p i)) = fun i => Ext.powPosLoop (rnd i) (m / 2)
          (if m % 2 = 1 then Ext.mul (rnd i) (r i) (p i) else r i) (Ext.mul (rnd i) (p i) (p i)) := by
        funext i; rw [Ext.powPosLoop]; simp [h0]
      rw [this]
      by_cases h1 : m % 2 = 1
      · simp only [if_pos h1]
        have := ih (m / 2) (by omega) _ _ _ _ (nE_mul hr hA hP) (nE_mul hr hP hP)
        have e : A * P * (P * P) ^ (m / 2) = A * P ^ m := by
          rw [← pow_two, ← pow_mul, mul_assoc, ← pow_succ']; congr 2; omega
        rwa [e] at this
      · simp only [if_neg h1]
        have := ih (m / 2) (by omega) _ _ _ _ hA (nE_mul hr hP hP)
        have e : A * (P * P) ^ (m / 2) = A * P ^ m := by
          rw [← pow_two, ← pow_mul]; congr 2; omega
        rwa [e] at this

theorem nE_powNegLoop (hr : FineR F rnd) (m : ℕ) : ∀ (r p : ι → Ext ℝ) (A P : ℝ), Tendsto r F (nE A) →
    Tendsto p F (nE P) → Tendsto (fun i => Ext.powNegLoop (rnd i) m (r i) (p i)) F (nE (A * (-P) ^ m)) := by
  induction m using Nat.strong_induction_on with
  | _ m ih =>
    intro r p A P hA hP
    by_cases h0 : m = 0
    · subst h0
      have : (fun i => Ext.powNegLoop (rnd i) 0 (r i) (p i)) = r := by
        funext i; rw [Ext.powNegLoop]; simp
      rw [this]; simpa using hA
    · have : (fun i => Ext.powNegLoop (rnd i) m (r i) (p i)) = fun i => Ext.powNegLoop (rnd i) (m / 2)
          (if m % 2 = 1 then Ext.mul (rnd i) (r i).neg (p i) else r i) (Ext.mul (rnd i) (p i).neg (p i)) := by
        funext i; rw [Ext.powNegLoop]; simp [h0]
      rw [this]
      by_cases h1 : m % 2 = 1
      · simp only [if_pos h1]
        have := ih (m / 2) (by omega) _ _ _ _ (nE_mul hr (nE_neg hA) hP) (nE_mul hr (nE_neg hP) hP)
        have e : -A * P * (-(-P * P)) ^ (m / 2) = A * (-P) ^ m := by
          have : -(-P * P) = (-P) ^ 2 := by ring
          rw [this, ← pow_mul]
          have : -A * P = A * (-P) := by ring
          rw [this, mul_assoc, ← pow_succ']; congr 2; omega
        rwa [e] at this
      · simp only [if_neg h1]
        have := ih (m / 2) (by omega) _ _ _ _ hA (nE_mul hr (nE_neg hP) hP)
        have e : A * (-(-P * P)) ^ (m / 2) = A * (-P) ^ m := by
          have : -(-P * P) = (-P) ^ 2 := by ring
          rw [this, ← pow_mul]; congr 2; omega
        rwa [e] at this

theorem nE_pow (hr : FineR F rnd) (hf : Tendsto f F (nE x)) (m : ℕ) :
    Tendsto (fun i => Ext.pow (rnd i) (f i) m) F (nE (x ^ m)) := by
  by_cases h0 : m = 0
  · subst h0
    simp only [Ext.pow, if_true, pow_zero]
    exact nE_const 1
  have h1 : Tendsto (fun i => Ext.powPosLoop (rnd i) m (fin 1) (f i).abs) F (nE (|x| ^ m)) := by
    simpa using nE_powPosLoop hr m _ _ _ _ (nE_const 1) (nE_abs hf)
  have h2 : Tendsto (fun i => Ext.powNegLoop (rnd i) m (fin (-1)) (f i)) F (nE (-1 * (-x) ^ m)) :=
    nE_powNegLoop hr m _ _ _ _ (nE_const (-1)) hf
  have e : ∀ i, Ext.pow (rnd i) (f i) m = if Ext.eq (f i) (fin 0) = true then fin 0
      else if (Ext.lt (fin 0) (f i) || m % 2 == 0) = true then Ext.powPosLoop (rnd i) m (fin 1) (f i).abs
      else Ext.powNegLoop (rnd i) m (fin (-1)) (f i) := by
    intro i; unfold Ext.pow; rw [if_neg h0]
  simp only [e]
  rcases eq_or_ne x 0 with rfl | hx
  · rw [zero_pow h0]
    rw [abs_zero, zero_pow h0] at h1
    rw [neg_zero, zero_pow h0, mul_zero] at h2
    exact Tendsto.if' (nE_const 0) (Tendsto.if' h1 h2)
  · have ne : ∀ᶠ i in F, ¬ Ext.eq (f i) (fin 0) = true := by
      obtain ⟨f', e, t⟩ := tendsto_nE.1 hf
      filter_upwards [e, t.eventually_ne hx] with i h h'
      rw [h]; simpa [Ext.eq] using h'
    by_cases hm : m % 2 = 0
    · have : |x| ^ m = x ^ m := (Nat.even_iff.2 hm).pow_abs x
      rw [this] at h1
      refine Tendsto.congr' ?_ h1
      filter_upwards [ne] with i hi
      rw [if_neg hi, if_pos (by simp [hm])]
    · rcases lt_or_gt_of_ne hx with h | h
      · have : -1 * (-x) ^ m = x ^ m := by
          rw [(Nat.odd_iff.2 (by omega) : Odd m).neg_pow]; ring
        rw [this] at h2
        refine Tendsto.congr' ?_ h2
        filter_upwards [ne, nE_lt hf (nE_const 0) h] with i hi hl
        rw [if_neg hi, if_neg]
        simp [not_lt_of_lt_ext hl, hm]
      · rw [abs_of_pos h] at h1
        refine Tendsto.congr' ?_ h1
        filter_upwards [ne, nE_lt (nE_const 0) hf h] with i hi hl
        rw [if_neg hi, if_pos (by simp [hl])]

variable {B C : ι → Bounds ℝ} {R : ι → XRounding ℝ}

theorem nB_mk {f g : ι → Ext ℝ} (hf : Tendsto f F (nE x)) (hg : Tendsto g F (nE x)) :
    Tendsto (fun i => (⟨f i, g i⟩ : Bounds ℝ)) F (nB x) := tendsto_nB.2 ⟨hf, hg⟩

theorem lt_of_pos (hB : Tendsto B F (nB x)) (hx : 0 < x) :
    (∀ᶠ i in F, Ext.lt (fin 0) (B i).l = true) ∧ ∀ᶠ i in F, Ext.lt (fin 0) (B i).u = true :=
  ⟨nE_lt (nE_const 0) (tendsto_nB.1 hB).1 hx, nE_lt (nE_const 0) (tendsto_nB.1 hB).2 hx⟩

theorem lt_of_neg (hB : Tendsto B F (nB x)) (hx : x < 0) :
    (∀ᶠ i in F, Ext.lt (B i).l (fin 0) = true) ∧ ∀ᶠ i in F, Ext.lt (B i).u (fin 0) = true :=
  ⟨nE_lt (tendsto_nB.1 hB).1 (nE_const 0) hx, nE_lt (tendsto_nB.1 hB).2 (nE_const 0) hx⟩

theorem le_of_lt_ext {a b : Ext ℝ} (h : Ext.lt a b = true) : Ext.le a b = true := by
  cases a <;> cases b <;> simp_all [Ext.lt, Ext.le]
  exact h.le

theorem not_le_of_lt_ext {a b : Ext ℝ} (h : Ext.lt a b = true) : ¬ Ext.le b a = true := by
  cases a <;> cases b <;> simp_all [Ext.lt, Ext.le]

theorem nB_neg (hB : Tendsto B F (nB x)) : Tendsto (fun i => (B i).neg) F (nB (-x)) :=
  nB_mk (nE_neg (tendsto_nB.1 hB).2) (nE_neg (tendsto_nB.1 hB).1)

theorem nB_hlf (hB : Tendsto B F (nB x)) : Tendsto (fun i => (B i).hlf) F (nB (x / 2)) :=
  nB_mk (nE_hlf (tendsto_nB.1 hB).1) (nE_hlf (tendsto_nB.1 hB).2)

theorem nB_abs (hB : Tendsto B F (nB x)) : Tendsto (fun i => (B i).abs) F (nB |x|) := by
  obtain ⟨hl, hu⟩ := tendsto_nB.1 hB
  unfold Bounds.abs
  rcases lt_trichotomy x 0 with h | rfl | h
  · rw [abs_of_neg h]
    refine Tendsto.congr' ?_ (nB_mk (nE_neg hu) (nE_neg hl))
    filter_upwards [(lt_of_neg hB h).1, (lt_of_neg hB h).2] with i h1 h2
    rw [if_neg (not_le_of_lt_ext h1), if_pos (le_of_lt_ext h2)]
  · rw [abs_zero]
    have nl := nE_neg hl
    have nu := nE_neg hu
    rw [neg_zero] at nl nu
    refine Tendsto.if' (nB_mk hl hu) (Tendsto.if' (nB_mk nu nl) (nB_mk (nE_const 0) ?_))
    simpa using nE_max nl hu
  · rw [abs_of_pos h]
    refine Tendsto.congr' ?_ (nB_mk hl hu)
    filter_upwards [(lt_of_pos hB h).1] with i h1
    rw [if_pos (le_of_lt_ext h1)]

variable (hd : FineR F fun i => (R i).down) (hu : FineR F fun i => (R i).up)

include hd hu

theorem nB_add (hB : Tendsto B F (nB x)) (hC : Tendsto C F (nB y)) :
    Tendsto (fun i => Bounds.add (R i) (B i) (C i)) F (nB (x + y)) :=
  nB_mk (nE_add hd (tendsto_nB.1 hB).1 (tendsto_nB.1 hC).1) (nE_add hu (tendsto_nB.1 hB).2 (tendsto_nB.1 hC).2)

theorem nB_sub (hB : Tendsto B F (nB x)) (hC : Tendsto C F (nB y)) :
    Tendsto (fun i => Bounds.sub (R i) (B i) (C i)) F (nB (x - y)) :=
  nB_mk (nE_sub hd (tendsto_nB.1 hB).1 (tendsto_nB.1 hC).2) (nE_sub hu (tendsto_nB.1 hB).2 (tendsto_nB.1 hC).1)

theorem nB_sqr (hB : Tendsto B F (nB x)) : Tendsto (fun i => Bounds.sqr (R i) (B i)) F (nB (x ^ 2)) := by
  obtain ⟨bl, bu⟩ := tendsto_nB.1 hB
  have ll := nE_mul hd bl bl
  have uu := nE_mul hd bu bu
  have ll' := nE_mul hu bl bl
  have uu' := nE_mul hu bu bu
  unfold Bounds.sqr
  rw [pow_two]
  rcases lt_trichotomy x 0 with h | rfl | h
  · refine Tendsto.congr' ?_ (nB_mk uu ll')
    filter_upwards [(lt_of_neg hB h).1, (lt_of_neg hB h).2] with i h1 h2
    rw [if_neg (not_lt_of_lt_ext h1), if_pos h2]
  · refine Tendsto.if' (nB_mk ll uu') (Tendsto.if' (nB_mk uu ll') ?_)
    rw [mul_zero] at *
    exact nB_mk (nE_const 0) (by simpa using nE_max ll' uu')
  · refine Tendsto.congr' ?_ (nB_mk ll uu')
    filter_upwards [(lt_of_pos hB h).1] with i h1
    rw [if_pos h1]

theorem nB_mul (hB : Tendsto B F (nB x)) (hC : Tendsto C F (nB y)) :
    Tendsto (fun i => Bounds.mul (R i) (B i) (C i)) F (nB (x * y)) := by
  obtain ⟨bl, bu⟩ := tendsto_nB.1 hB
  obtain ⟨cl, cu⟩ := tendsto_nB.1 hC
  unfold Bounds.mul
  have mm : ∀ {f g : ι → Ext ℝ}, Tendsto f F (nE (x * y)) → Tendsto g F (nE (x * y)) →
      Tendsto (fun i => Ext.min (f i) (g i)) F (nE (x * y)) := by
    intro f g a b; simpa using nE_min a b
  have mx : ∀ {f g : ι → Ext ℝ}, Tendsto f F (nE (x * y)) → Tendsto g F (nE (x * y)) →
      Tendsto (fun i => Ext.max (f i) (g i)) F (nE (x * y)) := by
    intro f g a b; simpa using nE_max a b
  refine Tendsto.if' (Tendsto.if' ?_ (Tendsto.if' ?_ ?_)) (Tendsto.if' (Tendsto.if' ?_ (Tendsto.if' ?_ ?_))
    (Tendsto.if' ?_ (Tendsto.if' ?_ ?_)))
  · exact nB_mk (nE_mul hd bl cl) (nE_mul hu bu cu)
  · exact nB_mk (nE_mul hd bu cl) (nE_mul hu bl cu)
  · exact nB_mk (nE_mul hd bu cl) (nE_mul hu bu cu)
  · exact nB_mk (nE_mul hd bl cu) (nE_mul hu bu cl)
  · exact nB_mk (nE_mul hd bu cu) (nE_mul hu bl cl)
  · exact nB_mk (nE_mul hd bl cu) (nE_mul hu bl cl)
  · exact nB_mk (nE_mul hd bl cu) (nE_mul hu bu cu)
  · exact nB_mk (nE_mul hd bu cl) (nE_mul hu bl cl)
  · exact nB_mk (mm (nE_mul hd bu cl) (nE_mul hd bl cu)) (mx (nE_mul hu bl cl) (nE_mul hu bu cu))

theorem nB_recip (hB : Tendsto B F (nB x)) (hx : x ≠ 0) :
    Tendsto (fun i => Bounds.recip (R i) (B i)) F (nB (1 / x)) := by
  obtain ⟨bl, bu⟩ := tendsto_nB.1 hB
  unfold Bounds.recip Ext.recip
  refine Tendsto.congr' ?_ (nB_mk (nE_div hd (nE_const 1) bu hx) (nE_div hu (nE_const 1) bl hx))
  rcases lt_or_gt_of_ne hx with h | h
  · filter_upwards [(lt_of_neg hB h).2] with i h2
    rw [if_pos (by simp [h2])]
  · filter_upwards [(lt_of_pos hB h).1] with i h2
    rw [if_pos (by simp [h2])]

theorem nB_div (hB : Tendsto B F (nB x)) (hC : Tendsto C F (nB y)) (hy : y ≠ 0) :
    Tendsto (fun i => Bounds.div (R i) (B i) (C i)) F (nB (x / y)) := by
  obtain ⟨bl, bu⟩ := tendsto_nB.1 hB
  obtain ⟨cl, cu⟩ := tendsto_nB.1 hC
  rcases lt_or_gt_of_ne hy with h | h
  · have : Tendsto (fun i => if Ext.le (fin 0) (B i).l then ⟨Ext.div (R i).down (B i).u (C i).u, Ext.div (R i).up (B i).l (C i).l⟩
        else if Ext.le (B i).u (fin 0) then ⟨Ext.div (R i).down (B i).u (C i).l, Ext.div (R i).up (B i).l (C i).u⟩
        else (⟨Ext.div (R i).down (B i).u (C i).u, Ext.div (R i).up (B i).l (C i).u⟩ : Bounds ℝ)) F (nB (x / y)) :=
      Tendsto.if' (nB_mk (nE_div hd bu cu hy) (nE_div hu bl cl hy))
        (Tendsto.if' (nB_mk (nE_div hd bu cl hy) (nE_div hu bl cu hy))
          (nB_mk (nE_div hd bu cu hy) (nE_div hu bl cu hy)))
    refine Tendsto.congr' ?_ this
    filter_upwards [(lt_of_neg hC h).1, (lt_of_neg hC h).2] with i h1 h2
    unfold Bounds.div
    rw [if_neg (not_lt_of_lt_ext h1), if_pos h2]
  · have : Tendsto (fun i => if Ext.le (fin 0) (B i).l then ⟨Ext.div (R i).down (B i).l (C i).u, Ext.div (R i).up (B i).u (C i).l⟩
        else if Ext.le (B i).u (fin 0) then ⟨Ext.div (R i).down (B i).l (C i).l, Ext.div (R i).up (B i).u (C i).u⟩
        else (⟨Ext.div (R i).down (B i).l (C i).l, Ext.div (R i).up (B i).u (C i).l⟩ : Bounds ℝ)) F (nB (x / y)) :=
      Tendsto.if' (nB_mk (nE_div hd bl cu hy) (nE_div hu bu cl hy))
        (Tendsto.if' (nB_mk (nE_div hd bl cl hy) (nE_div hu bu cu hy))
          (nB_mk (nE_div hd bl cl hy) (nE_div hu bu cl hy)))
    refine Tendsto.congr' ?_ this
    filter_upwards [(lt_of_pos hC h).1] with i h1
    unfold Bounds.div
    rw [if_pos h1]

theorem nB_pow (hB : Tendsto B F (nB x)) (m : ℕ) :
    Tendsto (fun i => Bounds.pow (R i) (B i) m) F (nB (x ^ m)) := by
  unfold Bounds.pow
  by_cases h : m % 2 = 0
  · simp only [if_pos h]
    have hA := tendsto_nB.1 (nB_abs hB)
    rw [← (Nat.even_iff.2 h).pow_abs x]
    exact nB_mk (nE_pow hd hA.1 m) (nE_pow hu hA.2 m)
  · simp only [if_neg h]
    have hA := tendsto_nB.1 hB
    exact nB_mk (nE_pow hd hA.1 m) (nE_pow hu hA.2 m)

theorem nB_powInt (hB : Tendsto B F (nB x)) (n : ℤ) (hx : n < 0 → x ≠ 0) :
    Tendsto (fun i => Bounds.powInt (R i) (B i) n) F (nB (x ^ n)) := by
  unfold Bounds.powInt
  by_cases h : n < 0
  · simp only [if_pos h]
    have := nB_pow hd hu (nB_recip hd hu hB (hx h)) (-n).toNat
    have e : (1 / x) ^ (-n).toNat = x ^ n := by
      obtain ⟨k, hk⟩ : ∃ k : ℕ, n = -(k : ℤ) := ⟨(-n).toNat, by omega⟩
      subst hk; simp
    rwa [e] at this
  · simp only [if_neg h]
    have := nB_pow hd hu hB n.toNat
    have e : x ^ n.toNat = x ^ n := by
      obtain ⟨k, hk⟩ : ∃ k : ℕ, n = (k : ℤ) := ⟨n.toNat, by omega⟩
      subst hk; simp
    rwa [e] at this

end limits

section tight

variable {fl : Floats} (hf : Fine fl)

theorem opPos_tight : opPos.Tight fl := by
  rw [Op1.tight_iff]
  rintro x y rfl
  exact tendsto_snd

theorem opNeg_tight : opNeg.Tight fl := by
  rw [Op1.tight_iff]
  rintro x y rfl
  exact nB_neg tendsto_snd

theorem opHlf_tight : opHlf.Tight fl := by
  rw [Op1.tight_iff]
  rintro x y rfl
  exact nB_hlf tendsto_snd

theorem opAbs_tight : opAbs.Tight fl := by
  rw [Op1.tight_iff]
  rintro x y rfl
  exact nB_abs tendsto_snd

theorem opMax_tight : opMax.Tight fl := by
  rw [Op2.tight_iff]
  rintro x y z rfl
  have h1 := tendsto_nB.1 (tendsto_fst.comp tendsto_snd : Tendsto (fun t : ℕ × Bounds ℝ × Bounds ℝ => t.2.1)
    (atTop ×ˢ nB x ×ˢ nB y) (nB x))
  have h2 := tendsto_nB.1 (tendsto_snd.comp tendsto_snd : Tendsto (fun t : ℕ × Bounds ℝ × Bounds ℝ => t.2.2)
    (atTop ×ˢ nB x ×ˢ nB y) (nB y))
  exact nB_mk (nE_max h1.1 h2.1) (nE_max h1.2 h2.2)

theorem opMin_tight : opMin.Tight fl := by
  rw [Op2.tight_iff]
  rintro x y z rfl
  have h1 := tendsto_nB.1 (tendsto_fst.comp tendsto_snd : Tendsto (fun t : ℕ × Bounds ℝ × Bounds ℝ => t.2.1)
    (atTop ×ˢ nB x ×ˢ nB y) (nB x))
  have h2 := tendsto_nB.1 (tendsto_snd.comp tendsto_snd : Tendsto (fun t : ℕ × Bounds ℝ × Bounds ℝ => t.2.2)
    (atTop ×ˢ nB x ×ˢ nB y) (nB y))
  exact nB_mk (nE_min h1.1 h2.1) (nE_min h1.2 h2.2)

include hf

theorem opSqr_tight : opSqr.Tight fl := by
  rw [Op1.tight_iff]
  rintro x y rfl
  exact nB_sqr (hf.down tendsto_fst) (hf.up tendsto_fst) tendsto_snd

theorem opRec_tight : opRec.Tight fl := by
  rw [Op1.tight_iff]
  rintro x y ⟨h, rfl⟩
  exact nB_recip (hf.down tendsto_fst) (hf.up tendsto_fst) tendsto_snd h

theorem opPow_tight (n : ℤ) : (opPow n).Tight fl := by
  rw [Op1.tight_iff]
  rintro x y ⟨h, rfl⟩
  exact nB_powInt (hf.down tendsto_fst) (hf.up tendsto_fst) tendsto_snd n h

theorem opAdd_tight : opAdd.Tight fl := by
  rw [Op2.tight_iff]
  rintro x y z rfl
  exact nB_add (hf.down tendsto_fst) (hf.up tendsto_fst) (tendsto_fst.comp tendsto_snd) (tendsto_snd.comp tendsto_snd)

theorem opSub_tight : opSub.Tight fl := by
  rw [Op2.tight_iff]
  rintro x y z rfl
  exact nB_sub (hf.down tendsto_fst) (hf.up tendsto_fst) (tendsto_fst.comp tendsto_snd) (tendsto_snd.comp tendsto_snd)

theorem opMul_tight : opMul.Tight fl := by
  rw [Op2.tight_iff]
  rintro x y z rfl
  exact nB_mul (hf.down tendsto_fst) (hf.up tendsto_fst) (tendsto_fst.comp tendsto_snd) (tendsto_snd.comp tendsto_snd)

theorem opDiv_tight : opDiv.Tight fl := by
  rw [Op2.tight_iff]
  rintro x y z ⟨h, rfl⟩
  exact nB_div (hf.down tendsto_fst) (hf.up tendsto_fst) (tendsto_fst.comp tendsto_snd) (tendsto_snd.comp tendsto_snd) h

end tight

end Verif.RealNumber
