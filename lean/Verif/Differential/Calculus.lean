import Verif.Differential.Compose
import Mathlib.Algebra.MvPolynomial.PDeriv
import Mathlib.Algebra.CharZero.Defs
/-!
# C44: derivatives, antiderivatives and Lie derivatives of differentials
-/
namespace Verif.Differential
open Verif.Expansion MvPolynomial

variable {n m : Nat} {K : Type*} [Field K] [DecidableEq K]

/-! ### Indices -/

omit [Field K] [DecidableEq K] in
theorem mono_setIx (a : MIndex n) (i : Fin n) {k : Nat} (hk : k ≤ 65535) :
    mono (setIx a i k) = (mono a).update i k := by
  ext j
  rw [mono_apply, getIx_setIx, wrap_small hk, Finsupp.update_apply, mono_apply]
  by_cases h : i = j
  · subst h; simp
  · rw [if_neg h, if_neg (fun e => h e.symm)]

omit [Field K] [DecidableEq K] in
/-- Decreasing a component. -/
theorem mono_pred (a : MIndex n) (i : Fin n) (h0 : getIx a i ≠ 0) (hs : a.1.sum ≤ 65535) :
    mono (setIx a i (getIx a i - 1)) + Finsupp.single i 1 = mono a := by
  have hi := getIx_le_sum a i
  rw [mono_setIx _ _ (by omega)]
  ext j
  rw [Finsupp.add_apply, Finsupp.update_apply, Finsupp.single_apply]
  by_cases h : i = j
  · subst h; simp [mono_apply]; omega
  · rw [if_neg h, if_neg (fun e => h e.symm), add_zero]

omit [Field K] [DecidableEq K] in
/-- Increasing a component. -/
theorem mono_succ (a : MIndex n) (i : Fin n) (hs : a.1.sum < 65535) :
    mono (setIx a i (getIx a i + 1)) = mono a + Finsupp.single i 1 := by
  have hi := getIx_le_sum a i
  rw [mono_setIx _ _ (by omega)]
  ext j
  rw [Finsupp.add_apply, Finsupp.update_apply, Finsupp.single_apply]
  by_cases h : i = j
  · subst h; simp [mono_apply]
  · rw [if_neg h, if_neg (fun e => h e.symm), add_zero]

/-! ### Derivative -/

theorem derivStep_fold (x : Diff n K) (i : Fin n) (hx : WF x) (h1 : 1 ≤ x.deg)
    (l : Terms (MIndex n) K) (hl : ∀ t ∈ l, t.1.1.sum ≤ x.deg) (r : Diff n K) (hr : WF r)
    (hd : r.deg = x.deg - 1) :
    WF (l.foldl (derivStep x i) r) ∧ (l.foldl (derivStep x i) r).deg = x.deg - 1 ∧
    ∀ f, (poly (l.foldl (derivStep x i) r)).coeff f =
      if ∃ t ∈ l, mono t.1 = f + Finsupp.single i 1 then
        (pderiv i (poly x)).coeff f else (poly r).coeff f := by
  induction l generalizing r with
  | nil => exact ⟨hr, hd, fun f => by simp⟩
  | cons t l ih =>
    have ht := hl t (by simp)
    have ht' : t.1.1.sum ≤ 65535 := ht.trans hx.small
    simp only [List.foldl_cons]
    by_cases h0 : getIx t.1 i ≠ 0
    · have hm := mono_pred t.1 i h0 ht'
      have hsum : (setIx t.1 i (getIx t.1 i - 1)).1.sum + 1 = t.1.1.sum := by
        rw [← degree_mono, ← degree_mono, ← hm, map_add, Finsupp.degree_single]
      obtain ⟨s1, s2, s3⟩ := setCoef_spec hr (setIx t.1 i (getIx t.1 i - 1))
        (by omega) (coef x t.1 * ((getIx t.1 i : ℕ) : K))
      have hstep : derivStep x i r t = setCoef r (setIx t.1 i (getIx t.1 i - 1))
          (coef x t.1 * ((getIx t.1 i : ℕ) : K)) := by
        unfold derivStep; simp only; rw [if_pos h0]
      rw [hstep]
      obtain ⟨i1, i2, i3⟩ := ih (fun u hu => hl u (by simp [hu])) _ s1 (by rw [s2, hd])
      refine ⟨i1, i2, fun f => ?_⟩
      rw [i3]
      by_cases hex : ∃ u ∈ l, mono u.1 = f + Finsupp.single i 1
      · rw [if_pos hex, if_pos]
        obtain ⟨u, hu, e⟩ := hex
        exact ⟨u, by simp [hu], e⟩
      · rw [if_neg hex]
        have hs := s3 (ofMono f)
        rw [mono_ofMono] at hs
        rw [hs]
        by_cases he : ofMono f = setIx t.1 i (getIx t.1 i - 1)
        · have hf : f = mono (setIx t.1 i (getIx t.1 i - 1)) := by rw [← he, mono_ofMono]
          rw [if_pos he, if_pos ⟨t, by simp, by rw [hf, hm]⟩, coeff_pderiv]
          have hfi : f i + 1 = getIx t.1 i := by
            have : (f + Finsupp.single i 1 : Fin n →₀ ℕ) i = getIx t.1 i := by
              rw [hf, hm, mono_apply]
            simpa using this
          rw [hf, hm, ← hf, coef_eq hx, ← hfi]
          push_cast; ring
        · rw [if_neg he, if_neg]
          rintro ⟨u, hu, e⟩
          rcases List.mem_cons.1 hu with rfl | hu
          · apply he
            rw [← mono_inj, mono_ofMono]
            rw [← hm] at e
            exact (add_right_cancel e).symm
          · exact hex ⟨u, hu, e⟩
    · have hstep : derivStep x i r t = r := by
        unfold derivStep; simp only; rw [if_neg h0]
      rw [hstep]
      obtain ⟨i1, i2, i3⟩ := ih (fun u hu => hl u (by simp [hu])) _ hr hd
      refine ⟨i1, i2, fun f => ?_⟩
      rw [i3]
      congr 1
      apply propext
      constructor
      · rintro ⟨u, hu, e⟩; exact ⟨u, by simp [hu], e⟩
      · rintro ⟨u, hu, e⟩
        rcases List.mem_cons.1 hu with rfl | hu
        · exfalso
          apply h0
          intro h00
          have : mono u.1 i = (f + Finsupp.single i 1 : Fin n →₀ ℕ) i := by rw [e]
          rw [mono_apply, h00] at this
          simp at this
        · exact ⟨u, hu, e⟩

theorem deriv_spec {x : Diff n K} (hx : WF x) (i : Fin n) :
    WF (deriv x i) ∧ (deriv x i).deg = x.deg - 1 ∧ poly (deriv x i) = pderiv i (poly x) := by
  unfold deriv
  by_cases h0 : x.deg = 0
  · rw [if_pos h0]
    refine ⟨(rep_zero (by omega)).1, by rw [h0]; rfl, ?_⟩
    show (0 : MvPolynomial (Fin n) K) = _
    ext f
    rw [coeff_pderiv, hx.coeff_high, zero_mul, coeff_zero]
    rw [h0, map_add, Finsupp.degree_single]; omega
  · rw [if_neg h0]
    obtain ⟨h1, h2, h3⟩ := derivStep_fold x i hx (by omega) x.terms hx.low (zero (x.deg - 1))
      (rep_zero (by have := hx.small; omega)).1 rfl
    refine ⟨h1, h2, ?_⟩
    ext f
    rw [h3]
    split_ifs with h
    · rfl
    · show (0 : K) = _
      rw [coeff_pderiv, ← mono_ofMono (f + Finsupp.single i 1), poly, coeff_toPoly, coeff_eq_zero,
        zero_mul]
      intro t ht e
      exact h ⟨t, ht, by rw [e, mono_ofMono]⟩

theorem Cong.pderiv {d : Nat} {p q : MvPolynomial (Fin n) K} (h : Cong (d + 1) p q) (i : Fin n) :
    Cong d (MvPolynomial.pderiv i p) (MvPolynomial.pderiv i q) := by
  intro f hf
  rw [coeff_pderiv, coeff_pderiv, h]
  rw [map_add, Finsupp.degree_single]; omega

/-- **C44** (derivative): the derivative of the polynomial, of degree one less. -/
theorem C44_derivative (x : Diff n K) (p : MvPolynomial (Fin n) K) (hx : Rep x p) (h1 : 1 ≤ x.deg)
    (i : Fin n) :
    Rep (deriv x i) (pderiv i p) ∧ (deriv x i).deg + 1 = x.deg := by
  obtain ⟨a1, a2, a3⟩ := deriv_spec hx.1 i
  refine ⟨⟨a1, ?_⟩, by omega⟩
  rw [a2, a3]
  apply Cong.pderiv
  rw [Nat.sub_add_cancel h1]
  exact hx.2

/-! ### Antiderivative -/

theorem antiStep_fold (x : Diff n K) (i : Fin n) (hx : WF x) (h1 : x.deg < 65535)
    (l : Terms (MIndex n) K) (hl : ∀ t ∈ l, t.1.1.sum ≤ x.deg) (r : Diff n K) (hr : WF r)
    (hd : r.deg = x.deg + 1) :
    WF (l.foldl (antiStep x i) r) ∧ (l.foldl (antiStep x i) r).deg = x.deg + 1 ∧
    ∀ f, (poly (l.foldl (antiStep x i) r)).coeff f =
      if ∃ t ∈ l, mono t.1 + Finsupp.single i 1 = f then
        (poly x).coeff (f - Finsupp.single i 1) / ((f i : ℕ) : K) else (poly r).coeff f := by
  induction l generalizing r with
  | nil => exact ⟨hr, hd, fun f => by simp⟩
  | cons t l ih =>
    have ht := hl t (by simp)
    simp only [List.foldl_cons]
    have hm := mono_succ t.1 i (by omega)
    have hsum : (setIx t.1 i (getIx t.1 i + 1)).1.sum = t.1.1.sum + 1 := by
      rw [← degree_mono, ← degree_mono, hm, map_add, Finsupp.degree_single]
    obtain ⟨s1, s2, s3⟩ := setCoef_spec hr (setIx t.1 i (getIx t.1 i + 1))
      (by omega) (coef x t.1 / ((getIx (setIx t.1 i (getIx t.1 i + 1)) i : ℕ) : K))
    have hstep : antiStep x i r t = setCoef r (setIx t.1 i (getIx t.1 i + 1))
          (coef x t.1 / ((getIx (setIx t.1 i (getIx t.1 i + 1)) i : ℕ) : K)) := rfl
    rw [hstep]
    obtain ⟨i1, i2, i3⟩ := ih (fun u hu => hl u (by simp [hu])) _ s1 (by rw [s2, hd])
    refine ⟨i1, i2, fun f => ?_⟩
    rw [i3]
    by_cases hex : ∃ u ∈ l, mono u.1 + Finsupp.single i 1 = f
    · rw [if_pos hex, if_pos]
      obtain ⟨u, hu, e⟩ := hex
      exact ⟨u, by simp [hu], e⟩
    · rw [if_neg hex]
      have hs := s3 (ofMono f)
      rw [mono_ofMono] at hs
      rw [hs]
      by_cases he : ofMono f = setIx t.1 i (getIx t.1 i + 1)
      · have hf : f = mono t.1 + Finsupp.single i 1 := by rw [← hm, ← he, mono_ofMono]
        rw [if_pos he, if_pos ⟨t, by simp, hf.symm⟩, coef_eq hx]
        congr 2
        · rw [hf, add_tsub_cancel_right]
        · rw [← mono_apply, hm, hf]
      · rw [if_neg he, if_neg]
        rintro ⟨u, hu, e⟩
        rcases List.mem_cons.1 hu with rfl | hu
        · apply he
          rw [← mono_inj, mono_ofMono, hm, e]
        · exact hex ⟨u, hu, e⟩

theorem anti_spec {x : Diff n K} (hx : WF x) (h1 : x.deg < 65535) (i : Fin n) :
    WF (anti x i) ∧ (anti x i).deg = x.deg + 1 ∧
    ∀ f, (poly (anti x i)).coeff f =
      if f i = 0 then 0 else (poly x).coeff (f - Finsupp.single i 1) / ((f i : ℕ) : K) := by
  have hw : wrap (x.deg + 1) = x.deg + 1 := wrap_small (by omega)
  unfold anti
  obtain ⟨h1, h2, h3⟩ := antiStep_fold x i hx h1 x.terms hx.low (zero (wrap (x.deg + 1)))
    (rep_zero (by omega)).1 hw
  refine ⟨h1, h2, fun f => ?_⟩
  rw [h3]
  by_cases h0 : f i = 0
  · rw [if_neg, if_pos h0]
    · rfl
    · rintro ⟨t, _, e⟩
      have : (mono t.1 + Finsupp.single i 1 : Fin n →₀ ℕ) i = f i := by rw [e]
      rw [h0] at this
      simp at this
  · rw [if_neg h0]
    have hf : f - Finsupp.single i 1 + Finsupp.single i 1 = f := by
      apply tsub_add_cancel_of_le
      rw [Finsupp.single_le_iff]; omega
    split_ifs with h
    · rfl
    · show (0 : K) = _
      rw [← mono_ofMono (f - Finsupp.single i 1), poly, coeff_toPoly, coeff_eq_zero, zero_div]
      intro t ht e
      exact h ⟨t, ht, by rw [e, mono_ofMono, hf]⟩

/-- **C44** (antiderivative): the polynomial vanishing for `x_i=0` whose derivative with respect to
`x_i` is the given one, of degree one more. -/
theorem C44_antiderivative_partial [CharZero K] (x : Diff n K) (p : MvPolynomial (Fin n) K)
    (hx : Rep x p) (h1 : x.deg < 65535) (i : Fin n) :
    WF (anti x i) ∧ (anti x i).deg = x.deg + 1 ∧
    Cong x.deg (pderiv i (poly (anti x i))) p ∧
    (∀ f, f i = 0 → (poly (anti x i)).coeff f = 0) ∧
    ∀ q, Cong x.deg (pderiv i q) p → (∀ f, f i = 0 → q.coeff f = 0) → Rep (anti x i) q := by
  obtain ⟨a1, a2, a3⟩ := anti_spec hx.1 h1 i
  refine ⟨a1, a2, ?_, ?_, ?_⟩
  · intro f hf
    rw [coeff_pderiv, a3, if_neg (by simp), add_tsub_cancel_right, hx.2 f hf]
    have : ((f i : ℕ) : K) + 1 ≠ 0 := by exact_mod_cast (f i).succ_ne_zero
    simp only [Finsupp.add_apply, Finsupp.single_eq_same, Nat.cast_add, Nat.cast_one]
    rw [div_mul_cancel₀ _ this]
  · intro f hf
    rw [a3, if_pos hf]
  · intro q hq h0
    refine ⟨a1, ?_⟩
    rw [a2]
    intro f hf
    rw [a3]
    split_ifs with hfi
    · exact (h0 f hfi).symm
    · have e : f - Finsupp.single i 1 + Finsupp.single i 1 = f := by
        apply tsub_add_cancel_of_le
        rw [Finsupp.single_le_iff]; omega
      have hdeg : (f - Finsupp.single i 1).degree ≤ x.deg := by
        have : f.degree = (f - Finsupp.single i 1).degree + 1 := by
          conv_lhs => rw [← e]
          rw [map_add, Finsupp.degree_single]
        omega
      have h2 := hq _ hdeg
      rw [coeff_pderiv, e] at h2
      rw [hx.2 _ hdeg, ← h2]
      have hne : ((f i : ℕ) : K) ≠ 0 := by exact_mod_cast hfi
      have h3 : (((f - Finsupp.single i 1 : Fin n →₀ ℕ) i : ℕ) : K) + 1 = ((f i : ℕ) : K) := by
        have : (f - Finsupp.single i 1 : Fin n →₀ ℕ) i + 1 = f i := by
          rw [Finsupp.tsub_apply, Finsupp.single_eq_same]; omega
        exact_mod_cast this
      rw [h3, mul_div_cancel_right₀ _ hne]

/-- What is missing from `C44_antiderivative_partial`: the degree is a 16-bit number, so the
antiderivative of a differential of degree 65535 has degree zero. -/
theorem C44_antiderivative_wraps (x : Diff n K) (i : Fin n) (h : x.deg = 65535) :
    (anti x i).deg = 0 := by
  have : ∀ (l : Terms (MIndex n) K) (r : Diff n K), (l.foldl (antiStep x i) r).deg = r.deg := by
    intro l
    induction l with
    | nil => intro r; rfl
    | cons t l ih => intro r; rw [List.foldl_cons, ih]; rfl
  unfold anti
  rw [this, h]; rfl

/-! ### Lie derivative -/

omit [Field K] [DecidableEq K] in
theorem gl_pred {a b : MIndex n} {j : Fin n} (h : gl a b = true) (ha : getIx a j ≠ 0)
    (hb : getIx b j ≠ 0) (sa : a.1.sum ≤ 65535) (sb : b.1.sum ≤ 65535) :
    gl (setIx a j (getIx a j - 1)) (setIx b j (getIx b j - 1)) = true := by
  have ma := mono_pred a j ha sa
  have mb := mono_pred b j hb sb
  have sum_a : (setIx a j (getIx a j - 1)).1.sum + 1 = a.1.sum := by
    rw [← degree_mono, ← degree_mono, ← ma, map_add, Finsupp.degree_single]
  have sum_b : (setIx b j (getIx b j - 1)).1.sum + 1 = b.1.sum := by
    rw [← degree_mono, ← degree_mono, ← mb, map_add, Finsupp.degree_single]
  have ea : addIx (setIx a j (getIx a j - 1)) (unitIx j) = a := by
    rw [← mono_inj, mono_addIx (by rw [sum_unitIx]; omega), mono_unitIx, ma]
  have eb : addIx (setIx b j (getIx b j - 1)) (unitIx j) = b := by
    rw [← mono_inj, mono_addIx (by rw [sum_unitIx]; omega), mono_unitIx, mb]
  generalize setIx a j (getIx a j - 1) = a' at *
  generalize setIx b j (getIx b j - 1) = b' at *
  rcases (gl_strict n).total a' b' with h1 | h1 | h1
  · exact h1
  · rw [h1, eb] at ea
    rw [ea, (gl_strict n).irrefl] at h; cases h
  · have h2 := (C22_add_partial b'.1 a'.1 (unitIx j).1 (by rw [a'.2, b'.2])
      (by rw [b'.2, (unitIx j).2]) (by rw [sum_unitIx]; omega) (by rw [sum_unitIx]; omega)).1
    have h3 : gl (addIx b' (unitIx j)) (addIx a' (unitIx j)) = true := h2.trans h1
    rw [ea, eb] at h3
    have := (gl_strict n).trans _ _ _ h h3
    rw [(gl_strict n).irrefl] at this; cases this

omit [DecidableEq K] in
theorem lieTerms_spec {x : Diff n K} (hx : WF x) (j : Fin n) :
    Sorted gl (lieTerms x j) ∧ (∀ t ∈ lieTerms x j, t.1.1.sum + 1 ≤ x.deg) ∧
    toPoly (lieTerms x j) = pderiv j (poly x) := by
  have hmem : ∀ t ∈ x.terms.filter (fun t => decide (getIx t.1 j ≠ 0)),
      t ∈ x.terms ∧ getIx t.1 j ≠ 0 := by
    intro t ht
    have := List.mem_filter.1 ht
    exact ⟨this.1, of_decide_eq_true this.2⟩
  refine ⟨?_, ?_, ?_⟩
  · unfold lieTerms Sorted
    rw [List.pairwise_map]
    have h1 : (x.terms.filter (fun t => decide (getIx t.1 j ≠ 0))).Pairwise
        (fun s t => gl s.1 t.1 = true) := List.Pairwise.sublist List.filter_sublist hx.sorted
    refine List.Pairwise.imp_of_mem ?_ h1
    intro s t hs ht hst
    exact gl_pred hst (hmem s hs).2 (hmem t ht).2 (hx.fits s (hmem s hs).1) (hx.fits t (hmem t ht).1)
  · intro t ht
    obtain ⟨u, hu, rfl⟩ := List.mem_map.1 ht
    have h1 := hmem u hu
    have h2 := mono_pred u.1 j h1.2 (hx.fits u h1.1)
    have h3 := hx.low u h1.1
    rw [← degree_mono, ← h2, map_add, Finsupp.degree_single, degree_mono] at h3
    exact h3
  · have key : ∀ l : Terms (MIndex n) K, (∀ t ∈ l, t.1.1.sum ≤ 65535) →
        toPoly ((l.filter (fun t => decide (getIx t.1 j ≠ 0))).map (fun t =>
          (setIx t.1 j (getIx t.1 j - 1), t.2 * (getIx t.1 j : K)))) = pderiv j (toPoly l) := by
      intro l hl
      induction l with
      | nil => simp
      | cons t l ih =>
        have ih' := ih (fun u hu => hl u (by simp [hu]))
        rw [toPoly_cons, map_add, pderiv_monomial, ← ih']
        by_cases h0 : getIx t.1 j ≠ 0
        · rw [List.filter_cons_of_pos (by simpa using h0), List.map_cons, toPoly_cons]
          have h2 := mono_pred t.1 j h0 (hl t (by simp))
          simp only
          rw [← h2, add_tsub_cancel_right]
          congr 3
          have : (mono (setIx t.1 j (getIx t.1 j - 1)) + Finsupp.single j 1 : Fin n →₀ ℕ) j
              = getIx t.1 j := by rw [h2, mono_apply]
          rw [this]
        · rw [List.filter_cons_of_neg (by simpa using h0)]
          rw [not_not] at h0
          rw [mono_apply, h0]
          simp
    exact key x.terms hx.fits

/-- **C44** (Lie derivative): component by component the derivative of `f` in the direction `g`, to
the lesser of the degree of `f` less one and the degree of `g`. -/
theorem C44_lie_derivative_partial (x : Diff n K) (dg : Fin n → Diff n K)
    (p : MvPolynomial (Fin n) K) (q : Fin n → MvPolynomial (Fin n) K) (e : Nat) (hx : Rep x p)
    (h1 : 1 ≤ x.deg) (hg : ∀ j, Rep (dg j) (q j)) (he : ∀ j, (dg j).deg = e) (h0 : 0 < n) :
    Rep (lie x.deg x dg) (∑ j, pderiv j p * q j) ∧
      (lie x.deg x dg).deg = min (x.deg - 1) e := by
  have hpred : pred16 x.deg = x.deg - 1 := by unfold pred16; rw [if_neg (by omega)]
  unfold lie
  rw [hpred]
  have ht : ∀ j, Rep (⟨x.deg - 1, lieTerms x j⟩ : Diff n K) (pderiv j p) := by
    intro j
    obtain ⟨a1, a2, a3⟩ := lieTerms_spec hx.1 j
    refine ⟨⟨a1, fun t ht => ?_, ?_⟩, ?_⟩
    · have := a2 t ht; simp only; omega
    · have := hx.1.small; simp only; omega
    · rw [poly]; simp only; rw [a3]
      apply Cong.pderiv
      rw [Nat.sub_add_cancel h1]
      exact hx.2
  have key : ∀ (l : List (Fin n)) (r : Diff n K) (R : MvPolynomial (Fin n) K) (d : Nat),
      Rep r R → r.deg = d → min (x.deg - 1) e ≤ d →
      Rep (l.foldl (fun r j => add r (mul ⟨x.deg - 1, lieTerms x j⟩ (dg j))) r)
        (R + (l.map (fun j => pderiv j p * q j)).sum) ∧
      (l.foldl (fun r j => add r (mul ⟨x.deg - 1, lieTerms x j⟩ (dg j))) r).deg =
        if l = [] then d else min (x.deg - 1) e := by
    intro l
    induction l with
    | nil => intro r R d hr hd _; simpa using ⟨hr, hd⟩
    | cons j l ih =>
      intro r R d hr hd hle
      obtain ⟨m1, m2⟩ := C44_mul _ _ _ _ (ht j) (hg j)
      obtain ⟨a1, a2⟩ := C44_add _ _ _ _ hr m1
      have had : (add r (mul ⟨x.deg - 1, lieTerms x j⟩ (dg j))).deg = min (x.deg - 1) e := by
        rw [a2, m2, hd, he j]; simp only; omega
      obtain ⟨i1, i2⟩ := ih _ _ _ a1 had (le_refl _)
      simp only [List.foldl_cons, List.map_cons, List.sum_cons]
      rw [← add_assoc]
      refine ⟨i1, ?_⟩
      rw [i2, if_neg (List.cons_ne_nil _ _)]
      split_ifs <;> rfl
  obtain ⟨k1, k2⟩ := key (List.finRange n) (zero (x.deg - 1)) 0 (x.deg - 1)
    (rep_zero (by have := hx.1.small; omega)) rfl (min_le_left _ _)
  rw [zero_add, ← List.ofFn_eq_map, List.sum_ofFn] at k1
  rw [if_neg (by intro h; have := congrArg List.length h; simp at this; omega)] at k2
  exact ⟨k1, k2⟩

/-- What is missing from `C44_lie_derivative_partial`: for differentials of degree zero the degree
wraps around, and the result claims the degree of `g`. -/
theorem C44_lie_degree_zero (c v : K) :
    (lie 0 (const 0 c : Diff 1 K) (fun _ => const 3 v)).deg = 3 := rfl

end Verif.Differential
