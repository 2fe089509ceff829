import Verif.Polynomial.Props
import Mathlib.Data.List.Perm.Basic
import Mathlib.Algebra.MvPolynomial.Eval
import Mathlib.Algebra.BigOperators.Fin
import Mathlib.Data.List.OfFn
import Mathlib.Data.Fin.Tuple.Basic

/-!
# Derivatives, truncation, clean-up, evaluation and composition of polynomials
-/

namespace Verif.Polynomial

open Verif.Expansion

section Calc
variable {n : Nat} {K X : Type*} [Field K] [Zero X] {A : Coef X} {In : K → X → Prop}

/-! ### Derivatives -/

/-- **C89** (derivative): the terms of the derivative sum to the derivative.  What is missing: a term
without the variable stays in the list with coefficient zero and its old index, so that the result
need be neither sorted nor free of repeated indices, see `C89_derivative_invariant`. -/
theorem C89_differentiate_partial (hA : Sound A In) (p : Terms (MIndex n) X)
    (f : MvPolynomial (Fin n) K) (hp : Encl In p f) (j : Fin n) :
    Encl In (differentiate A p j) (MvPolynomial.pderiv j f) := by
  obtain ⟨d, h1, rfl⟩ := hp
  refine ⟨d.map (fun t => (decIdx t.1 j, t.2 * (t.1.1.getD j 0 : ℕ))), ?_, ?_⟩
  · unfold differentiate
    induction h1 with
    | nil => exact .nil
    | cons h _ ih =>
      refine .cons ⟨by simp only [h.1], ?_⟩ ih
      simp only [h.1]
      exact hA.mulNat _ _ _ h.2
  · clear h1
    induction d with
    | nil => simp
    | cons t d ih =>
      simp only [List.map_cons, toMv_cons, ih, map_add, MvPolynomial.pderiv_monomial, expo_dec]
      rfl

/-- **C89** (antiderivative): while the degrees stay below `2^16`, the antiderivative stands for the
polynomial with the given derivative and no term free of the variable; sorted terms stay sorted. -/
theorem C89_antidifferentiate_partial [CharZero K] (hA : Sound A In) (p : Terms (MIndex n) X)
    (f : MvPolynomial (Fin n) K) (hp : Encl In p f) (j : Fin n)
    (hd : ∀ t ∈ p, t.1.1.sum + 1 < 65536) :
    (∃ g, Encl In (antidifferentiate A p j) g ∧ MvPolynomial.pderiv j g = f ∧
      ∀ m : Fin n →₀ ℕ, m j = 0 → MvPolynomial.coeff m g = 0) ∧
      (Sorted lt p → Sorted lt (antidifferentiate A p j)) := by
  have hinc : ∀ a : MIndex n, a.1.sum + 1 < 65536 →
      expo (incIdx a j) = expo a + Finsupp.single j 1 := by
    intro a ha
    rw [incIdx_eq a j ha, expo_add _ _ (by rw [sum_unit]; exact ha), expo_unit]
  have hget : ∀ a : MIndex n, (incIdx a j).1.getD j 0 = expo (incIdx a j) j := fun a => rfl
  constructor
  · obtain ⟨d, h1, rfl⟩ := hp
    have hd' : ∀ t ∈ d, t.1.1.sum + 1 < 65536 := by
      intro s hs
      have : s.1 ∈ p.map Prod.fst := by rw [← h1.idx]; exact List.mem_map_of_mem hs
      obtain ⟨t, ht, e⟩ := List.mem_map.1 this
      rw [← e]; exact hd t ht
    refine ⟨_, ⟨d.map (fun t => (incIdx t.1 j, t.2 / ((incIdx t.1 j).1.getD j 0 : ℕ))), ?_, rfl⟩,
      ?_, ?_⟩
    · unfold antidifferentiate
      clear hd
      induction h1 with
      | nil => exact .nil
      | @cons s t d p h _ ih =>
        refine .cons ⟨by simp only [h.1], ?_⟩ (ih (fun u hu => hd' u (by simp [hu])))
        simp only [← h.1]
        refine hA.divNat _ _ _ ?_ h.2
        rw [hget, hinc _ (hd' s (by simp))]
        simp
    · clear h1 hd
      induction d with
      | nil => simp
      | cons t d ih =>
        have ht := hd' t (by simp)
        simp only [List.map_cons, toMv_cons, map_add, MvPolynomial.pderiv_monomial]
        rw [ih (fun u hu => hd' u (by simp [hu])), hget, hinc _ ht]
        congr 2
        · simp
        · have h0 : (expo t.1 + Finsupp.single j 1 : Fin n →₀ ℕ) j ≠ 0 := by simp
          exact div_mul_cancel₀ _ (Nat.cast_ne_zero.2 h0)
    · intro m hm
      clear h1 hd
      induction d with
      | nil => simp
      | cons t d ih =>
        have ht := hd' t (by simp)
        simp only [List.map_cons, toMv_cons, MvPolynomial.coeff_add, MvPolynomial.coeff_monomial]
        rw [ih (fun u hu => hd' u (by simp [hu])), if_neg]
        · simp
        · rw [hinc _ ht]
          intro e
          rw [← e] at hm
          simp at hm
  · intro hs
    unfold Sorted antidifferentiate at *
    rw [List.pairwise_map]
    have hs2 : p.Pairwise (fun s t => s ∈ p ∧ t ∈ p ∧ lt s.1 t.1 = true) :=
      List.pairwise_iff_forall_sublist.2 (fun {a b} hab => ⟨hab.subset (by simp),
        hab.subset (by simp), List.pairwise_iff_forall_sublist.1 hs hab⟩)
    refine hs2.imp ?_
    rintro s t ⟨h1, h2, h3⟩
    simp only
    rw [incIdx_eq _ _ (hd s h1), incIdx_eq _ _ (hd t h2),
      lt_addIdx _ _ _ (by rw [sum_unit]; exact hd s h1) (by rw [sum_unit]; exact hd t h2)]
    exact h3

/-! ### Truncation and clean-up -/

omit [Zero X] in
/-- **C89** (truncation): for terms of degree below `2^16`, and when a coefficient which is not
decidedly nonzero is zero, truncation keeps exactly the coefficients of degree at most `d`. -/
theorem C89_truncate_partial (hnz : ∀ k x, In k x → A.nonzero x = false → k = 0)
    (p : Terms (MIndex n) X) (f : MvPolynomial (Fin n) K) (hp : Encl In p f) (d : Nat)
    (hd : ∀ t ∈ p, t.1.1.sum < 65536) :
    (∃ g, Encl In (truncate A p d) g ∧ ∀ a : MIndex n, MvPolynomial.coeff (expo a) g =
      if a.1.sum ≤ d then MvPolynomial.coeff (expo a) f else 0) ∧
      (Sorted lt p → Sorted lt (truncate A p d)) ∧
      ∀ t ∈ truncate A p d, t.1.1.sum ≤ d ∧ A.nonzero t.2 = true := by
  refine ⟨?_, fun hs => List.Pairwise.filter _ hs, ?_⟩
  · obtain ⟨e, h1, rfl⟩ := hp
    have key : ∃ e', Rel In e' (truncate A p d) ∧ ∀ a : MIndex n, coeff e' a =
        if a.1.sum ≤ d then coeff e a else 0 := by
      unfold truncate
      induction h1 with
      | nil => exact ⟨[], .nil, by simp⟩
      | @cons s t e p h _ ih =>
        obtain ⟨e', h2, h3⟩ := ih (fun u hu => hd u (by simp [hu]))
        have hdeg : degree t.1.1 = t.1.1.sum := degree_of_fits (hd t (by simp))
        by_cases hc : (decide (degree t.1.1 ≤ d) && A.nonzero t.2) = true
        · simp only [List.filter_cons, hc, if_true]
          refine ⟨s :: e', .cons h h2, fun a => ?_⟩
          rw [coeff_cons, coeff_cons, h3]
          rw [Bool.and_eq_true, decide_eq_true_eq, hdeg] at hc
          by_cases ha : s.1 = a
          · subst ha
            rw [h.1, if_pos hc.1]
            simp [hc.1]
          · simp [ha]
        · simp only [List.filter_cons, hc, if_false]
          refine ⟨e', h2, fun a => ?_⟩
          rw [coeff_cons, h3]
          by_cases ha : s.1 = a
          · subst ha
            by_cases hle : s.1.1.sum ≤ d
            · have : A.nonzero t.2 = false := by
                rw [h.1] at hle
                rw [← hdeg] at hle
                simpa [hle] using hc
              simp [hle, hnz _ _ h.2 this]
            · simp [hle]
          · simp [ha]
    obtain ⟨e', h2, h3⟩ := key
    refine ⟨_, ⟨e', h2, rfl⟩, fun a => ?_⟩
    rw [coeff_toMv, coeff_toMv]
    exact h3 a
  · intro t ht
    obtain ⟨h1, h2⟩ := List.mem_filter.1 ht
    rw [Bool.and_eq_true, decide_eq_true_eq, degree_of_fits (hd t h1)] at h2
    exact h2

omit [Zero X] [Field K] in
theorem absorbKey_suffix {I : Type*} [DecidableEq I] (a : I) (c : X) (p : Terms I X) :
    (absorbKey A a c p).2 <:+ p ∧ ∀ t ∈ (absorbKey A a c p).2.head?, t.1 ≠ a := by
  induction p generalizing c with
  | nil => simp [absorbKey]
  | cons t p ih =>
    unfold absorbKey
    by_cases h : a = t.1
    · rw [if_pos h]
      exact ⟨(ih _).1.trans (List.suffix_cons t p), (ih _).2⟩
    · rw [if_neg h]
      exact ⟨List.suffix_refl _, by simpa using fun e => h e.symm⟩

theorem absorbKey_rel (hA : Sound A In) (a : MIndex n) (d : Terms (MIndex n) K)
    (p : Terms (MIndex n) X) (h : Rel In d p) : ∀ (k : K) (c : X), In k c →
    ∃ k' d', In k' (absorbKey A a c p).1 ∧ Rel In d' (absorbKey A a c p).2 ∧
      MvPolynomial.monomial (expo a) k' + toMv d' = MvPolynomial.monomial (expo a) k + toMv d := by
  induction h with
  | nil => intro k c hc; exact ⟨k, [], hc, .nil, rfl⟩
  | @cons s t d p hst hp ih =>
    intro k c hc
    unfold absorbKey
    by_cases ha : a = t.1
    · rw [if_pos ha]
      obtain ⟨k', d', h1, h2, h3⟩ := ih (k + s.2) (A.add c t.2) (hA.add _ _ _ _ hc hst.2)
      refine ⟨k', d', h1, h2, ?_⟩
      rw [h3, toMv_cons, map_add, hst.1, ← ha]
      ring
    · rw [if_neg ha]
      exact ⟨k, s :: d, hc, .cons hst hp, rfl⟩

theorem uniqueKeyF_rel (hA : Sound A In) (N : Nat) : ∀ (d : Terms (MIndex n) K)
    (p : Terms (MIndex n) X), Rel In d p → p.length ≤ N →
    ∃ r, Rel In r (uniqueKeyF A N p) ∧ toMv r = toMv d := by
  induction N with
  | zero =>
    intro d p h hl
    obtain rfl : p = [] := List.eq_nil_of_length_eq_zero (by omega)
    cases h
    exact ⟨[], by simpa [uniqueKeyF] using List.Forall₂.nil, rfl⟩
  | succ N ih =>
    intro d p h hl
    cases h with
    | nil => exact ⟨[], by simpa [uniqueKeyF] using List.Forall₂.nil, rfl⟩
    | @cons s t d p hst hp =>
      obtain ⟨k', d', h1, h2, h3⟩ := absorbKey_rel hA t.1 d p hp s.2 t.2 hst.2
      have hlen := (absorbKey_suffix (A := A) t.1 t.2 p).1.length_le
      simp only [List.length_cons] at hl
      obtain ⟨r, h4, h5⟩ := ih d' _ h2 (by omega)
      unfold uniqueKeyF
      simp only
      rw [toMv_cons, hst.1, ← h3]
      by_cases hz : A.surelyZero (absorbKey A t.1 t.2 p).1 = true
      · rw [if_pos hz]
        refine ⟨r, h4, ?_⟩
        rw [h5, hA.surelyZero _ _ h1 hz]
        simp
      · rw [if_neg hz]
        exact ⟨(t.1, k') :: r, .cons ⟨rfl, h1⟩ h4, by rw [toMv_cons, h5]⟩

omit [Zero X] [Field K] in
theorem uniqueKeyF_sorted (N : Nat) : ∀ (p : Terms (MIndex n) X),
    p.Pairwise (fun s t => lt t.1 s.1 = false) →
    Sorted lt (uniqueKeyF A N p) ∧ (∀ t ∈ uniqueKeyF A N p, A.surelyZero t.2 = false ∧
      ∃ s ∈ p, s.1 = t.1) := by
  induction N with
  | zero =>
    intro p _
    cases p <;> simp [uniqueKeyF, Sorted]
  | succ N ih =>
    intro p hp
    cases p with
    | nil => simp [uniqueKeyF, Sorted]
    | cons t p =>
      obtain ⟨h1, h2⟩ := List.pairwise_cons.1 hp
      obtain ⟨hsuf, hhead⟩ := absorbKey_suffix (A := A) t.1 t.2 p
      have hq : (absorbKey A t.1 t.2 p).2.Pairwise (fun s t => lt t.1 s.1 = false) :=
        h2.sublist hsuf.sublist
      obtain ⟨h3, h4⟩ := ih _ hq
      -- everything left is beyond the index just treated
      have hbeyond : ∀ u ∈ (absorbKey A t.1 t.2 p).2, lt t.1 u.1 = true := by
        generalize (absorbKey A t.1 t.2 p).2 = q at hsuf hhead hq
        cases q with
        | nil => simp
        | cons v q =>
          have hv1 : lt v.1 t.1 = false := h1 v (hsuf.subset (by simp))
          have hv2 : v.1 ≠ t.1 := hhead v (by simp)
          have hv : lt t.1 v.1 = true := by
            rcases lt_strict.total t.1 v.1 with h | h | h
            · exact h
            · exact absurd h.symm hv2
            · rw [hv1] at h; cases h
          intro u hu
          rcases List.mem_cons.1 hu with rfl | hu
          · exact hv
          · have := (List.pairwise_cons.1 hq).1 u hu
            rcases lt_strict.total v.1 u.1 with h | h | h
            · exact lt_strict.trans _ _ _ hv h
            · rw [← h]; exact hv
            · rw [this] at h; cases h
      unfold uniqueKeyF
      simp only
      by_cases hz : A.surelyZero (absorbKey A t.1 t.2 p).1 = true
      · rw [if_pos hz]
        refine ⟨h3, fun u hu => ⟨(h4 u hu).1, ?_⟩⟩
        obtain ⟨s, hs, e⟩ := (h4 u hu).2
        exact ⟨s, List.mem_cons_of_mem _ (hsuf.subset hs), e⟩
      · rw [if_neg hz]
        refine ⟨List.pairwise_cons.2 ⟨fun u hu => ?_, h3⟩, fun u hu => ?_⟩
        · obtain ⟨s, hs, e⟩ := (h4 u hu).2
          rw [← e]
          exact hbeyond s hs
        · rcases List.mem_cons.1 hu with rfl | hu
          · exact ⟨by simpa using hz, t, by simp, rfl⟩
          · refine ⟨(h4 u hu).1, ?_⟩
            obtain ⟨s, hs, e⟩ := (h4 u hu).2
            exact ⟨s, List.mem_cons_of_mem _ (hsuf.subset hs), e⟩

theorem Encl.perm {p p' : Terms (MIndex n) X} {f : MvPolynomial (Fin n) K} (h : Encl In p f)
    (hp : p'.Perm p) : Encl In p' f := by
  obtain ⟨d, h1, rfl⟩ := h
  have h2 : List.Forall₂ (fun t s => s.1 = t.1 ∧ In s.2 t.2) p d := h1.flip
  obtain ⟨d', h3, h4⟩ := List.perm_comp_forall₂ hp h2
  exact ⟨d', h3.flip, toMv_perm h4⟩

/-- **C89** (clean-up): whatever terms a polynomial has and however the sort arranges equal indices,
clean-up keeps the polynomial, sorts the terms, leaves one term for each index and no coefficient
which is certainly zero. -/
theorem C89_cleanup (hA : Sound A In) (p p' : Terms (MIndex n) X) (hperm : p'.Perm p)
    (hsort : p'.Pairwise (fun s t => lt t.1 s.1 = false)) (f : MvPolynomial (Fin n) K)
    (hp : Encl In p f) :
    Encl In (cleanup A p') f ∧ Sorted lt (cleanup A p') ∧
      ∀ t ∈ cleanup A p', A.surelyZero t.2 = false := by
  obtain ⟨d, h1, h2⟩ := hp.perm hperm
  obtain ⟨r, h3, h4⟩ := uniqueKeyF_rel hA p'.length d p' h1 (le_refl _)
  obtain ⟨h5, h6⟩ := uniqueKeyF_sorted (A := A) p'.length p' hsort
  exact ⟨⟨r, h3, by rw [h4, h2]⟩, h5, fun t ht => (h6 t ht).1⟩

omit [Zero X] in
/-- **C89** (equality): with exact coefficients, comparing two polynomials ends, and answers whether
they are the same polynomial. -/
theorem C89_equal [DecidableEq K] {B : Coef K} (hB : Sound B (fun a b : K => a = b))
    (p p' q q' : Terms (MIndex n) K) (hp : p'.Perm p) (hq : q'.Perm q)
    (hp' : p'.Pairwise (fun s t => lt t.1 s.1 = false))
    (hq' : q'.Pairwise (fun s t => lt t.1 s.1 = false)) :
    ∃ b, equal B p' q' = some b ∧ (b = true ↔ toMv p = toMv q) := by
  obtain ⟨h1, h2, -⟩ := C89_cleanup hB p p' hp hp' (toMv p) ((encl_eq _ _).2 rfl)
  obtain ⟨h3, h4, -⟩ := C89_cleanup hB q q' hq hq' (toMv q) ((encl_eq _ _).2 rfl)
  rw [encl_eq] at h1 h3
  obtain ⟨b, h5, h6⟩ := C23_equality lt_strict _ _ h2 h4
  refine ⟨b, h5, ?_⟩
  rw [h6, ← toMv_eq_iff, h1, h3]

end Calc

end Verif.Polynomial
