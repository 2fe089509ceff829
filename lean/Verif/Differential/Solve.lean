import Verif.Differential.Flow
import Mathlib.LinearAlgebra.Matrix.NonsingularInverse
/-!
# C44: Taylor polynomials of implicit functions
-/
namespace Verif.Differential
open Verif.Expansion MvPolynomial

variable {n m : Nat} {K : Type*} [Field K]

/-! ### Linear parts -/

/-- The derivatives of `F` at zero with respect to the last `m` arguments. -/
noncomputable def jac (l : Nat) (F : Fin m → MvPolynomial (Fin (l + m)) K) :
    Matrix (Fin m) (Fin m) K :=
  Matrix.of fun i j => (F i).coeff (Finsupp.single (Fin.natAdd l j) 1)

/-- The terms of degree one. -/
noncomputable def linear (F : MvPolynomial (Fin n) K) : MvPolynomial (Fin n) K :=
  ∑ v, C (F.coeff (Finsupp.single v 1)) * X v

theorem ord_two (F : MvPolynomial (Fin n) K) : Ord 2 (F - C (F.coeff 0) - linear F) := by
  intro f hf
  rw [coeff_sub, coeff_sub, coeff_C, linear, coeff_sum]
  simp only [coeff_C_mul]
  by_cases h0 : f = 0
  · subst h0
    rw [if_pos rfl, sub_self, zero_sub, neg_eq_zero]
    apply Finset.sum_eq_zero
    intro v _
    rw [coeff_zero_X, mul_zero]
  · have h1 : f.degree = 1 := by
      have : f.degree ≠ 0 := fun h => h0 ((Finsupp.degree_eq_zero_iff f).1 h)
      omega
    obtain ⟨v, rfl⟩ : ∃ v, f = Finsupp.single v 1 := by
      obtain ⟨v, hv⟩ : ∃ v, f v ≠ 0 := by
        by_contra hc
        push Not at hc
        exact h0 (Finsupp.ext hc)
      have h2 := degree_pred hv
      have h3 : f - Finsupp.single v 1 = 0 := (Finsupp.degree_eq_zero_iff _).1 (by omega)
      refine ⟨v, ?_⟩
      rw [← tsub_add_cancel_of_le (Finsupp.single_le_iff.2 (show 1 ≤ f v by omega)), h3, zero_add]
    rw [if_neg (fun h => h0 h.symm), sub_zero, Finset.sum_eq_single v]
    · rw [coeff_X, if_pos rfl, mul_one, sub_self]
    · intro w _ hw
      rw [coeff_X', if_neg, mul_zero]
      intro h
      exact hw ((Finsupp.single_left_inj one_ne_zero).1 h)
    · simp

/-- Terms of degree at least two change little if the arguments change little. -/
theorem ord_bind_sub {k : Nat} {N : MvPolynomial (Fin m) K} (hN : Ord 2 N)
    {u u' : Fin m → MvPolynomial (Fin n) K} (hu : ∀ i, Ord 1 (u i)) (hu' : ∀ i, Ord 1 (u' i))
    (h : ∀ i, Ord (k + 1) (u i - u' i)) : Ord (k + 2) (bind₁ u N - bind₁ u' N) := by
  rw [N.as_sum, map_sum, map_sum, ← Finset.sum_sub_distrib]
  apply Ord.sum
  intro f hf
  have h2 : 2 ≤ f.degree := by
    by_contra hc
    exact mem_support_iff.1 hf (hN f (by omega))
  obtain ⟨v, hv⟩ : ∃ v, f v ≠ 0 := by
    by_contra hc
    push Not at hc
    rw [Finsupp.degree_eq_sum, Finset.sum_eq_zero (fun i _ => hc i)] at h2
    omega
  have hd := degree_pred hv
  have e : monomial f (N.coeff f) = X v * monomial (f - Finsupp.single v 1) (N.coeff f) := by
    rw [X, monomial_mul, one_mul, add_tsub_cancel_of_le (Finsupp.single_le_iff.2 (by omega))]
  have hM : Ord 1 (monomial (f - Finsupp.single v 1) (N.coeff f)) := by
    intro g hg
    rw [coeff_monomial, if_neg]
    intro h
    rw [h] at hd
    omega
  rw [e, map_mul, map_mul, bind₁_X_right, bind₁_X_right]
  generalize monomial (f - Finsupp.single v 1) (N.coeff f) = M at hM
  have e2 : u v * bind₁ u M - u' v * bind₁ u' M =
      (u v - u' v) * bind₁ u M + u' v * (bind₁ u M - bind₁ u' M) := by ring
  rw [e2]
  refine Ord.add ((h v).mul (ord_bind hu hM)) ?_
  have h3 : Ord (k + 1) (bind₁ u M - bind₁ u' M) :=
    cong_iff_ord.1 (Cong.bind_inner (fun i => cong_iff_ord.2 (h i)) M)
  have := (hu' v).mul h3
  rwa [show 1 + (k + 1) = k + 2 by omega] at this

theorem bind_linear (u : Fin m → MvPolynomial (Fin n) K) (F : MvPolynomial (Fin m) K) :
    bind₁ u (linear F) = ∑ v, C (F.coeff (Finsupp.single v 1)) * u v := by
  rw [linear, map_sum]
  apply Finset.sum_congr rfl
  intro v _
  rw [map_mul, bind₁_X_right, MvPolynomial.algHom_C]
  rfl

/-- The change of `F(x,w)` with `w` is linear up to higher order. -/
theorem bind_change {l k : Nat} (F : MvPolynomial (Fin (l + m)) K)
    (x : Fin l → MvPolynomial (Fin n) K) {w w' : Fin m → MvPolynomial (Fin n) K}
    (hx : ∀ i, Ord 1 (x i)) (hw : ∀ i, Ord 1 (w i)) (hw' : ∀ i, Ord 1 (w' i))
    (h : ∀ i, Ord (k + 1) (w' i - w i)) :
    Ord (k + 2) (bind₁ (Fin.append x w') F - bind₁ (Fin.append x w) F -
      ∑ j, C (F.coeff (Finsupp.single (Fin.natAdd l j) 1)) * (w' j - w j)) := by
  have hA : ∀ z : Fin m → MvPolynomial (Fin n) K, (∀ i, Ord 1 (z i)) →
      ∀ i, Ord 1 (Fin.append x z i) := by
    intro z hz i
    refine Fin.addCases (fun i => ?_) (fun j => ?_) i
    · rw [Fin.append_left]; exact hx i
    · rw [Fin.append_right]; exact hz j
  have hdiff : ∀ i, Ord (k + 1) (Fin.append x w' i - Fin.append x w i) := by
    intro i
    refine Fin.addCases (fun i => ?_) (fun j => ?_) i
    · rw [Fin.append_left, Fin.append_left, sub_self]; exact Ord.of_zero
    · rw [Fin.append_right, Fin.append_right]; exact h j
  have key := ord_bind_sub (ord_two F) (hA w' hw') (hA w hw) hdiff
  convert key using 1
  have e : ∀ z : Fin m → MvPolynomial (Fin n) K,
      bind₁ (Fin.append x z) (F - C (F.coeff 0) - linear F) =
      bind₁ (Fin.append x z) F - C (F.coeff 0) -
        ((∑ i, C (F.coeff (Finsupp.single (Fin.castAdd m i) 1)) * x i) +
        ∑ j, C (F.coeff (Finsupp.single (Fin.natAdd l j) 1)) * z j) := by
    intro z
    rw [map_sub, map_sub, bind_linear, Fin.sum_univ_add, MvPolynomial.algHom_C]
    simp only [Fin.append_left, Fin.append_right]
    rfl
  rw [e, e]
  simp only [mul_sub, Finset.sum_sub_distrib]
  ring

theorem Ord.of_cong {d k : Nat} {p q : MvPolynomial (Fin n) K} (h : Cong d p q) (hq : Ord k q)
    (hk : k ≤ d + 1) : Ord k p := by
  intro f hf
  rw [h f (by omega), hq f hf]

/-- One step of the Newton-like iteration gains one order. -/
theorem newton_step {l k : Nat} (F : Fin m → MvPolynomial (Fin (l + m)) K)
    (x : Fin l → MvPolynomial (Fin n) K) {w w' : Fin m → MvPolynomial (Fin n) K}
    (hx : ∀ i, Ord 1 (x i)) (hw : ∀ i, Ord 1 (w i)) (hw' : ∀ i, Ord 1 (w' i))
    (B : Matrix (Fin m) (Fin m) K)
    (hB : jac l F * B = 1)
    (hG : ∀ i, Ord (k + 1) (bind₁ (Fin.append x w) (F i) - C ((F i).coeff 0)))
    (hs : ∀ i, Ord (k + 2) (w' i - (w i - ∑ j, (bind₁ (Fin.append x w) (F j) -
      C ((F j).coeff 0)) * C (B i j)))) :
    ∀ i, Ord (k + 2) (bind₁ (Fin.append x w') (F i) - C ((F i).coeff 0)) := by
  have hdiff : ∀ i, Ord (k + 1) (w' i - w i) := by
    intro i
    have h1 := (hs i).mono (show k + 1 ≤ k + 2 by omega)
    have h2 : Ord (k + 1) (∑ j, (bind₁ (Fin.append x w) (F j) - C ((F j).coeff 0)) * C (B i j)) := by
      apply Ord.sum
      intro j _
      rw [mul_comm]
      exact (hG j).mul_left _
    convert h1.sub h2 using 1
    ring
  intro i
  have h1 := bind_change (F i) x hx hw hw' hdiff
  have h2 : Ord (k + 2) (∑ j, C ((F i).coeff (Finsupp.single (Fin.natAdd l j) 1)) *
      (w' j - (w j - ∑ r, (bind₁ (Fin.append x w) (F r) - C ((F r).coeff 0)) * C (B j r)))) :=
    Ord.sum _ _ (fun j _ => (hs j).mul_left _)
  have h3 : (∑ j, C ((F i).coeff (Finsupp.single (Fin.natAdd l j) 1)) *
      ∑ r, (bind₁ (Fin.append x w) (F r) - C ((F r).coeff 0)) * C (B j r)) =
      bind₁ (Fin.append x w) (F i) - C ((F i).coeff 0) := by
    calc _ = ∑ r, (bind₁ (Fin.append x w) (F r) - C ((F r).coeff 0)) *
          C (∑ j, (F i).coeff (Finsupp.single (Fin.natAdd l j) 1) * B j r) := by
          simp only [Finset.mul_sum, map_sum, map_mul]
          rw [Finset.sum_comm]
          apply Finset.sum_congr rfl
          intro r _
          apply Finset.sum_congr rfl
          intro j _
          ring
      _ = ∑ r, (bind₁ (Fin.append x w) (F r) - C ((F r).coeff 0)) *
          C ((1 : Matrix (Fin m) (Fin m) K) i r) := by
          apply Finset.sum_congr rfl
          intro r _
          rw [← hB, Matrix.mul_apply]
          rfl
      _ = _ := by
          rw [Finset.sum_eq_single i]
          · rw [Matrix.one_apply_eq, C_1, mul_one]
          · intro r _ hr
            rw [Matrix.one_apply_ne (Ne.symm hr), C_0, mul_zero]
          · simp
  have h4 := h1.add h2
  convert h4 using 1
  simp only [mul_sub, Finset.sum_sub_distrib] at h3 ⊢
  linear_combination -h3

/-- Two solutions agree. -/
theorem solve_unique {l d : Nat} (F : Fin m → MvPolynomial (Fin (l + m)) K)
    (x : Fin l → MvPolynomial (Fin n) K) {w w' : Fin m → MvPolynomial (Fin n) K}
    (hx : ∀ i, Ord 1 (x i)) (hw : ∀ i, Ord 1 (w i)) (hw' : ∀ i, Ord 1 (w' i))
    (B : Matrix (Fin m) (Fin m) K)
    (hB : jac l F * B = 1)
    (h : ∀ i, Cong d (bind₁ (Fin.append x w') (F i)) (bind₁ (Fin.append x w) (F i))) :
    ∀ i, Cong d (w' i) (w i) := by
  have hB' := mul_eq_one_comm.1 hB
  have key : ∀ k, k ≤ d → ∀ i, Ord (k + 1) (w' i - w i) := by
    intro k
    induction k with
    | zero => intro _ i; exact (hw' i).sub (hw i)
    | succ k ih =>
      intro hk i
      have h1 := fun i => bind_change (F i) x hx hw hw' (ih (by omega))
      have h2 : ∀ i, Ord (k + 2) (∑ j, C ((F i).coeff (Finsupp.single (Fin.natAdd l j) 1)) *
          (w' j - w j)) := by
        intro i
        have h3 := (cong_iff_ord.1 (h i)).mono (show k + 2 ≤ d + 1 by omega)
        convert h3.sub (h1 i) using 1
        ring
      have h4 : Ord (k + 2) (∑ r, C (B i r) * ∑ j, C ((F r).coeff
          (Finsupp.single (Fin.natAdd l j) 1)) * (w' j - w j)) :=
        Ord.sum _ _ (fun r _ => (h2 r).mul_left _)
      convert h4 using 1
      symm
      calc _ = ∑ j, C (∑ r, B i r * (F r).coeff (Finsupp.single (Fin.natAdd l j) 1)) *
            (w' j - w j) := by
            simp only [Finset.mul_sum, map_sum, map_mul, Finset.sum_mul]
            rw [Finset.sum_comm]
            apply Finset.sum_congr rfl
            intro r _
            apply Finset.sum_congr rfl
            intro j _
            ring
        _ = ∑ j, C ((1 : Matrix (Fin m) (Fin m) K) i j) * (w' j - w j) := by
            apply Finset.sum_congr rfl
            intro j _
            rw [← hB', Matrix.mul_apply]
            rfl
        _ = _ := by
            rw [Finset.sum_eq_single i]
            · rw [Matrix.one_apply_eq, C_1, one_mul]
            · intro r _ hr
              rw [Matrix.one_apply_ne (Ne.symm hr), C_0, zero_mul]
            · simp
  exact fun i => cong_iff_ord.2 (key d (le_refl _) i)

/-! ### The iteration -/

variable [DecidableEq K]

theorem matVec_spec {l d : Nat} (A : Fin l → Fin m → K) (v : DVec m n K)
    (q : Fin m → MvPolynomial (Fin n) K) (hv : ∀ j, Rep (v.comp j) (q j))
    (hd : ∀ j, (v.comp j).deg = d) (hvd : v.deg = d) (hs : d ≤ 65535) (i : Fin l) :
    Rep (matVec A v i) (∑ j, q j * C (A i j)) ∧ (matVec A v i).deg = d := by
  have key : ∀ (L : List (Fin m)) (r : Diff n K) (R : MvPolynomial (Fin n) K), Rep r R → r.deg = d →
      Rep (L.foldl (fun r j => add r (mulScalar (v.comp j) (A i j))) r)
        (R + (L.map (fun j => q j * C (A i j))).sum) ∧
      (L.foldl (fun r j => add r (mulScalar (v.comp j) (A i j))) r).deg = d := by
    intro L
    induction L with
    | nil => intro r R hr hrd; simpa using ⟨hr, hrd⟩
    | cons j L ih =>
      intro r R hr hrd
      obtain ⟨m1, m2⟩ := C44_mul_scalar _ _ (A i j) (hv j)
      obtain ⟨a1, a2⟩ := C44_add _ _ _ _ hr m1
      have := ih _ _ a1 (by rw [a2, hrd, m2, hd j]; exact min_self _)
      simp only [List.foldl_cons, List.map_cons, List.sum_cons]
      rw [← add_assoc]
      exact this
  have hz : Rep (const v.deg 0 : Diff n K) (C 0) := rep_const (by rw [hvd]; exact hs) 0
  obtain ⟨m1, m2⟩ := C44_mul_scalar _ _ (0 : K) hz
  have := key (List.finRange m) _ _ m1 (by rw [m2]; exact hvd)
  rw [C_0, mul_zero, zero_add, ← List.ofFn_eq_map, List.sum_ofFn] at this
  exact this

theorem solveLoop_spec {l : Nat} {df : DVec (m + 1) (l + 1 + (m + 1)) K}
    {F : Fin (m + 1) → MvPolynomial (Fin (l + 1 + (m + 1))) K} (hF : URep df F) (h1 : 1 ≤ df.deg)
    (hs : df.deg ≤ 65535) (y0 : Fin (m + 1) → K) (B : Matrix (Fin (m + 1)) (Fin (m + 1)) K)
    (hB : jac (l + 1) F * B = 1) (k : Nat) :
    ∃ dh, solveLoop df ⟨df.deg, fun i => var df.deg 0 i⟩ y0 B k = some dh ∧ dh.deg = df.deg ∧
      (∀ i, WF (dh.comp i) ∧ (dh.comp i).deg = df.deg) ∧
      (∀ i, (poly (dh.comp i)).coeff 0 = y0 i - k * ∑ j, B i j * (F j).coeff 0) ∧
      ∀ i, Ord (min k df.deg + 1) (bind₁ (Fin.append (X : Fin (l + 1) → _)
        (fun j => center (poly (dh.comp j)))) (F i) - C ((F i).coeff 0)) := by
  have hX : ∀ i : Fin (l + 1), Ord 1 (X i : MvPolynomial (Fin (l + 1)) K) := by
    intro i f hf
    have : f = 0 := (Finsupp.degree_eq_zero_iff f).1 (by omega)
    rw [this, coeff_zero_X]
  have hone : ∀ (w : Fin (m + 1) → MvPolynomial (Fin (l + 1)) K), (∀ i, Ord 1 (w i)) →
      ∀ i, Ord 1 (bind₁ (Fin.append (X : Fin (l + 1) → _) w) (F i) - C ((F i).coeff 0)) := by
    intro w hw i
    have h2 : Ord 1 (bind₁ (Fin.append (X : Fin (l + 1) → _) w) (F i - C ((F i).coeff 0))) := by
      refine ord_bind (fun v => ?_) (ord_center (F i))
      refine Fin.addCases (fun v => ?_) (fun v => ?_) v
      · rw [Fin.append_left]; exact hX v
      · rw [Fin.append_right]; exact hw v
    rw [map_sub, MvPolynomial.algHom_C] at h2
    exact h2
  induction k with
  | zero =>
    refine ⟨_, rfl, rfl, fun i => ⟨(rep_const hs _).1, rfl⟩, fun i => ?_, fun i => ?_⟩
    · have := (rep_const (n := l + 1) hs (y0 i)).2 0 (by rw [map_zero]; omega)
      show (poly (const df.deg (y0 i))).coeff 0 = _
      rw [this, coeff_C, if_pos rfl, Nat.cast_zero, zero_mul, sub_zero]
    · rw [Nat.zero_min]
      exact hone _ (fun j => ord_center _) i
  | succ k ih =>
    obtain ⟨dh, e, hd, hw, hv, hG⟩ := ih
    have hU : URep dh (fun i => poly (dh.comp i)) :=
      ⟨fun i => (hw i).1.rep, fun i => by rw [(hw i).2, hd]⟩
    have hdx : URep (⟨df.deg, fun i => var df.deg 0 i⟩ : DVec (l + 1) (l + 1) K)
        (fun i => C 0 + X i) := ⟨fun i => rep_var h1 hs _ _, fun i => rfl⟩
    have hV := join_args (E := df.deg) dh (fun i => poly (dh.comp i)) (fun j => (hw j).1.rep)
      (fun j => by rw [(hw j).2]) _ _ hdx hs (Nat.le_refl _)
    obtain ⟨c, ec, hcd, hc⟩ := composeV_spec hF h1 hV.1
    rw [center_append] at hc
    simp only [center_var] at hc
    have hjd : (joinV (⟨df.deg, fun i => var df.deg 0 i⟩ : DVec (l + 1) (l + 1) K) dh).deg = df.deg :=
      hV.2
    rw [hjd] at hcd
    have hck : ∀ i, (c.comp i).deg = df.deg := by
      intro i
      rw [(hc i).1, hjd]; exact min_self _
    have hm := matVec_spec B c _ (fun j => (hc j).2) hck hcd hs
    have hnew := fun i => C44_sub (dh.comp i) (matVec B c i) _ _ (hw i).1.rep (hm i).1
    have hdeg : ∀ i, (sub (dh.comp i) (matVec B c i)).deg = df.deg := by
      intro i
      rw [(hnew i).2, (hw i).2, (hm i).2]; exact min_self _
    have hcong := fun i => (hnew i).1.2
    simp only [hdeg] at hcong
    have hg0 : ∀ j, (bind₁ (Fin.append (X : Fin (l + 1) → _)
        (fun j => center (poly (dh.comp j)))) (F j)).coeff 0 = (F j).coeff 0 := by
      intro j
      have := hone _ (fun j => ord_center (poly (dh.comp j))) j 0 (by rw [map_zero]; omega)
      rw [coeff_sub, coeff_C, if_pos rfl] at this
      exact sub_eq_zero.1 this
    have hval : ∀ i, (poly (sub (dh.comp i) (matVec B c i))).coeff 0 =
        (poly (dh.comp i)).coeff 0 - ∑ j, B i j * (F j).coeff 0 := by
      intro i
      rw [hcong i 0 (by rw [map_zero]; omega), coeff_sub, coeff_sum]
      congr 1
      apply Finset.sum_congr rfl
      intro j _
      rw [mul_comm, coeff_C_mul, hg0]
    refine ⟨ofComps (fun i => sub (dh.comp i) (matVec B c i)), ?_, hdeg 0,
      fun i => ⟨(hnew i).1.1, hdeg i⟩, fun i => ?_, ?_⟩
    · show (solveLoop df _ y0 B k).bind _ = _
      rw [e]
      show (composeV df (joinV _ dh)).bind _ = _
      rw [ec]
      rfl
    · show (poly (sub (dh.comp i) (matVec B c i))).coeff 0 = _
      rw [hval, hv]
      push_cast
      ring
    · have hstep : ∀ i, Cong df.deg (center (poly (sub (dh.comp i) (matVec B c i))))
          (center (poly (dh.comp i)) - ∑ j, (bind₁ (Fin.append (X : Fin (l + 1) → _)
            (fun j => center (poly (dh.comp j)))) (F j) - C ((F j).coeff 0)) * C (B i j)) := by
        intro i
        have h2 := (hcong i).sub (Cong.refl (d := df.deg) (C ((poly (sub (dh.comp i)
          (matVec B c i))).coeff 0)))
        refine h2.trans (Cong.of_eq ?_)
        rw [hval, center]
        simp only [sub_mul, Finset.sum_sub_distrib, map_sub, map_sum, map_mul]
        have : ∀ j, C ((F j).coeff 0) * C (B i j) =
          (C (B i j) * C ((F j).coeff 0) : MvPolynomial (Fin (l + 1)) K) := fun j => mul_comm _ _
        simp only [this]
        ring
      by_cases hk : k + 1 ≤ df.deg
      · rw [min_eq_left hk]
        rw [min_eq_left (by omega)] at hG
        exact newton_step F X hX (fun j => ord_center _) (fun j => ord_center _) B hB hG
          (fun i => (cong_iff_ord.1 (hstep i)).mono (by omega))
      · rw [min_eq_right (by omega)] at hG ⊢
        -- the residual was already beyond the degree: nothing changes
        have hsame : ∀ i, Cong df.deg (center (poly (sub (dh.comp i) (matVec B c i))))
            (center (poly (dh.comp i))) := by
          intro i
          refine (hstep i).trans ?_
          rw [cong_iff_ord]
          have : Ord (df.deg + 1) (∑ j, (bind₁ (Fin.append (X : Fin (l + 1) → _)
            (fun j => center (poly (dh.comp j)))) (F j) - C ((F j).coeff 0)) * C (B i j)) := by
            apply Ord.sum
            intro j _
            rw [mul_comm]
            exact (hG j).mul_left _
          convert this.neg using 1
          ring
        intro i
        have h2 : Cong df.deg (bind₁ (Fin.append (X : Fin (l + 1) → _)
            (fun j => center (poly (sub (dh.comp j) (matVec B c j))))) (F i))
            (bind₁ (Fin.append (X : Fin (l + 1) → _)
            (fun j => center (poly (dh.comp j)))) (F i)) := by
          apply Cong.bind_inner
          intro v
          refine Fin.addCases (fun v => ?_) (fun v => ?_) v
          · rw [Fin.append_left, Fin.append_left]; exact Cong.refl _
          · rw [Fin.append_right, Fin.append_right]; exact hsame v
        exact Ord.of_cong (h2.sub (Cong.refl _)) (hG i) (le_refl _)

/-- **C44** (implicit functions): for the differential of `f` at a solution `(x0,y0)` of `f(x,y)=0`
where the derivative with respect to `y` is invertible, the result is the Taylor polynomial of the
function `h` with `f(x,h(x))=0` and `h(x0)=y0`: it satisfies both to the degree of `f`, and is the
only polynomial which does so. -/
theorem C44_solve_partial {l : Nat} (df : DVec (m + 1) (l + 1 + (m + 1)) K)
    (F : Fin (m + 1) → MvPolynomial (Fin (l + 1 + (m + 1))) K) (hF : URep df F) (h1 : 1 ≤ df.deg)
    (hs : df.deg ≤ 65535) (y0 : Fin (m + 1) → K) (h0 : ∀ i, (F i).coeff 0 = 0)
    (inverse : (Fin (m + 1) → Fin (m + 1) → K) → Fin (m + 1) → Fin (m + 1) → K)
    (hinv : Matrix.of (jacobian2 df) * Matrix.of (inverse (jacobian2 df)) = 1) :
    ∃ dh, solve df y0 inverse = some dh ∧ dh.deg = df.deg ∧
      (∀ i, WF (dh.comp i) ∧ (dh.comp i).deg = df.deg) ∧
      (∀ i, (poly (dh.comp i)).coeff 0 = y0 i) ∧
      (∀ i, Cong df.deg (bind₁ (Fin.append (X : Fin (l + 1) → _)
        (fun j => poly (dh.comp j) - C (y0 j))) (F i)) 0) ∧
      ∀ Q : Fin (m + 1) → MvPolynomial (Fin (l + 1)) K, (∀ i, (Q i).coeff 0 = y0 i) →
        (∀ i, Cong df.deg (bind₁ (Fin.append (X : Fin (l + 1) → _)
          (fun j => Q j - C (y0 j))) (F i)) 0) → ∀ i, Rep (dh.comp i) (Q i) := by
  have hJ : Matrix.of (jacobian2 df) = jac (l + 1) F := by
    ext i j
    exact (C44_read _ _ (hF.comp i)).2.2.2 (by rw [hF.deg]; exact h1) _
  have hB := hinv
  rw [hJ] at hB
  obtain ⟨dh, e, hd, hw, hv, hG⟩ := solveLoop_spec hF h1 hs y0 (Matrix.of (inverse (jacobian2 df))) hB
    (df.deg + 2)
  have hv' : ∀ i, (poly (dh.comp i)).coeff 0 = y0 i := by
    intro i
    rw [hv, Finset.sum_eq_zero (fun j _ => by rw [h0, mul_zero]), mul_zero, sub_zero]
  have hcen : (fun j => center (poly (dh.comp j))) = fun j => poly (dh.comp j) - C (y0 j) := by
    funext j
    rw [center, hv']
  rw [hcen, min_eq_right (by omega)] at hG
  have hG' : ∀ i, Cong df.deg (bind₁ (Fin.append (X : Fin (l + 1) → _)
        (fun j => poly (dh.comp j) - C (y0 j))) (F i)) 0 := by
    intro i
    rw [cong_iff_ord, sub_zero]
    have := hG i
    rwa [h0, C_0, sub_zero] at this
  refine ⟨dh, e, hd, hw, hv', hG', ?_⟩
  intro Q hQ0 hQ i
  refine ⟨(hw i).1, ?_⟩
  rw [(hw i).2]
  have hX : ∀ i : Fin (l + 1), Ord 1 (X i : MvPolynomial (Fin (l + 1)) K) := by
    intro i f hf
    have : f = 0 := (Finsupp.degree_eq_zero_iff f).1 (by omega)
    rw [this, coeff_zero_X]
  have hord : ∀ q : Fin (m + 1) → MvPolynomial (Fin (l + 1)) K, (∀ i, (q i).coeff 0 = y0 i) →
      ∀ i, Ord 1 (q i - C (y0 i)) := by
    intro q hq i
    rw [← hq i]; exact ord_center _
  have := solve_unique F X hX (hord Q hQ0) (hord _ hv') _ hB
    (fun i => (hG' i).trans (hQ i).symm) i
  have h2 := this.add (Cong.refl (C (y0 i)))
  rwa [sub_add_cancel, sub_add_cancel] at h2

/-- What is missing from `C44_solve_partial`: away from a solution the value drifts from the given one
by `d+2` Newton steps which are all taken with the same residual. -/
theorem C44_solve_drift {l : Nat} (df : DVec (m + 1) (l + 1 + (m + 1)) K)
    (F : Fin (m + 1) → MvPolynomial (Fin (l + 1 + (m + 1))) K) (hF : URep df F) (h1 : 1 ≤ df.deg)
    (hs : df.deg ≤ 65535) (y0 : Fin (m + 1) → K)
    (inverse : (Fin (m + 1) → Fin (m + 1) → K) → Fin (m + 1) → Fin (m + 1) → K)
    (hinv : Matrix.of (jacobian2 df) * Matrix.of (inverse (jacobian2 df)) = 1) :
    ∃ dh, solve df y0 inverse = some dh ∧ ∀ i, value (dh.comp i) = y0 i - ((df.deg : K) + 2) *
      ∑ j, inverse (jacobian2 df) i j * (F j).coeff 0 := by
  have hJ : Matrix.of (jacobian2 df) = jac (l + 1) F := by
    ext i j
    exact (C44_read _ _ (hF.comp i)).2.2.2 (by rw [hF.deg]; exact h1) _
  have hB := hinv
  rw [hJ] at hB
  obtain ⟨dh, e, hd, hw, hv, -⟩ := solveLoop_spec hF h1 hs y0 (Matrix.of (inverse (jacobian2 df))) hB
    (df.deg + 2)
  refine ⟨dh, e, fun i => ?_⟩
  rw [value_eq (hw i).1, hv]
  push_cast
  rfl

end Verif.Differential
