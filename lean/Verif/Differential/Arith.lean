import Verif.Differential.Semantics
/-!
# C44: arithmetic of differentials

`Rep x p` says that the differential `x` satisfies the class invariant and represents the polynomial
`p` up to its degree.  Every operation is specified by the operation on Mathlib's polynomials.
-/
namespace Verif.Differential
open Verif.Expansion

variable {n m : Nat} {K : Type*} [Field K] [DecidableEq K]

/-- The differential represents the polynomial up to the degree of the differential. -/
def Rep (x : Diff n K) (p : MvPolynomial (Fin n) K) : Prop := WF x ∧ Cong x.deg (poly x) p

omit [DecidableEq K] in
theorem WF.rep {x : Diff n K} (h : WF x) : Rep x (poly x) := ⟨h, Cong.refl _⟩

omit [DecidableEq K] in
theorem WF.fits {x : Diff n K} (h : WF x) : ∀ t ∈ x.terms, t.1.1.sum ≤ 65535 :=
  fun t ht => (h.low t ht).trans h.small

omit [DecidableEq K] in
/-- The polynomial of a differential has no terms of degree greater than that of the differential. -/
theorem WF.coeff_high {x : Diff n K} (h : WF x) {f : Fin n →₀ ℕ} (hf : x.deg < f.degree) :
    (poly x).coeff f = 0 := by
  rw [← mono_ofMono f, poly, coeff_toPoly]
  apply coeff_eq_zero
  intro t ht e
  have := h.low t ht
  rw [← degree_mono, e, mono_ofMono] at this
  omega

omit [DecidableEq K] in
/-- Differentials of the same degree representing the same polynomial have the same coefficients. -/
theorem WF.poly_eq {x y : Diff n K} (hx : WF x) (hy : WF y) (hd : x.deg = y.deg)
    (h : Cong x.deg (poly x) (poly y)) : poly x = poly y := by
  ext f
  by_cases hf : f.degree ≤ x.deg
  · exact h f hf
  · rw [hx.coeff_high (by omega), hy.coeff_high (by omega)]

/-! ### Reading -/

/-- **C44** (reading): `x[a]`, `x.value()` and `x.gradient(j)` are coefficients of the polynomial. -/
theorem C44_read (x : Diff n K) (p : MvPolynomial (Fin n) K) (h : Rep x p) :
    (∀ a : MIndex n, a.1.sum ≤ x.deg → coef x a = p.coeff (mono a)) ∧
    (∀ a : MIndex n, x.deg < a.1.sum → coef x a = 0) ∧
    value x = p.coeff 0 ∧
    (1 ≤ x.deg → ∀ j, gradient x j = p.coeff (Finsupp.single j 1)) := by
  have h0 : ∀ a : MIndex n, coef x a = (poly x).coeff (mono a) := by
    intro a
    rw [coef, C23_get _ (sorted_distinct (gl_strict n) h.1.sorted), poly, coeff_toPoly]
  have h1 : ∀ a : MIndex n, a.1.sum ≤ x.deg → coef x a = p.coeff (mono a) := by
    intro a ha
    rw [h0, h.2 _ (by rw [degree_mono]; exact ha)]
  refine ⟨h1, ?_, ?_, ?_⟩
  · intro a ha
    rw [h0, h.1.coeff_high (by rw [degree_mono]; exact ha)]
  · rw [value, h1 _ (by rw [sum_zeroIx]; omega), mono_zeroIx]
  · intro hd j
    rw [gradient, h1 _ (by rw [sum_unitIx]; exact hd), mono_unitIx]

theorem coef_eq {x : Diff n K} (h : WF x) (a : MIndex n) : coef x a = (poly x).coeff (mono a) := by
  rw [coef, C23_get _ (sorted_distinct (gl_strict n) h.sorted), poly, coeff_toPoly]

theorem value_eq {x : Diff n K} (h : WF x) : value x = (poly x).coeff 0 := by
  rw [value, coef_eq h, mono_zeroIx]

/-! ### Construction -/

omit [DecidableEq K] in
theorem rep_zero {d : Nat} (hd : d ≤ 65535) : Rep (zero d : Diff n K) 0 :=
  ⟨⟨List.Pairwise.nil, by simp [zero], hd⟩, Cong.refl _⟩

omit [DecidableEq K] in
theorem rep_const {d : Nat} (hd : d ≤ 65535) (c : K) :
    Rep (const d c : Diff n K) (MvPolynomial.C c) := by
  refine ⟨⟨List.pairwise_singleton _ _, ?_, hd⟩, Cong.of_eq ?_⟩
  · intro t ht
    rw [const, List.mem_singleton] at ht
    subst ht; simp only; rw [sum_zeroIx]; omega
  · rw [poly, const, toPoly_cons, toPoly_nil, mono_zeroIx, add_zero]; rfl

/-- The affine polynomial `v + Σ g_j x_j`. -/
noncomputable def affinePoly (v : K) (g : Fin n → K) : MvPolynomial (Fin n) K :=
  MvPolynomial.C v + ∑ j, MvPolynomial.C (g j) * MvPolynomial.X j

omit [Field K] [DecidableEq K] in
theorem gl_unitIx {i j : Fin n} (h : i < j) : gl (unitIx i) (unitIx j) = true := by
  have hd : degree (unitIx i).1 = degree (unitIx j).1 := by
    rw [degree_eq_sum (by rw [sum_unitIx]; omega), degree_eq_sum (by rw [sum_unitIx]; omega),
      sum_unitIx, sum_unitIx]
  unfold gl gradedLess
  rw [if_neg (by simp [hd])]
  have key : ∀ (k : Nat) (i j : Nat), i < j → j < k →
      firstGreater ((List.replicate k 0).set i 1) ((List.replicate k 0).set j 1) = true := by
    intro k
    induction k with
    | zero => intro i j _ h; omega
    | succ k ih =>
      intro i j hij hj
      cases j with
      | zero => omega
      | succ j =>
        cases i with
        | zero => simp [List.replicate_succ, firstGreater]
        | succ i =>
          simp only [List.replicate_succ, List.set_cons_succ, firstGreater]
          simpa using ih i j (by omega) (by omega)
  simpa [unitIx, setIx, zeroIx, wrap] using key n i j h j.2

/-- **C44** (constants, variables and affine forms) -/
theorem C44_constant (d : Nat) (hd : d ≤ 65535) (c : K) :
    Rep (const d c : Diff n K) (MvPolynomial.C c) ∧ (const d c : Diff n K).deg = d :=
  ⟨rep_const hd c, rfl⟩

omit [DecidableEq K] in
theorem toPoly_units (l : List (Fin n)) (g : Fin n → K) :
    toPoly (l.map (fun j => (unitIx j, g j))) =
      (l.map (fun j => MvPolynomial.C (g j) * MvPolynomial.X j)).sum := by
  induction l with
  | nil => rfl
  | cons a l ih =>
    rw [List.map_cons, toPoly_cons, ih, List.map_cons, List.sum_cons, mono_unitIx,
      MvPolynomial.C_mul_X_eq_monomial]

omit [DecidableEq K] in
theorem rep_affine {d : Nat} (h1 : 1 ≤ d) (hd : d ≤ 65535) (v : K) (g : Fin n → K) :
    Rep (affine d v g) (affinePoly v g) := by
  refine ⟨⟨?_, ?_, hd⟩, Cong.of_eq ?_⟩
  · refine List.pairwise_cons.2 ⟨?_, ?_⟩
    · intro t ht
      obtain ⟨j, _, rfl⟩ := List.mem_map.1 ht
      refine gl_zeroIx (by simp [sum_unitIx]) ?_
      intro h
      have := sum_unitIx j
      rw [show unitIx j = zeroIx n from h, sum_zeroIx] at this
      omega
    · rw [List.pairwise_map]
      exact (List.pairwise_lt_finRange n).imp (fun h => gl_unitIx h)
  · intro t ht
    rcases List.mem_cons.1 ht with rfl | ht
    · simp only; rw [sum_zeroIx]; omega
    · obtain ⟨j, _, rfl⟩ := List.mem_map.1 ht
      simp only; rw [sum_unitIx]; exact h1
  · rw [poly, affine, toPoly_cons, toPoly_units, mono_zeroIx, affinePoly]
    rw [← List.sum_ofFn, List.ofFn_eq_map]
    rfl

omit [DecidableEq K] in
theorem rep_var {d : Nat} (h1 : 1 ≤ d) (hd : d ≤ 65535) (v : K) (j : Fin n) :
    Rep (var d v j) (MvPolynomial.C v + MvPolynomial.X j) := by
  refine ⟨⟨?_, ?_, hd⟩, Cong.of_eq ?_⟩
  · refine List.pairwise_pair.2 ?_
    refine gl_zeroIx (by simp [sum_unitIx]) ?_
    intro h
    have := sum_unitIx j
    rw [show unitIx j = zeroIx n from h, sum_zeroIx] at this
    omega
  · intro t ht
    rcases List.mem_cons.1 ht with rfl | ht
    · simp only; rw [sum_zeroIx]; omega
    · rw [List.mem_singleton] at ht; subst ht
      simp only; rw [sum_unitIx]; exact h1
  · rw [poly, var, toPoly_cons, toPoly_cons, toPoly_nil, mono_zeroIx, mono_unitIx, add_zero]
    rfl

theorem C44_variable (d : Nat) (h1 : 1 ≤ d) (hd : d ≤ 65535) (v : K) (j : Fin n) :
    Rep (var d v j) (MvPolynomial.C v + MvPolynomial.X j) ∧ (var d v j).deg = d :=
  ⟨rep_var h1 hd v j, rfl⟩

theorem C44_affine (d : Nat) (h1 : 1 ≤ d) (hd : d ≤ 65535) (v : K) (g : Fin n → K) :
    Rep (affine d v g) (MvPolynomial.C v + ∑ j, MvPolynomial.C (g j) * MvPolynomial.X j) ∧
      (affine d v g).deg = d :=
  ⟨rep_affine h1 hd v g, rfl⟩

/-- **C44** (construction from any list of terms): the terms of degree at most `d`, added up. -/
theorem C44_of_expansion (e : Terms (MIndex n) K) (d : Nat) (hd : d ≤ 65535)
    (hf : ∀ t ∈ e, t.1.1.sum ≤ 65535) :
    Rep (ofExpansion e d) (toPoly e) ∧ (ofExpansion e d).deg = d := by
  obtain ⟨h1, h2, h3⟩ := cleanup_spec (e.filter (fun t => decide (degree t.1.1 ≤ d)))
  refine ⟨⟨⟨h1, ?_, hd⟩, ?_⟩, rfl⟩
  · intro t ht
    obtain ⟨-, u, hu, he⟩ := h3 t ht
    have h4 := List.mem_filter.1 hu
    have h5 := of_decide_eq_true h4.2
    rw [degree_eq_sum (hf u h4.1), he] at h5
    exact h5
  · unfold poly ofExpansion
    simp only
    rw [h2]
    clear h1 h2 h3
    induction e with
    | nil => exact Cong.refl _
    | cons t e ih =>
      have ih' := ih (fun u hu => hf u (by simp [hu]))
      have ht := degree_eq_sum (hf t (by simp))
      by_cases h : degree t.1.1 ≤ d
      · rw [List.filter_cons_of_pos (by simpa using h), toPoly_cons, toPoly_cons]
        exact (Cong.refl _).add ih'
      · rw [List.filter_cons_of_neg (by simpa using h), toPoly_cons]
        intro f hfd
        rw [MvPolynomial.coeff_add, MvPolynomial.coeff_monomial, if_neg, zero_add]
        · exact ih' f hfd
        · intro e'
          rw [ht, ← degree_mono, e'] at h
          omega

/-! ### Updates -/

omit [Field K] [DecidableEq K] in
/-- The indices after an update. -/
theorem mem_supdate [Zero K] {e : Terms (MIndex n) K} (h : Sorted gl e) (a : MIndex n) (f : K → K)
    {t : MIndex n × K} (ht : t ∈ supdate gl e a f) : t.1 = a ∨ t ∈ e := by
  obtain ⟨p, q, rfl, hl, -, -⟩ := lowerBound_cut (gl_strict n) e h a
  have hins : insertAt (p ++ q) (lowerBound gl (p ++ q) a) a (f 0) = p ++ (a, f 0) :: q := by
    rw [← hl]; exact insertAt_eq p q a (f 0)
  have hmem : t ∈ p ++ (a, f 0) :: q → t.1 = a ∨ t ∈ p ++ q := by
    intro h
    rcases List.mem_append.1 h with h | h
    · exact .inr (by simp [h])
    · rcases List.mem_cons.1 h with rfl | h
      · exact .inl rfl
      · exact .inr (by simp [h])
  unfold supdate at ht
  rw [hins] at ht
  split at ht
  · exact hmem ht
  · rename_i u hu
    split at ht
    · exact hmem ht
    · rename_i hua
      rcases List.mem_or_eq_of_mem_set ht with h | rfl
      · exact .inr h
      · exact .inl (not_not.1 hua)

theorem setCoef_spec {x : Diff n K} (h : WF x) (a : MIndex n) (ha : a.1.sum ≤ x.deg) (c : K) :
    WF (setCoef x a c) ∧ (setCoef x a c).deg = x.deg ∧
    ∀ b, (poly (setCoef x a c)).coeff (mono b) = if b = a then c else (poly x).coeff (mono b) := by
  obtain ⟨h1, h2⟩ := C23_sorted_set (gl_strict n) x.terms h.sorted a c
  refine ⟨⟨h1, ?_, h.small⟩, rfl, ?_⟩
  · intro t ht
    by_cases hta : t.1 = a
    · rw [hta]; exact ha
    · exact h.low t ((mem_supdate h.sorted a (fun _ => c) ht).resolve_left hta)
  · intro b
    rw [poly, coeff_toPoly, poly, coeff_toPoly]
    show coeff (sset gl x.terms a c) b = _
    rw [h2, Function.update_apply]

theorem setValue_spec {x : Diff n K} (h : WF x) (c : K) :
    WF (setValue x c) ∧ (setValue x c).deg = x.deg ∧
    poly (setValue x c) = poly x - MvPolynomial.C (value x) + MvPolynomial.C c := by
  obtain ⟨h1, h2, h3⟩ := setCoef_spec h (zeroIx n) (by rw [sum_zeroIx]; omega) c
  refine ⟨h1, h2, ?_⟩
  ext f
  rw [← mono_ofMono f]
  have h3' := h3 (ofMono f)
  show (poly (setCoef x (zeroIx n) c)).coeff _ = _
  rw [h3', MvPolynomial.coeff_add, MvPolynomial.coeff_sub, MvPolynomial.coeff_C,
    MvPolynomial.coeff_C, ← mono_zeroIx, value_eq h]
  simp only [mono_inj]
  by_cases h0 : ofMono f = zeroIx n
  · rw [h0, if_pos rfl, if_pos rfl, if_pos rfl, mono_zeroIx]; ring
  · rw [if_neg h0, if_neg (Ne.symm h0), if_neg (Ne.symm h0)]; ring

/-- **C44** (assignment through `x[a]`): exactly that coefficient changes. -/
theorem C44_assign (x : Diff n K) (h : WF x) (a : MIndex n) (ha : a.1.sum ≤ x.deg) (c : K) :
    WF (setCoef x a c) ∧ (setCoef x a c).deg = x.deg ∧
    ∀ b, coef (setCoef x a c) b = if b = a then c else coef x b := by
  obtain ⟨h1, h2, h3⟩ := setCoef_spec h a ha c
  refine ⟨h1, h2, fun b => ?_⟩
  rw [coef_eq h1, coef_eq h, h3]

theorem setDegree_spec {x : Diff n K} {p : MvPolynomial (Fin n) K} (h : Rep x p) {d : Nat}
    (hd : d ≤ x.deg) : Rep (setDegree x d) p ∧ (setDegree x d).deg = d := by
  unfold setDegree
  split_ifs with h1
  · have hnot : ∀ a : Nat, (!decide (a > d)) = decide (a ≤ d) := by
      intro a; by_cases h : a ≤ d <;> simp [h] <;> omega
    simp only [hnot]
    obtain ⟨_, _, h2, _⟩ := takeWhile_split h.1.sorted h.1.fits 0 d
    simp only [Nat.zero_add] at h2
    refine ⟨⟨⟨h.1.sorted.sublist (List.takeWhile_sublist _), fun t ht => (h2 t ht).2, ?_⟩, ?_⟩, trivial⟩
    · have := h.1.small; simp only; omega
    · exact (cong_takeWhile h.1.sorted h.1.fits d).trans (h.2.mono hd)
  · have : d = x.deg := by omega
    subst this
    exact ⟨h, rfl⟩

/-- **C44** (lowering the degree): the differential of lower degree represents the same function. -/
theorem C44_set_degree (x : Diff n K) (p : MvPolynomial (Fin n) K) (h : Rep x p) (d : Nat)
    (hd : d ≤ x.deg) : Rep (setDegree x d) p ∧ (setDegree x d).deg = d := setDegree_spec h hd

/-! ### Arithmetic -/

/-- **C44** (negation) -/
theorem C44_neg (x : Diff n K) (p : MvPolynomial (Fin n) K) (h : Rep x p) :
    Rep (neg x) (-p) ∧ (neg x).deg = x.deg := by
  have e : poly (neg x) = -poly x := by
    rw [poly, neg, toPoly_map (s := fun a => -a) (c := -1) (by intro a; ring), poly,
      MvPolynomial.C_neg, MvPolynomial.C_1]
    ring
  refine ⟨⟨⟨List.pairwise_map.2 h.1.sorted, ?_, h.1.small⟩, ?_⟩, rfl⟩
  · intro t ht
    obtain ⟨u, hu, rfl⟩ := List.mem_map.1 ht
    exact h.1.low u hu
  · rw [e]; exact h.2.neg

/-- **C44** (adding a number) -/
theorem C44_add_scalar (x : Diff n K) (p : MvPolynomial (Fin n) K) (c : K) (h : Rep x p) :
    Rep (addScalar x c) (p + MvPolynomial.C c) ∧ (addScalar x c).deg = x.deg := by
  have key : WF (addScalar x c) ∧ poly (addScalar x c) = poly x + MvPolynomial.C c ∧
      (addScalar x c).deg = x.deg := by
    obtain ⟨d, ts⟩ := x
    have hw := h.1
    cases ts with
    | nil =>
      refine ⟨⟨List.pairwise_singleton _ _, ?_, hw.small⟩, ?_, rfl⟩
      · intro t ht
        rw [addScalar, Expansion.append, List.nil_append, List.mem_singleton] at ht
        subst ht; simp only; rw [sum_zeroIx]; omega
      · rw [poly, addScalar, Expansion.append, List.nil_append, toPoly_cons, toPoly_nil, poly,
          toPoly_nil, mono_zeroIx, add_comm]; rfl
    | cons t ts =>
      unfold addScalar
      simp only
      split_ifs with h0
      · rw [C23_prepend]
        have hs := List.pairwise_cons.1 hw.sorted
        have hz : gl (zeroIx n) t.1 = true := gl_zeroIx (hw.fits t (by simp)) h0
        refine ⟨⟨List.pairwise_cons.2 ⟨?_, hw.sorted⟩, ?_, hw.small⟩, ?_, rfl⟩
        · intro u hu
          rcases List.mem_cons.1 hu with rfl | hu
          · exact hz
          · exact (gl_strict n).trans _ _ _ hz (hs.1 u hu)
        · intro u hu
          rcases List.mem_cons.1 hu with rfl | hu
          · simp only; rw [sum_zeroIx]; omega
          · exact hw.low u hu
        · rw [poly, toPoly_cons, poly, mono_zeroIx, add_comm]; rfl
      · rw [not_not] at h0
        have hs := List.pairwise_cons.1 hw.sorted
        refine ⟨⟨List.pairwise_cons.2 ⟨hs.1, hs.2⟩, ?_, hw.small⟩, ?_, rfl⟩
        · intro u hu
          rcases List.mem_cons.1 hu with rfl | hu
          · exact hw.low t (by simp)
          · exact hw.low u (by simp [hu])
        · rw [poly, toPoly_cons, poly, toPoly_cons]
          simp only
          rw [h0, mono_zeroIx, map_add]
          show _ = _ + MvPolynomial.monomial 0 c
          ring
  refine ⟨⟨key.1, ?_⟩, key.2.2⟩
  rw [key.2.1, key.2.2]
  exact h.2.add (Cong.refl _)

/-- **C44** (multiplying by a number) -/
theorem C44_mul_scalar (x : Diff n K) (p : MvPolynomial (Fin n) K) (c : K) (h : Rep x p) :
    Rep (mulScalar x c) (p * MvPolynomial.C c) ∧ (mulScalar x c).deg = x.deg := by
  unfold mulScalar
  split_ifs with h0
  · subst h0
    refine ⟨⟨⟨List.Pairwise.nil, by simp, h.1.small⟩, Cong.of_eq ?_⟩, rfl⟩
    rw [poly, toPoly_nil, MvPolynomial.C_0, mul_zero]
  · refine ⟨⟨⟨List.pairwise_map.2 h.1.sorted, ?_, h.1.small⟩, ?_⟩, rfl⟩
    · intro t ht
      obtain ⟨u, hu, rfl⟩ := List.mem_map.1 ht
      exact h.1.low u hu
    · rw [poly, toPoly_map (s := fun a => a * c) (c := c) (by intro a; ring), mul_comm]
      exact h.2.mul (Cong.refl _)

/-- **C44** (sum) -/
theorem C44_add (x y : Diff n K) (p q : MvPolynomial (Fin n) K) (hx : Rep x p) (hy : Rep y q) :
    Rep (add x y) (p + q) ∧ (add x y).deg = min x.deg y.deg := by
  obtain ⟨h1, h2, h3⟩ := mergeF_spec (s := id) (c := (1 : K)) (by intro a; simp) x.deg y.deg _
    x.terms y.terms (le_refl _) hx.1.sorted hy.1.sorted hx.1.low hy.1.low hx.1.small hy.1.small
  refine ⟨⟨⟨h1, h2, (min_le_left _ _).trans hx.1.small⟩, h3.trans ?_⟩, rfl⟩
  rw [MvPolynomial.C_1, one_mul]
  exact (hx.2.mono (min_le_left _ _)).add (hy.2.mono (min_le_right _ _))

/-- **C44** (difference) -/
theorem C44_sub (x y : Diff n K) (p q : MvPolynomial (Fin n) K) (hx : Rep x p) (hy : Rep y q) :
    Rep (sub x y) (p - q) ∧ (sub x y).deg = min x.deg y.deg := by
  obtain ⟨h1, h2, h3⟩ := mergeF_spec (s := fun a => -a) (c := (-1 : K)) (by intro a; ring) x.deg
    y.deg _ x.terms y.terms (le_refl _) hx.1.sorted hy.1.sorted hx.1.low hy.1.low hx.1.small
    hy.1.small
  refine ⟨⟨⟨h1, h2, (min_le_left _ _).trans hx.1.small⟩, h3.trans ?_⟩, rfl⟩
  rw [MvPolynomial.C_neg, MvPolynomial.C_1, neg_one_mul, ← sub_eq_add_neg]
  exact (hx.2.mono (min_le_left _ _)).sub (hy.2.mono (min_le_right _ _))

/-- **C44** (product) -/
theorem C44_mul (x y : Diff n K) (p q : MvPolynomial (Fin n) K) (hx : Rep x p) (hy : Rep y q) :
    Rep (mul x y) (p * q) ∧ (mul x y).deg = min x.deg y.deg := by
  have hd : min x.deg y.deg ≤ 65535 := (min_le_left _ _).trans hx.1.small
  obtain ⟨h1, h2, h3⟩ := cleanup_spec (products (min x.deg y.deg) x.terms y.terms)
  refine ⟨⟨⟨h1, ?_, hd⟩, ?_⟩, rfl⟩
  · intro t ht
    obtain ⟨-, u, hu, e⟩ := h3 t ht
    rw [← e]
    exact products_mem _ _ _ hx.1.fits hy.1.fits hd u hu
  · show Cong (min x.deg y.deg) (toPoly (cleanup _)) _
    rw [h2]
    exact (products_cong _ _ _ hx.1.sorted hy.1.sorted hx.1.fits hy.1.fits hd).trans
      ((hx.2.mono (min_le_left _ _)).mul (hy.2.mono (min_le_right _ _)))

theorem powLoop_spec (f : Nat) (r p : Diff n K) (R P : MvPolynomial (Fin n) K) (k : Nat)
    (hr : Rep r R) (hp : Rep p P) (hd : r.deg = p.deg) (hf : k < f) :
    Rep (powLoop f r p k) (R * P ^ k) ∧ (powLoop f r p k).deg = r.deg := by
  induction f generalizing r p R P k with
  | zero => omega
  | succ f ih =>
    rw [powLoop]
    by_cases hk : k ≠ 0
    · rw [if_pos hk]
      obtain ⟨m1, m2⟩ := C44_mul p p P P hp hp
      by_cases h1 : k % 2 = 1
      · rw [if_pos h1]
        obtain ⟨m3, m4⟩ := C44_mul r p R P hr hp
        obtain ⟨i1, i2⟩ := ih _ _ _ _ (k / 2) m3 m1 (by rw [m2, m4, hd]) (by omega)
        refine ⟨?_, by rw [i2, m4, hd, min_self]⟩
        have : R * P * (P * P) ^ (k / 2) = R * P ^ k := by
          conv_rhs => rw [show k = 2 * (k / 2) + 1 by omega]
          rw [pow_succ, pow_mul]; ring
        rw [← this]; exact i1
      · rw [if_neg h1]
        obtain ⟨i1, i2⟩ := ih _ _ _ _ (k / 2) hr m1 (by rw [m2, hd, min_self]) (by omega)
        refine ⟨?_, i2⟩
        have : R * (P * P) ^ (k / 2) = R * P ^ k := by
          conv_rhs => rw [show k = 2 * (k / 2) by omega]
          rw [pow_mul]; ring
        rw [← this]; exact i1
    · rw [if_neg hk]
      rw [not_not] at hk
      subst hk
      rw [pow_zero, mul_one]
      exact ⟨hr, rfl⟩

/-- **C44** (natural powers) -/
theorem C44_pow (x : Diff n K) (p : MvPolynomial (Fin n) K) (hx : Rep x p) (k : Nat) :
    Rep (pow x k) (p ^ k) ∧ (pow x k).deg = x.deg := by
  obtain ⟨h1, h2⟩ := C44_mul_scalar x p 0 hx
  obtain ⟨h3, h4⟩ := C44_add_scalar _ _ 1 h1
  obtain ⟨h5, h6⟩ := powLoop_spec (k + 1) _ x _ p k h3 hx (by rw [h4, h2]) (by omega)
  refine ⟨?_, by rw [pow, h6, h4, h2]⟩
  rw [MvPolynomial.C_0, mul_zero, zero_add, MvPolynomial.C_1, one_mul] at h5
  exact h5

end Verif.Differential
