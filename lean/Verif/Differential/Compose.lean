import Verif.Differential.Arith
import Mathlib.Algebra.MvPolynomial.Monad
/-!
# C44: composition of differentials
-/
namespace Verif.Differential
open Verif.Expansion

variable {n m : Nat} {K : Type*} [Field K]

/-! ### Order of vanishing -/

/-- All terms of the polynomial have degree at least `k`. -/
def Ord (k : Nat) (p : MvPolynomial (Fin n) K) : Prop :=
  ∀ f : Fin n →₀ ℕ, f.degree < k → p.coeff f = 0

namespace Ord
variable {j k : Nat} {p q : MvPolynomial (Fin n) K}

theorem zero (p : MvPolynomial (Fin n) K) : Ord 0 p := fun _ h => absurd h (by omega)
theorem of_zero : Ord k (0 : MvPolynomial (Fin n) K) := fun _ _ => MvPolynomial.coeff_zero _
theorem add (h : Ord k p) (h' : Ord k q) : Ord k (p + q) := by
  intro f hf; rw [MvPolynomial.coeff_add, h f hf, h' f hf, add_zero]
theorem neg (h : Ord k p) : Ord k (-p) := by
  intro f hf; rw [MvPolynomial.coeff_neg, h f hf, neg_zero]
theorem sub (h : Ord k p) (h' : Ord k q) : Ord k (p - q) := by
  rw [sub_eq_add_neg]; exact h.add h'.neg
theorem mul (h : Ord j p) (h' : Ord k q) : Ord (j + k) (p * q) := by
  intro f hf
  rw [MvPolynomial.coeff_mul]
  apply Finset.sum_eq_zero
  intro u hu
  rw [Finset.mem_antidiagonal] at hu
  have : u.1.degree + u.2.degree = f.degree := by rw [← hu, map_add]
  by_cases h1 : u.1.degree < j
  · rw [h _ h1, zero_mul]
  · rw [h' _ (by omega), mul_zero]
theorem mono (h : Ord k p) (hj : j ≤ k) : Ord j p := fun f hf => h f (by omega)
theorem mul_left (h : Ord k q) (p : MvPolynomial (Fin n) K) : Ord k (p * q) := by
  have := (zero p).mul h
  rwa [Nat.zero_add] at this
theorem pow (h : Ord 1 p) (k : Nat) : Ord k (p ^ k) := by
  induction k with
  | zero => exact zero _
  | succ k ih => rw [pow_succ]; exact ih.mul h
theorem prod {ι : Type*} (s : Finset ι) (P : ι → MvPolynomial (Fin n) K) (e : ι → Nat)
    (h : ∀ i ∈ s, Ord (e i) (P i)) : Ord (∑ i ∈ s, e i) (∏ i ∈ s, P i) := by
  classical
  induction s using Finset.induction_on with
  | empty => simpa using zero _
  | insert a s ha ih =>
    rw [Finset.sum_insert ha, Finset.prod_insert ha]
    exact (h a (by simp)).mul (ih (fun i hi => h i (by simp [hi])))
theorem sum {ι : Type*} (s : Finset ι) (P : ι → MvPolynomial (Fin n) K)
    (h : ∀ i ∈ s, Ord k (P i)) : Ord k (∑ i ∈ s, P i) := by
  intro f hf
  rw [MvPolynomial.coeff_sum]
  exact Finset.sum_eq_zero (fun i hi => h i hi f hf)
end Ord

theorem cong_iff_ord {d : Nat} {p q : MvPolynomial (Fin n) K} :
    Cong d p q ↔ Ord (d + 1) (p - q) := by
  constructor
  · intro h f hf
    rw [MvPolynomial.coeff_sub, h f (by omega), sub_self]
  · intro h f hf
    have := h f (by omega)
    rw [MvPolynomial.coeff_sub] at this
    exact sub_eq_zero.1 this

/-- The polynomial without its constant term. -/
noncomputable def center (p : MvPolynomial (Fin n) K) : MvPolynomial (Fin n) K :=
  p - MvPolynomial.C (p.coeff 0)

theorem ord_center (p : MvPolynomial (Fin n) K) : Ord 1 (center p) := by
  intro f hf
  have : f = 0 := (Finsupp.degree_eq_zero_iff f).1 (by omega)
  subst this
  rw [center, MvPolynomial.coeff_sub, MvPolynomial.coeff_C, if_pos rfl, sub_self]

theorem Cong.center {d : Nat} {p q : MvPolynomial (Fin n) K} (h : Cong d p q) :
    Cong d (center p) (center q) := by
  unfold Differential.center
  rw [h 0 (by rw [map_zero]; omega)]
  exact h.sub (Cong.refl _)

theorem bind_monomial (q : Fin m → MvPolynomial (Fin n) K) (f : Fin m →₀ ℕ) (c : K) :
    MvPolynomial.bind₁ q (MvPolynomial.monomial f c) =
      MvPolynomial.C c * ∏ i, q i ^ f i := by
  rw [MvPolynomial.bind₁_monomial]
  congr 1
  exact Finset.prod_subset (Finset.subset_univ _) (fun i _ hi => by
    rw [Finsupp.notMem_support_iff.1 hi, pow_zero])

theorem ord_bind {k : Nat} {q : Fin m → MvPolynomial (Fin n) K} (hq : ∀ i, Ord 1 (q i))
    {p : MvPolynomial (Fin m) K} (hp : Ord k p) : Ord k (MvPolynomial.bind₁ q p) := by
  rw [p.as_sum, map_sum]
  apply Ord.sum
  intro f hf
  rw [bind_monomial]
  have h1 : k ≤ f.degree := by
    by_contra hc
    exact (MvPolynomial.mem_support_iff.1 hf) (hp f (by omega))
  refine Ord.mul_left (Ord.mono ?_ h1) _
  rw [Finsupp.degree_eq_sum]
  exact Ord.prod _ _ _ (fun i _ => (hq i).pow _)

/-- Replacing the outer polynomial by a congruent one. -/
theorem Cong.bind_outer {d : Nat} {q : Fin m → MvPolynomial (Fin n) K} (hq : ∀ i, Ord 1 (q i))
    {p p' : MvPolynomial (Fin m) K} (h : Cong d p p') :
    Cong d (MvPolynomial.bind₁ q p) (MvPolynomial.bind₁ q p') := by
  rw [cong_iff_ord] at h ⊢
  rw [← map_sub]
  exact ord_bind hq h

/-- Replacing the inner polynomials by congruent ones. -/
theorem Cong.bind_inner {d : Nat} {q q' : Fin m → MvPolynomial (Fin n) K}
    (h : ∀ i, Cong d (q i) (q' i)) (p : MvPolynomial (Fin m) K) :
    Cong d (MvPolynomial.bind₁ q p) (MvPolynomial.bind₁ q' p) := by
  induction p using MvPolynomial.induction_on with
  | C a => simp only [MvPolynomial.algHom_C]; exact Cong.refl _
  | add p p' h1 h2 => rw [map_add, map_add]; exact h1.add h2
  | mul_X p i h1 =>
    rw [map_mul, map_mul, MvPolynomial.bind₁_X_right, MvPolynomial.bind₁_X_right]
    exact h1.mul (h i)

variable [DecidableEq K]

/-! ### Composition with a univariate differential -/

omit [DecidableEq K] in
/-- Clearing the leading coefficient on line 581. -/
theorem clear_head {d : Nat} {t : MIndex n × K} {ts : Terms (MIndex n) K} (h : WF ⟨d, t :: ts⟩) :
    WF ⟨d, (if degree t.1.1 = 0 then (t.1, 0) else t) :: ts⟩ ∧
    poly (⟨d, (if degree t.1.1 = 0 then (t.1, 0) else t) :: ts⟩ : Diff n K) =
      center (poly ⟨d, t :: ts⟩) := by
  have hs := List.pairwise_cons.1 h.sorted
  have hi : (if degree t.1.1 = 0 then (t.1, (0 : K)) else t).1 = t.1 := by split_ifs <;> rfl
  refine ⟨⟨List.pairwise_cons.2 ⟨?_, hs.2⟩, ?_, h.small⟩, ?_⟩
  · intro u hu; rw [hi]; exact hs.1 u hu
  · intro u hu
    rcases List.mem_cons.1 hu with rfl | hu
    · rw [hi]; exact h.low t (by simp)
    · exact h.low u (by simp [hu])
  · rw [degree_eq_sum (h.fits t (by simp)), center]
    have hz : ∀ u ∈ ts, u.1 ≠ zeroIx n := by
      intro u hu e
      have h1 := hs.1 u hu
      have h2 := sum_le_of_gl h1 (h.fits t (by simp)) (h.fits u (by simp [hu]))
      rw [e, sum_zeroIx] at h2
      have := eq_zeroIx_of_sum (Nat.le_zero.1 h2)
      rw [this, e, (gl_strict n).irrefl] at h1
      cases h1
    have h0 : (toPoly ts).coeff 0 = 0 := by
      rw [← mono_zeroIx, coeff_toPoly]; exact coeff_eq_zero hz
    rw [poly, poly]
    simp only
    rw [toPoly_cons, toPoly_cons, MvPolynomial.coeff_add, h0]
    by_cases hc : t.1.1.sum = 0
    · rw [if_pos hc]
      simp only
      rw [eq_zeroIx_of_sum hc, mono_zeroIx, map_zero, MvPolynomial.coeff_monomial, if_pos rfl]
      show _ = MvPolynomial.C t.2 + _ - _
      rw [add_zero]; ring
    · rw [if_neg hc, MvPolynomial.coeff_monomial, if_neg]
      · rw [add_zero, MvPolynomial.C_0, sub_zero]
      · intro e
        apply hc
        rw [← degree_mono, e, map_zero]

theorem composeLoop_spec (x : List K) (d : Nat) (w : Diff n K) (W : MvPolynomial (Fin n) K)
    (hw : Rep w W) (hd : d ≤ w.deg) (r : Diff n K) (hr : Rep r (MvPolynomial.C (x.getD d 0)))
    (hrd : r.deg = d) (k : Nat) (hk : k ≤ d) :
    Rep (composeLoop x d w k r)
      (∑ i ∈ Finset.range (k + 1), MvPolynomial.C (x.getD (d - k + i) 0) * W ^ i) ∧
    (composeLoop x d w k r).deg = d := by
  induction k with
  | zero => simpa [composeLoop] using ⟨hr, hrd⟩
  | succ k ih =>
    obtain ⟨i1, i2⟩ := ih (by omega)
    obtain ⟨m1, m2⟩ := C44_mul _ _ _ _ i1 hw
    obtain ⟨a1, a2⟩ := C44_add_scalar _ _ (x.getD (d - (k + 1)) 0) m1
    rw [composeLoop]
    refine ⟨?_, by rw [a2, m2, i2]; omega⟩
    rw [Finset.sum_range_succ', pow_zero, mul_one]
    convert a1 using 2
    · rw [Finset.sum_mul]
      apply Finset.sum_congr rfl
      intro i _
      rw [show d - (k + 1) + (i + 1) = d - k + i by omega, pow_succ]
      ring
    · rfl

/-- **C44** (composition with a univariate differential): composing the series
`x_0 + x_1 (s-v) + x_2 (s-v)² + …` with a differential whose value is `v`, to the lesser degree. -/
theorem C44_compose_univariate_partial (x : List K) (y : Diff n K) (p : MvPolynomial (Fin n) K)
    (hx : x.length ≤ 65536) (hy : Rep y p) (hne : y.terms ≠ []) :
    ∃ r, composeU x y = some r ∧ r.deg = min (x.length - 1) y.deg ∧
      Rep r (∑ i ∈ Finset.range (r.deg + 1),
        MvPolynomial.C (x.getD i 0) * (p - MvPolynomial.C (p.coeff 0)) ^ i) := by
  obtain ⟨d, ts⟩ := y
  cases ts with
  | nil => exact absurd rfl hne
  | cons t ts =>
    obtain ⟨h1, h2⟩ := clear_head hy.1
    have hz := setCoef_spec (x := (zero (min (x.length - 1) d) : Diff n K))
      (rep_zero (by omega)).1 (zeroIx n) (by rw [sum_zeroIx]; omega) (x.getD (min (x.length - 1) d) 0)
    have hr : Rep (setCoef (zero (min (x.length - 1) d)) (zeroIx n)
        (x.getD (min (x.length - 1) d) 0) : Diff n K)
        (MvPolynomial.C (x.getD (min (x.length - 1) d) 0)) := by
      refine ⟨hz.1, Cong.of_eq ?_⟩
      ext f
      rw [← mono_ofMono f, hz.2.2, MvPolynomial.coeff_C, ← mono_zeroIx]
      simp only [mono_inj]
      by_cases h0 : ofMono f = zeroIx n
      · rw [if_pos h0, if_pos h0.symm]
      · rw [if_neg h0, if_neg (Ne.symm h0)]; rfl
    have hw : Rep (⟨d, (if degree t.1.1 = 0 then (t.1, 0) else t) :: ts⟩ : Diff n K)
        (p - MvPolynomial.C (p.coeff 0)) := ⟨h1, by rw [h2]; exact hy.2.center⟩
    obtain ⟨c1, c2⟩ := composeLoop_spec x (min (x.length - 1) d) _ _ hw (min_le_right _ _) _ hr
      hz.2.1 (min (x.length - 1) d) (le_refl _)
    refine ⟨_, rfl, c2, ?_⟩
    simp only at c2 ⊢
    rw [c2]
    simpa using c1

/-- What is missing from `C44_compose_univariate_partial`: a differential without terms, such as the
result of multiplying by zero, makes the composition read beyond the end of its terms. -/
theorem C44_compose_empty (x : List K) (d : Nat) :
    composeU x (⟨d, []⟩ : Diff n K) = none := rfl

/-! ### Composition of differentials -/

/-- The differential represents the polynomial at least to degree `d`. -/
structure RepAt (d : Nat) (x : Diff n K) (p : MvPolynomial (Fin n) K) : Prop where
  wf : WF x
  le : d ≤ x.deg
  cong : Cong d (poly x) p

theorem RepAt.mul {d : Nat} {x y : Diff n K} {p q : MvPolynomial (Fin n) K} (hx : RepAt d x p)
    (hy : RepAt d y q) : RepAt d (mul x y) (p * q) ∧ (Differential.mul x y).deg = min x.deg y.deg := by
  obtain ⟨h1, h2⟩ := C44_mul x y _ _ hx.wf.rep hy.wf.rep
  have hd : d ≤ (Differential.mul x y).deg := by rw [h2]; exact le_min hx.le hy.le
  exact ⟨⟨h1.1, hd, (h1.2.mono hd).trans (hx.cong.mul hy.cong)⟩, h2⟩

theorem RepAt.add {d : Nat} {x y : Diff n K} {p q : MvPolynomial (Fin n) K} (hx : RepAt d x p)
    (hy : RepAt d y q) : RepAt d (add x y) (p + q) ∧ (Differential.add x y).deg = min x.deg y.deg := by
  obtain ⟨h1, h2⟩ := C44_add x y _ _ hx.wf.rep hy.wf.rep
  have hd : d ≤ (Differential.add x y).deg := by rw [h2]; exact le_min hx.le hy.le
  exact ⟨⟨h1.1, hd, (h1.2.mono hd).trans (hx.cong.add hy.cong)⟩, h2⟩

theorem RepAt.mulScalar {d : Nat} {x : Diff n K} {p : MvPolynomial (Fin n) K} (hx : RepAt d x p)
    (c : K) : RepAt d (mulScalar x c) (p * MvPolynomial.C c) ∧
      (Differential.mulScalar x c).deg = x.deg := by
  obtain ⟨h1, h2⟩ := C44_mul_scalar x _ c hx.wf.rep
  have hd : d ≤ (Differential.mulScalar x c).deg := by rw [h2]; exact hx.le
  exact ⟨⟨h1.1, hd, (h1.2.mono hd).trans (hx.cong.mul (Cong.refl _))⟩, h2⟩

theorem Rep.at {x : Diff n K} {p : MvPolynomial (Fin n) K} (h : Rep x p) {d : Nat}
    (hd : d ≤ x.deg) : RepAt d x p := ⟨h.1, hd, h.2.mono hd⟩

theorem powTable_spec {d : Nat} {one a : Diff n K} {p : MvPolynomial (Fin n) K}
    (h1 : RepAt d one 1) (ha : RepAt d a p) (k : Nat) : RepAt d (powTable one a k) (p ^ k) := by
  induction k using powTable.induct with
  | case1 => rw [powTable, pow_zero]; exact h1
  | case2 => rw [powTable, pow_one]; exact ha
  | case3 k ih => rw [powTable, pow_succ]; exact (ih.mul ha).1

theorem evalTerm_spec {d : Nat} {one : Diff n K} (h1 : RepAt d one 1) (hd : one.deg = d)
    (a : DVec m n K) (q : Fin m → MvPolynomial (Fin n) K) (ha : ∀ i, RepAt d (a.comp i) (q i))
    (j : MIndex m) :
    RepAt d (evalTerm one a j) (∏ i, q i ^ mono j i) ∧ (evalTerm one a j).deg = d := by
  have key : ∀ (l : List (Fin m)) (t : Diff n K) (T : MvPolynomial (Fin n) K), RepAt d t T →
      t.deg = d →
      RepAt d (l.foldl (fun t k => mul t (powTable one (a.comp k) (getIx j k))) t)
        (T * (l.map (fun i => q i ^ mono j i)).prod) ∧
      (l.foldl (fun t k => mul t (powTable one (a.comp k) (getIx j k))) t).deg = d := by
    intro l
    induction l with
    | nil => intro t T ht htd; simpa using ⟨ht, htd⟩
    | cons i l ih =>
      intro t T ht htd
      have hp := powTable_spec h1 (ha i) (getIx j i)
      obtain ⟨m1, m2⟩ := ht.mul hp
      have := ih _ _ m1 (by rw [m2, htd]; exact min_eq_left hp.le)
      simp only [List.foldl_cons, List.map_cons, List.prod_cons]
      rw [← mul_assoc]
      exact this
  have := key (List.finRange m) one 1 h1 hd
  rw [one_mul, ← List.ofFn_eq_map, List.prod_ofFn] at this
  exact this

theorem evaluate_spec {x : Diff m K} (hx : WF x) (h1 : 1 ≤ x.deg) (a : DVec m n K)
    (q : Fin m → MvPolynomial (Fin n) K) (ha : ∀ i, RepAt a.deg (a.comp i) (q i))
    (hs : a.deg ≤ 65535) :
    ∃ r, evaluate x a = some r ∧ r.deg = a.deg ∧ Rep r (MvPolynomial.bind₁ q (poly x)) := by
  have hone : Rep (const a.deg 1 : Diff n K) 1 := by
    have := rep_const (n := n) (K := K) hs 1
    rwa [MvPolynomial.C_1] at this
  have hany : x.terms.any (fun t => t.1.1.any (fun k => decide (x.deg < k))) = false := by
    rw [List.any_eq_false]
    intro t ht
    rw [Bool.not_eq_true, List.any_eq_false]
    intro k hk
    have h2 := mem_le_sum hk
    have h3 := hx.low t ht
    simp; omega
  have key : ∀ (l : Terms (MIndex m) K) (r : Diff n K) (R : MvPolynomial (Fin n) K), Rep r R →
      r.deg = a.deg →
      Rep (l.foldl (fun r t => add r (mulScalar (evalTerm (const a.deg 1) a t.1) t.2)) r)
        (R + MvPolynomial.bind₁ q (toPoly l)) ∧
      (l.foldl (fun r t => add r (mulScalar (evalTerm (const a.deg 1) a t.1) t.2)) r).deg = a.deg := by
    intro l
    induction l with
    | nil => intro r R hr hd; simpa using ⟨hr, hd⟩
    | cons t l ih =>
      intro r R hr hd
      obtain ⟨e1, e2⟩ := evalTerm_spec (hone.at (le_refl _)) rfl a q ha t.1
      obtain ⟨m1, m2⟩ := e1.mulScalar t.2
      have hm : Rep (mulScalar (evalTerm (const a.deg 1) a t.1) t.2)
          (MvPolynomial.bind₁ q (MvPolynomial.monomial (mono t.1) t.2)) := by
        refine ⟨m1.wf, ?_⟩
        rw [m2, e2, bind_monomial, mul_comm]
        exact m1.cong
      obtain ⟨a1, a2⟩ := C44_add _ _ _ _ hr hm
      have := ih _ _ a1 (by rw [a2, hd, m2, e2]; exact min_self _)
      simp only [List.foldl_cons]
      rw [toPoly_cons, map_add, ← add_assoc]
      exact this
  obtain ⟨k1, k2⟩ := key x.terms (const a.deg 0) _ (rep_const hs 0) rfl
  refine ⟨_, ?_, k2, ?_⟩
  · unfold evaluate
    rw [if_neg (not_not.2 h1), if_neg (by rw [hany]; simp)]
  · rw [MvPolynomial.C_0, zero_add] at k1
    exact k1

/-- The invariant of a vector of differentials: every component has at least the degree of the
vector. -/
structure VRep (y : DVec m n K) (q : Fin m → MvPolynomial (Fin n) K) : Prop where
  comp : ∀ i, RepAt y.deg (y.comp i) (q i)
  small : y.deg ≤ 65535

theorem clearValues_spec {y : DVec m n K} {q : Fin m → MvPolynomial (Fin n) K} (hy : VRep y q) :
    VRep (clearValues y) (fun i => center (q i)) := by
  refine ⟨fun i => ?_, hy.small⟩
  obtain ⟨h1, h2, h3⟩ := setValue_spec (hy.comp i).wf 0
  refine ⟨h1, ?_, ?_⟩
  · show y.deg ≤ (setValue (y.comp i) 0).deg
    rw [h2]; exact (hy.comp i).le
  · show Cong y.deg (poly (setValue (y.comp i) 0)) _
    rw [h3, MvPolynomial.C_0, add_zero, value_eq (hy.comp i).wf]
    exact (hy.comp i).cong.center

/-- **C44** (composition): composing the differential of `f` at the value of `y` with `y`
substitutes the polynomials of `y`, taken relative to their values, into that of `f`, to the lesser
degree; and the argument `y` is unchanged. -/
theorem C44_compose_partial (x : Diff m K) (y : DVec m n K) (p : MvPolynomial (Fin m) K)
    (q : Fin m → MvPolynomial (Fin n) K) (hx : Rep x p) (h1 : 1 ≤ x.deg) (hy : VRep y q) :
    (∃ r, (compose x y).1 = some r ∧ r.deg = min x.deg y.deg ∧
      Rep r (MvPolynomial.bind₁ (fun i => q i - MvPolynomial.C ((q i).coeff 0)) p)) ∧
    (compose x y).2.deg = y.deg ∧
    ∀ i, WF ((compose x y).2.comp i) ∧ ((compose x y).2.comp i).deg = (y.comp i).deg ∧
      ∀ a, coef ((compose x y).2.comp i) a = coef (y.comp i) a := by
  have hc := clearValues_spec hy
  obtain ⟨r, e1, e2, e3⟩ := evaluate_spec hx.1 h1 (clearValues y) _ hc.comp hc.small
  have hcomp : compose x y = (some (setDegree r (min x.deg y.deg)),
      ⟨y.deg, fun i => setValue ((clearValues y).comp i) (value (y.comp i))⟩) := by
    unfold compose; rw [e1]
  rw [hcomp]
  refine ⟨?_, rfl, ?_⟩
  · have e2' : r.deg = y.deg := e2
    have hd : min x.deg y.deg ≤ r.deg := by rw [e2']; exact min_le_right _ _
    obtain ⟨s1, s2⟩ := setDegree_spec e3 hd
    refine ⟨_, rfl, s2, s1.1, s1.2.trans ?_⟩
    rw [s2]
    exact (hx.2.mono (min_le_left _ _)).bind_outer (fun i => ord_center (q i))
  · intro i
    obtain ⟨h1, h2, h3⟩ := setValue_spec (hy.comp i).wf 0
    obtain ⟨h4, h5, h6⟩ := setValue_spec (show WF ((clearValues y).comp i) from h1)
      (value (y.comp i))
    refine ⟨h4, h5.trans h2, fun a => ?_⟩
    simp only
    rw [coef_eq h4, h6, coef_eq (hy.comp i).wf]
    have hv : value ((clearValues y).comp i) = 0 := by
      rw [value_eq (show WF ((clearValues y).comp i) from h1)]
      show (poly (setValue (y.comp i) 0)).coeff 0 = 0
      rw [h3, MvPolynomial.C_0, add_zero, value_eq (hy.comp i).wf]
      exact ord_center _ 0 (by rw [map_zero]; omega)
    rw [hv, MvPolynomial.C_0, sub_zero]
    show (poly (setValue (y.comp i) 0) + _).coeff _ = _
    rw [h3, MvPolynomial.C_0, add_zero, sub_add_cancel]

/-- What is missing from `C44_compose_partial`: for a differential `x` of degree zero the composition
throws, and leaves its constant argument with all values cleared. -/
theorem C44_compose_degree_zero (x : Diff m K) (y : DVec m n K) (h : x.deg = 0) :
    compose x y = (none, clearValues y) := by
  unfold compose evaluate
  rw [if_pos (by omega)]

end Verif.Differential
