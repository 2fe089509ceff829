import Verif.Differential.Model
import Mathlib.Algebra.MvPolynomial.Basic
import Mathlib.Algebra.MvPolynomial.CommRing
import Mathlib.Data.Finsupp.Weight
import Mathlib.Algebra.BigOperators.Fin
import Mathlib.Data.List.TakeWhile
import Mathlib.Tactic.LinearCombination
/-!
# The polynomial represented by a differential

The specification of a differential of degree `d` is Mathlib's `MvPolynomial (Fin n) K` up to terms
of degree greater than `d`.
-/
namespace Verif.Differential
open Verif.Expansion

variable {n m : Nat} {K : Type*}

/-- The multi-index as a finitely supported function. -/
noncomputable def mono (a : MIndex n) : Fin n →₀ ℕ := Finsupp.equivFunOnFinite.symm (getIx a)

/-- The multi-index of a finitely supported function. -/
def ofMono (f : Fin n →₀ ℕ) : MIndex n := ⟨List.ofFn f, by simp⟩

theorem mono_apply (a : MIndex n) (i : Fin n) : mono a i = getIx a i := rfl

theorem mono_ofMono (f : Fin n →₀ ℕ) : mono (ofMono f) = f := by
  ext i; simp [mono_apply, getIx, ofMono]

theorem ext_getIx {a b : MIndex n} (h : ∀ i, getIx a i = getIx b i) : a = b := by
  apply Subtype.ext
  apply List.ext_getElem (by rw [a.2, b.2])
  intro i h1 h2
  exact h ⟨i, by rw [a.2] at h1; exact h1⟩

theorem mono_inj {a b : MIndex n} : mono a = mono b ↔ a = b := by
  constructor
  · intro h
    exact ext_getIx (fun i => by rw [← mono_apply, ← mono_apply, h])
  · rintro rfl; rfl

theorem ofFn_getIx (a : MIndex n) : List.ofFn (getIx a) = a.1 := by
  apply List.ext_getElem (by simp [a.2])
  intro i h1 h2
  simp [getIx]

theorem degree_mono (a : MIndex n) : (mono a).degree = a.1.sum := by
  rw [Finsupp.degree_eq_sum, ← ofFn_getIx, List.sum_ofFn]
  rfl

variable [Field K]

/-- The polynomial with the given terms. -/
noncomputable def toPoly (e : Terms (MIndex n) K) : MvPolynomial (Fin n) K :=
  (e.map (fun t => MvPolynomial.monomial (mono t.1) t.2)).sum

/-- Equality of polynomials up to terms of degree greater than `d`. -/
def Cong (d : Nat) (p q : MvPolynomial (Fin n) K) : Prop :=
  ∀ f : Fin n →₀ ℕ, f.degree ≤ d → p.coeff f = q.coeff f

/-- The class invariant of `Differential`: terms strictly increasing in the graded order, none of
degree greater than the degree of the differential, which is a 16-bit number. -/
structure WF (x : Diff n K) : Prop where
  sorted : Sorted gl x.terms
  low : ∀ t ∈ x.terms, t.1.1.sum ≤ x.deg
  small : x.deg ≤ 65535

/-- The polynomial of a differential. -/
noncomputable def poly (x : Diff n K) : MvPolynomial (Fin n) K := toPoly x.terms

theorem gl_strict (n : Nat) : Strict (gl (n := n)) := (strict_orders n).1

@[simp] theorem toPoly_nil : toPoly ([] : Terms (MIndex n) K) = 0 := rfl
theorem toPoly_cons (t : MIndex n × K) (e : Terms (MIndex n) K) :
    toPoly (t :: e) = MvPolynomial.monomial (mono t.1) t.2 + toPoly e := rfl
theorem toPoly_append (e f : Terms (MIndex n) K) : toPoly (e ++ f) = toPoly e + toPoly f := by
  simp [toPoly]

theorem coeff_toPoly (e : Terms (MIndex n) K) (a : MIndex n) :
    (toPoly e).coeff (mono a) = coeff e a := by
  induction e with
  | nil => rfl
  | cons t e ih =>
    rw [toPoly_cons, MvPolynomial.coeff_add, ih, coeff_cons, MvPolynomial.coeff_monomial]
    simp only [mono_inj]

theorem toPoly_eq_iff (e f : Terms (MIndex n) K) :
    toPoly e = toPoly f ↔ ∀ a, coeff e a = coeff f a := by
  constructor
  · intro h a; rw [← coeff_toPoly, ← coeff_toPoly, h]
  · intro h; ext g
    rw [← mono_ofMono g, coeff_toPoly, coeff_toPoly, h]

/-! ### Congruence -/

namespace Cong
variable {d : Nat} {p q p' q' r : MvPolynomial (Fin n) K}

theorem refl (p : MvPolynomial (Fin n) K) : Cong d p p := fun _ _ => rfl
theorem of_eq (h : p = q) : Cong d p q := h ▸ refl p
theorem symm (h : Cong d p q) : Cong d q p := fun f hf => (h f hf).symm
theorem trans (h : Cong d p q) (h' : Cong d q r) : Cong d p r :=
  fun f hf => (h f hf).trans (h' f hf)
theorem mono {d' : Nat} (h : Cong d p q) (hd : d' ≤ d) : Cong d' p q :=
  fun f hf => h f (hf.trans hd)
theorem add (h : Cong d p q) (h' : Cong d p' q') : Cong d (p + p') (q + q') := by
  intro f hf; rw [MvPolynomial.coeff_add, MvPolynomial.coeff_add, h f hf, h' f hf]
theorem neg (h : Cong d p q) : Cong d (-p) (-q) := by
  intro f hf; rw [MvPolynomial.coeff_neg, MvPolynomial.coeff_neg, h f hf]
theorem sub (h : Cong d p q) (h' : Cong d p' q') : Cong d (p - p') (q - q') := by
  rw [sub_eq_add_neg, sub_eq_add_neg]; exact h.add h'.neg
theorem mul (h : Cong d p q) (h' : Cong d p' q') : Cong d (p * p') (q * q') := by
  intro f hf
  rw [MvPolynomial.coeff_mul, MvPolynomial.coeff_mul]
  apply Finset.sum_congr rfl
  intro u hu
  rw [Finset.mem_antidiagonal] at hu
  have : u.1.degree + u.2.degree = f.degree := by rw [← hu, map_add]
  rw [h u.1 (by omega), h' u.2 (by omega)]
theorem pow (h : Cong d p q) (k : Nat) : Cong d (p ^ k) (q ^ k) := by
  induction k with
  | zero => simpa using refl _
  | succ k ih => rw [pow_succ, pow_succ]; exact ih.mul h
theorem sum {ι : Type*} (s : Finset ι) (P Q : ι → MvPolynomial (Fin n) K)
    (h : ∀ i ∈ s, Cong d (P i) (Q i)) : Cong d (∑ i ∈ s, P i) (∑ i ∈ s, Q i) := by
  intro f hf
  rw [MvPolynomial.coeff_sum, MvPolynomial.coeff_sum]
  exact Finset.sum_congr rfl (fun i hi => h i hi f hf)
theorem listSum {ι : Type*} (s : List ι) (P Q : ι → MvPolynomial (Fin n) K)
    (h : ∀ i ∈ s, Cong d (P i) (Q i)) : Cong d (s.map P).sum (s.map Q).sum := by
  induction s with
  | nil => exact refl _
  | cons a s ih =>
    simp only [List.map_cons, List.sum_cons]
    exact (h a (by simp)).add (ih (fun i hi => h i (by simp [hi])))
end Cong

theorem cong_zero_toPoly {d : Nat} {e : Terms (MIndex n) K} (h : ∀ t ∈ e, d < t.1.1.sum) :
    Cong d (toPoly e) 0 := by
  induction e with
  | nil => exact Cong.refl _
  | cons t e ih =>
    rw [toPoly_cons]
    intro f hf
    have h1 := ih (fun u hu => h u (by simp [hu])) f hf
    rw [MvPolynomial.coeff_add, h1, MvPolynomial.coeff_monomial, if_neg, MvPolynomial.coeff_zero,
      add_zero]
    intro he
    have := h t (by simp)
    rw [← degree_mono, he] at this
    omega

theorem cong_zero_monomial_mul {d : Nat} {a : MIndex n} {c : K} {e : Terms (MIndex n) K}
    (h : ∀ t ∈ e, d < a.1.sum + t.1.1.sum) :
    Cong d (MvPolynomial.monomial (mono a) c * toPoly e) 0 := by
  induction e with
  | nil => rw [toPoly_nil, mul_zero]; exact Cong.refl _
  | cons t e ih =>
    rw [toPoly_cons, mul_add, MvPolynomial.monomial_mul]
    intro f hf
    have h1 := ih (fun u hu => h u (by simp [hu])) f hf
    rw [MvPolynomial.coeff_add, h1, MvPolynomial.coeff_monomial, if_neg, MvPolynomial.coeff_zero,
      add_zero]
    intro he
    have h2 := h t (by simp)
    have h3 : (mono a + mono t.1).degree = a.1.sum + t.1.1.sum := by
      rw [map_add, degree_mono, degree_mono]
    rw [he] at h3
    omega

/-! ### The graded order -/

theorem degree_eq_sum {a : MIndex n} (h : a.1.sum ≤ 65535) : degree a.1 = a.1.sum :=
  degree_of_fits (by unfold Fits; omega)

theorem sum_le_of_gl {a b : MIndex n} (h : gl a b = true) (ha : a.1.sum ≤ 65535)
    (hb : b.1.sum ≤ 65535) : a.1.sum ≤ b.1.sum := by
  by_contra hc
  have h1 := C22_graded b.1 a.1 (by unfold Fits; omega) (by unfold Fits; omega) (by omega)
  have := (gl_strict n).trans _ _ _ h (show gl b a = true from h1)
  rw [(gl_strict n).irrefl] at this
  cases this

/-- Cutting off a sorted list at the first term of degree greater than `d`. -/
theorem takeWhile_split {e : Terms (MIndex n) K} (hs : Sorted gl e)
    (hf : ∀ t ∈ e, t.1.1.sum ≤ 65535) (k d : Nat) :
    ∃ f, e = e.takeWhile (fun t => decide (k + degree t.1.1 ≤ d)) ++ f ∧
      (∀ t ∈ e.takeWhile (fun t => decide (k + degree t.1.1 ≤ d)), t ∈ e ∧ k + t.1.1.sum ≤ d) ∧
      (∀ t ∈ f, d < k + t.1.1.sum) := by
  refine ⟨e.dropWhile _, List.takeWhile_append_dropWhile.symm, ?_, ?_⟩
  · intro t ht
    have h1 := List.mem_takeWhile_imp ht
    have h2 := (List.takeWhile_sublist _).mem ht
    rw [degree_eq_sum (hf t h2)] at h1
    exact ⟨h2, by simpa using h1⟩
  · intro t ht
    have hne : e.dropWhile (fun t => decide (k + degree t.1.1 ≤ d)) ≠ [] := List.ne_nil_of_mem ht
    have h1 := of_decide_eq_false
      (List.head_dropWhile_not (fun t : MIndex n × K => decide (k + degree t.1.1 ≤ d)) hne)
    have hsub : (e.dropWhile (fun t => decide (k + degree t.1.1 ≤ d))).Sublist e :=
      List.dropWhile_sublist _
    have hs' := hs.sublist hsub
    have hm : ∀ u ∈ e.dropWhile (fun t => decide (k + degree t.1.1 ≤ d)), u.1.1.sum ≤ 65535 :=
      fun u hu => hf u (hsub.mem hu)
    generalize hg : e.dropWhile (fun t => decide (k + degree t.1.1 ≤ d)) = g at *
    cases g with
    | nil => exact absurd rfl hne
    | cons u us =>
      simp only [List.head_cons] at h1
      rw [degree_eq_sum (hm u (by simp))] at h1
      have h1' : d < k + u.1.1.sum := by simpa using h1
      rcases List.mem_cons.1 ht with rfl | ht
      · exact h1'
      · have := sum_le_of_gl (List.rel_of_pairwise_cons hs' ht) (hm u (by simp)) (hm t (by simp [ht]))
        omega

theorem cong_takeWhile {e : Terms (MIndex n) K} (hs : Sorted gl e)
    (hf : ∀ t ∈ e, t.1.1.sum ≤ 65535) (d : Nat) :
    Cong d (toPoly (e.takeWhile (fun t => decide (degree t.1.1 ≤ d)))) (toPoly e) := by
  obtain ⟨f, h1, _, h3⟩ := takeWhile_split hs hf 0 d
  simp only [Nat.zero_add] at h1 h3
  conv_rhs => rw [h1, toPoly_append]
  have := (Cong.refl (d := d) (toPoly (e.takeWhile (fun t => decide (degree t.1.1 ≤ d))))).add
    (cong_zero_toPoly h3)
  rw [add_zero] at this
  exact this.symm

/-! ### Indices -/

theorem getIx_zeroIx (i : Fin n) : getIx (zeroIx n) i = 0 := by simp [getIx, zeroIx]

theorem mono_zeroIx : mono (zeroIx n) = 0 := by
  ext i; rw [mono_apply, getIx_zeroIx]; rfl

theorem getIx_setIx (a : MIndex n) (i j : Fin n) (k : Nat) :
    getIx (setIx a i k) j = if i = j then wrap k else getIx a j := by
  simp only [getIx, setIx, List.getElem_set, Fin.ext_iff]

theorem wrap_small {k : Nat} (h : k ≤ 65535) : wrap k = k := by unfold wrap; omega

theorem mono_unitIx (j : Fin n) : mono (unitIx j) = Finsupp.single j 1 := by
  ext i
  rw [mono_apply, unitIx, getIx_setIx, getIx_zeroIx, wrap_small (by omega), Finsupp.single_apply]

theorem getIx_le_sum (a : MIndex n) (i : Fin n) : getIx a i ≤ a.1.sum := by
  rw [← degree_mono, ← mono_apply]; exact Finsupp.le_degree i _

theorem mono_addIx {a b : MIndex n} (h : a.1.sum + b.1.sum ≤ 65535) :
    mono (addIx a b) = mono a + mono b := by
  ext i
  have ha := getIx_le_sum a i
  have hb := getIx_le_sum b i
  rw [Finsupp.add_apply, mono_apply, mono_apply, mono_apply]
  have : getIx (addIx a b) i = wrap (getIx a i + getIx b i) := by
    simp [getIx, addIx, addIndex]
  rw [this, wrap_small (by omega)]

theorem sum_zeroIx : (zeroIx n).1.sum = 0 := by
  rw [← degree_mono, mono_zeroIx, map_zero]

theorem sum_unitIx (j : Fin n) : (unitIx j).1.sum = 1 := by
  rw [← degree_mono, mono_unitIx, Finsupp.degree_single]

theorem eq_zeroIx_of_sum {a : MIndex n} (h : a.1.sum = 0) : a = zeroIx n := by
  rw [← degree_mono] at h
  rw [← mono_inj, mono_zeroIx]
  exact (Finsupp.degree_eq_zero_iff _).1 h

theorem gl_zeroIx {a : MIndex n} (h : a.1.sum ≤ 65535) (hne : a ≠ zeroIx n) :
    gl (zeroIx n) a = true := by
  have h0 : a.1.sum ≠ 0 := fun h => hne (eq_zeroIx_of_sum h)
  exact C22_graded _ _ (by unfold Fits; rw [sum_zeroIx]; omega) (by unfold Fits; omega)
    (by rw [sum_zeroIx]; omega)

variable [DecidableEq K]

/-! ### Cleaning up -/

instance : Std.Total (fun s t : MIndex n × K => gl t.1 s.1 = false) :=
  ⟨fun s t => by
    by_contra h
    push Not at h
    simp only [ne_eq, Bool.not_eq_false] at h
    have := (gl_strict n).trans _ _ _ h.1 h.2
    rw [(gl_strict n).irrefl] at this
    cases this⟩

instance : IsTrans (MIndex n × K) (fun s t => gl t.1 s.1 = false) :=
  ⟨fun s t u h1 h2 => by
    by_contra h
    rw [Bool.not_eq_false] at h
    rcases (gl_strict n).total t.1 s.1 with h' | h' | h'
    · rw [h1] at h'; cases h'
    · rw [h', h] at h2; cases h2
    · have := (gl_strict n).trans _ _ _ h h'
      rw [h2] at this; cases this⟩

theorem cleanup_spec (e : Terms (MIndex n) K) :
    Sorted gl (cleanup e) ∧ toPoly (cleanup e) = toPoly e ∧
    (∀ t ∈ cleanup e, t.2 ≠ 0 ∧ ∃ u ∈ e, u.1 = t.1) := by
  obtain ⟨h1, h2, h3⟩ := C23_normalise (gl_strict n) e
    (e.insertionSort (fun s t => gl t.1 s.1 = false)) (List.perm_insertionSort _ e)
    (List.pairwise_insertionSort _ e)
  refine ⟨h1, (toPoly_eq_iff _ _).2 (fun a => congrFun h2 a), fun t ht => ⟨h3 t ht, ?_⟩⟩
  have h4 := (((C23_remove_zeros gl (combineTerms
    (e.insertionSort (fun s t => gl t.1 s.1 = false)))).2.2.2 t).1 ht).1
  obtain ⟨u, hu, he⟩ := mem_combineF_index _ _ h4
  exact ⟨u, (List.perm_insertionSort _ e).mem_iff.1 hu, he⟩

/-! ### The merge -/

theorem mergeF_mem (s : K → K) (d : Nat) (f : Nat) (xs ys : Terms (MIndex n) K) :
    ∀ t ∈ mergeF s d f xs ys, (∃ u ∈ xs, u.1 = t.1) ∨ (∃ u ∈ ys, u.1 = t.1) := by
  have hbase : ∀ xs ys : Terms (MIndex n) K, ∀ t ∈ xs.takeWhile (fun t => decide (degree t.1.1 ≤ d)) ++
      (ys.takeWhile (fun u => decide (degree u.1.1 ≤ d))).map (fun u => (u.1, s u.2)),
      (∃ u ∈ xs, u.1 = t.1) ∨ (∃ u ∈ ys, u.1 = t.1) := by
    intro xs ys t ht
    rcases List.mem_append.1 ht with ht | ht
    · exact .inl ⟨t, (List.takeWhile_sublist _).mem ht, rfl⟩
    · obtain ⟨u, hu, rfl⟩ := List.mem_map.1 ht
      exact .inr ⟨u, (List.takeWhile_sublist _).mem hu, rfl⟩
  induction f generalizing xs ys with
  | zero => rw [mergeF]; exact hbase xs ys; simp
  | succ f ih =>
    cases xs with
    | nil => rw [mergeF]; exact hbase [] ys; simp
    | cons t ts =>
      cases ys with
      | nil => rw [mergeF]; exact hbase _ []; simp
      | cons u us =>
        intro v hv
        rw [mergeF] at hv
        split_ifs at hv with h1 h2
        · rcases List.mem_cons.1 hv with rfl | hv
          · exact .inl ⟨t, by simp, rfl⟩
          · rcases ih ts us v hv with ⟨w, hw, e⟩ | ⟨w, hw, e⟩
            · exact .inl ⟨w, by simp [hw], e⟩
            · exact .inr ⟨w, by simp [hw], e⟩
        · rcases List.mem_cons.1 hv with rfl | hv
          · exact .inl ⟨v, by simp, rfl⟩
          · rcases ih ts (u :: us) v hv with ⟨w, hw, e⟩ | h
            · exact .inl ⟨w, by simp [hw], e⟩
            · exact .inr h
        · rcases List.mem_cons.1 hv with rfl | hv
          · exact .inr ⟨u, by simp, rfl⟩
          · rcases ih (t :: ts) us v hv with h | ⟨w, hw, e⟩
            · exact .inl h
            · exact .inr ⟨w, by simp [hw], e⟩

theorem toPoly_map {s : K → K} {c : K} (hs : ∀ a, s a = c * a) (e : Terms (MIndex n) K) :
    toPoly (e.map (fun u => (u.1, s u.2))) = MvPolynomial.C c * toPoly e := by
  induction e with
  | nil => simp
  | cons t e ih =>
    rw [List.map_cons, toPoly_cons, ih, toPoly_cons, mul_add, hs, MvPolynomial.C_mul_monomial]

theorem mergeF_nil_left (s : K → K) (d f : Nat) (ys : Terms (MIndex n) K) :
    mergeF s d f [] ys = (ys.takeWhile (fun u => decide (degree u.1.1 ≤ d))).map
      (fun u => (u.1, s u.2)) := by
  rw [mergeF]
  · simp
  · simp

theorem mergeF_nil_right (s : K → K) (d f : Nat) (xs : Terms (MIndex n) K) :
    mergeF s d f xs [] = xs.takeWhile (fun u => decide (degree u.1.1 ≤ d)) := by
  rw [mergeF]
  · simp
  · simp

theorem mergeF_spec {s : K → K} {c : K} (hc : ∀ a, s a = c * a) (dx dy f : Nat)
    (xs ys : Terms (MIndex n) K) (hf : xs.length + ys.length ≤ f)
    (hx : Sorted gl xs) (hy : Sorted gl ys) (lx : ∀ t ∈ xs, t.1.1.sum ≤ dx)
    (ly : ∀ t ∈ ys, t.1.1.sum ≤ dy) (sx : dx ≤ 65535) (sy : dy ≤ 65535) :
    Sorted gl (mergeF s (min dx dy) f xs ys) ∧
    (∀ t ∈ mergeF s (min dx dy) f xs ys, t.1.1.sum ≤ min dx dy) ∧
    Cong (min dx dy) (toPoly (mergeF s (min dx dy) f xs ys))
      (toPoly xs + MvPolynomial.C c * toPoly ys) := by
  have hbx : ∀ t ∈ xs, t.1.1.sum ≤ 65535 := fun t ht => (lx t ht).trans sx
  have hby : ∀ t ∈ ys, t.1.1.sum ≤ 65535 := fun t ht => (ly t ht).trans sy
  induction f generalizing xs ys with
  | zero =>
    have h1 : xs = [] := List.eq_nil_of_length_eq_zero (by omega)
    have h2 : ys = [] := List.eq_nil_of_length_eq_zero (by omega)
    subst h1 h2
    simp [mergeF, Sorted, Cong.refl]
  | succ f ih =>
    cases xs with
    | nil =>
      rw [mergeF_nil_left]
      obtain ⟨_, _, h2, _⟩ := takeWhile_split hy hby 0 (min dx dy)
      simp only [Nat.zero_add] at h2
      simp only [List.takeWhile_nil, List.nil_append, toPoly_nil, zero_add]
      refine ⟨?_, ?_, ?_⟩
      · exact List.pairwise_map.2 (hy.sublist (List.takeWhile_sublist _))
      · intro t ht
        obtain ⟨u, hu, rfl⟩ := List.mem_map.1 ht
        exact (h2 u hu).2
      · rw [toPoly_map hc]
        exact (Cong.refl _).mul (cong_takeWhile hy hby _)
    | cons t ts =>
      cases ys with
      | nil =>
        rw [mergeF_nil_right]
        obtain ⟨_, _, h2, _⟩ := takeWhile_split hx hbx 0 (min dx dy)
        simp only [Nat.zero_add] at h2
        simp only [List.takeWhile_nil, List.map_nil, List.append_nil, toPoly_nil, mul_zero, add_zero]
        exact ⟨hx.sublist (List.takeWhile_sublist _), fun u hu => (h2 u hu).2,
          cong_takeWhile hx hbx _⟩
      | cons u us =>
        have hx' := List.pairwise_cons.1 hx
        have hy' := List.pairwise_cons.1 hy
        have tx := lx t (by simp)
        have uy := ly u (by simp)
        rw [mergeF]
        split_ifs with h1 h2
        · obtain ⟨i1, i2, i3⟩ := ih ts us (by simp at hf; omega) hx'.2 hy'.2
            (fun v hv => lx v (by simp [hv])) (fun v hv => ly v (by simp [hv]))
            (fun v hv => hbx v (by simp [hv])) (fun v hv => hby v (by simp [hv]))
          refine ⟨List.pairwise_cons.2 ⟨?_, i1⟩, ?_, ?_⟩
          · intro v hv
            rcases mergeF_mem s _ f ts us v hv with ⟨w, hw, e⟩ | ⟨w, hw, e⟩
            · exact e ▸ hx'.1 w hw
            · simp only; rw [h1]; exact e ▸ hy'.1 w hw
          · intro v hv
            rcases List.mem_cons.1 hv with rfl | hv
            · simp only; rw [le_min_iff]; exact ⟨tx, h1 ▸ uy⟩
            · exact i2 v hv
          · rw [toPoly_cons, toPoly_cons, toPoly_cons]
            have : MvPolynomial.monomial (mono t.1) (t.2 + s u.2) =
                MvPolynomial.monomial (mono t.1) t.2 +
                  MvPolynomial.C c * MvPolynomial.monomial (mono u.1) u.2 := by
              rw [MvPolynomial.C_mul_monomial, ← h1, hc, map_add]
            simp only
            rw [this]
            refine ((Cong.refl _).add i3).trans (Cong.of_eq ?_)
            ring
        · obtain ⟨i1, i2, i3⟩ := ih ts (u :: us) (by simp at hf ⊢; omega) hx'.2 hy
            (fun v hv => lx v (by simp [hv])) ly (fun v hv => hbx v (by simp [hv])) hby
          refine ⟨List.pairwise_cons.2 ⟨?_, i1⟩, ?_, ?_⟩
          · intro v hv
            rcases mergeF_mem s _ f ts (u :: us) v hv with ⟨w, hw, e⟩ | ⟨w, hw, e⟩
            · exact e ▸ hx'.1 w hw
            · rcases List.mem_cons.1 hw with rfl | hw
              · exact e ▸ h2
              · exact e ▸ (gl_strict n).trans _ _ _ h2 (hy'.1 w hw)
          · intro v hv
            rcases List.mem_cons.1 hv with rfl | hv
            · rw [le_min_iff]
              exact ⟨tx, (sum_le_of_gl h2 (hbx _ (by simp)) (hby _ (by simp))).trans uy⟩
            · exact i2 v hv
          · rw [toPoly_cons t, toPoly_cons t]
            refine ((Cong.refl _).add i3).trans (Cong.of_eq ?_)
            ring
        · have h3 : gl u.1 t.1 = true := by
            rcases (gl_strict n).total t.1 u.1 with h | h | h
            · exact absurd h h2
            · exact absurd h h1
            · exact h
          obtain ⟨i1, i2, i3⟩ := ih (t :: ts) us (by simp at hf ⊢; omega) hx hy'.2
            lx (fun v hv => ly v (by simp [hv])) hbx (fun v hv => hby v (by simp [hv]))
          refine ⟨List.pairwise_cons.2 ⟨?_, i1⟩, ?_, ?_⟩
          · intro v hv
            rcases mergeF_mem s _ f (t :: ts) us v hv with ⟨w, hw, e⟩ | ⟨w, hw, e⟩
            · rcases List.mem_cons.1 hw with rfl | hw
              · exact e ▸ h3
              · exact e ▸ (gl_strict n).trans _ _ _ h3 (hx'.1 w hw)
            · exact e ▸ hy'.1 w hw
          · intro v hv
            rcases List.mem_cons.1 hv with rfl | hv
            · rw [le_min_iff]
              exact ⟨(sum_le_of_gl h3 (hby _ (by simp)) (hbx _ (by simp))).trans tx, uy⟩
            · exact i2 v hv
          · rw [toPoly_cons, toPoly_cons u]
            have : MvPolynomial.monomial (mono u.1) (s u.2) =
                  MvPolynomial.C c * MvPolynomial.monomial (mono u.1) u.2 := by
              rw [MvPolynomial.C_mul_monomial, hc]
            simp only
            rw [this]
            refine ((Cong.refl _).add i3).trans (Cong.of_eq ?_)
            ring

/-! ### The product -/

theorem products_mem (d : Nat) (xs ys : Terms (MIndex n) K)
    (hbx : ∀ t ∈ xs, t.1.1.sum ≤ 65535) (hby : ∀ t ∈ ys, t.1.1.sum ≤ 65535) (hd : d ≤ 65535) :
    ∀ t ∈ products d xs ys, t.1.1.sum ≤ d := by
  intro v hv
  obtain ⟨t, ht, hv⟩ := List.mem_flatMap.1 hv
  obtain ⟨u, hu, rfl⟩ := List.mem_map.1 hv
  have h1 := List.mem_takeWhile_imp hu
  have ht' := hbx t ((List.takeWhile_sublist _).mem ht)
  have hu' := hby u ((List.takeWhile_sublist _).mem hu)
  rw [degree_eq_sum ht', degree_eq_sum hu'] at h1
  have h2 : t.1.1.sum + u.1.1.sum ≤ d := by simpa using h1
  simp only
  rw [← degree_mono, mono_addIx (by omega), map_add, degree_mono, degree_mono]
  exact h2

theorem toPoly_flatMap {ι : Type*} (l : List ι) (f : ι → Terms (MIndex n) K) :
    toPoly (l.flatMap f) = (l.map (fun i => toPoly (f i))).sum := by
  induction l with
  | nil => rfl
  | cons a l ih => rw [List.flatMap_cons, toPoly_append, ih]; rfl

theorem products_cong (d : Nat) (xs ys : Terms (MIndex n) K) (hx : Sorted gl xs)
    (hy : Sorted gl ys) (hbx : ∀ t ∈ xs, t.1.1.sum ≤ 65535) (hby : ∀ t ∈ ys, t.1.1.sum ≤ 65535)
    (hd : d ≤ 65535) :
    Cong d (toPoly (products d xs ys)) (toPoly xs * toPoly ys) := by
  have hnot : ∀ a : Nat, (!decide (a > d)) = decide (a ≤ d) := by
    intro a; by_cases h : a ≤ d <;> simp [h] <;> omega
  unfold products
  simp only [hnot]
  have h1 : Cong d (toPoly (xs.takeWhile (fun t => decide (degree t.1.1 ≤ d))) * toPoly ys)
      (toPoly xs * toPoly ys) := (cong_takeWhile hx hbx d).mul (Cong.refl _)
  refine Cong.trans ?_ h1
  rw [toPoly_flatMap]
  generalize hz : xs.takeWhile (fun t => decide (degree t.1.1 ≤ d)) = zs
  have hbz : ∀ t ∈ zs, t.1.1.sum ≤ 65535 := by
    intro t ht; subst hz; exact hbx t ((List.takeWhile_sublist _).mem ht)
  have hmul : toPoly zs * toPoly ys =
      (zs.map (fun t => MvPolynomial.monomial (mono t.1) t.2 * toPoly ys)).sum := by
    rw [List.sum_map_mul_right]; rfl
  rw [hmul]
  apply Cong.listSum
  intro t ht
  rw [degree_eq_sum (hbz t ht)]
  obtain ⟨f, e1, e2, e3⟩ := takeWhile_split hy hby t.1.1.sum d
  have h2 : ∀ zs : Terms (MIndex n) K, (∀ u ∈ zs, t.1.1.sum + u.1.1.sum ≤ d) →
      toPoly (zs.map (fun u => (addIx t.1 u.1, t.2 * u.2))) =
        MvPolynomial.monomial (mono t.1) t.2 * toPoly zs := by
    intro zs hzs
    induction zs with
    | nil => simp
    | cons u us ih =>
      rw [List.map_cons, toPoly_cons, toPoly_cons, ih (fun v hv => hzs v (by simp [hv])), mul_add,
        MvPolynomial.monomial_mul, mono_addIx]
      have := hzs u (by simp)
      omega
  rw [h2 _ (fun u hu => (e2 u hu).2)]
  conv_rhs => rw [e1, toPoly_append, mul_add]
  have h3 := (Cong.refl (d := d) (MvPolynomial.monomial (mono t.1) t.2 * toPoly
    (ys.takeWhile (fun u => decide (t.1.1.sum + degree u.1.1 ≤ d))))).add
    (cong_zero_monomial_mul (a := t.1) (c := t.2) e3)
  rw [add_zero] at h3
  exact h3.symm

end Verif.Differential
