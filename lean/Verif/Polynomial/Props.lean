import Verif.Polynomial.Model
import Mathlib.Algebra.MvPolynomial.PDeriv
import Mathlib.Algebra.MvPolynomial.CommRing
import Mathlib.Algebra.CharZero.Defs
import Mathlib.Algebra.BigOperators.Fin
import Mathlib.Tactic.FieldSimp

/-!
# Polynomial arithmetic

The specification is Mathlib's type of polynomials in `n` variables over an exact field, together with
its ring operations, derivatives, evaluation and substitution.
-/

namespace Verif.Polynomial

open Verif.Expansion

/-! ## Specification -/

/-- The exponents of a multi-index. -/
noncomputable def expo {n : Nat} (a : MIndex n) : Fin n →₀ ℕ :=
  Finsupp.equivFunOnFinite.symm (fun i => a.1.getD i 0)

/-- The polynomial with the given terms. -/
noncomputable def toMv {n : Nat} {K : Type*} [CommSemiring K] (e : Terms (MIndex n) K) :
    MvPolynomial (Fin n) K :=
  (e.map (fun t => MvPolynomial.monomial (expo t.1) t.2)).sum

/-- Two lists of terms with the same indices and related coefficients. -/
abbrev Rel {I K X : Type*} (In : K → X → Prop) (e : Terms I K) (p : Terms I X) : Prop :=
  List.Forall₂ (fun s t => s.1 = t.1 ∧ In s.2 t.2) e p

/-- The computed polynomial `p` stands for the exact polynomial `f`: some choice of numbers in the
coefficients of `p` gives `f`.  With equality for `In`, this says that `f` is the sum of the terms
of `p`. -/
def Encl {n : Nat} {K X : Type*} [CommSemiring K] (In : K → X → Prop) (p : Terms (MIndex n) X)
    (f : MvPolynomial (Fin n) K) : Prop :=
  ∃ e : Terms (MIndex n) K, Rel In e p ∧ toMv e = f

/-- What is required of the operations on coefficients: each encloses the exact operation, and the
tests on coefficients are right when they answer yes.  Nothing is required of `decide(x!=0)`. -/
structure Sound {K X : Type*} [Field K] [Zero X] (A : Coef X) (In : K → X → Prop) : Prop where
  zero : In 0 0
  one : In 1 A.one
  add : ∀ k l x y, In k x → In l y → In (k + l) (A.add x y)
  sub : ∀ k l x y, In k x → In l y → In (k - l) (A.sub x y)
  neg : ∀ k x, In k x → In (-k) (A.neg x)
  mul : ∀ k l x y, In k x → In l y → In (k * l) (A.mul x y)
  sqr : ∀ k x, In k x → In (k ^ 2) (A.sqr x)
  mulNat : ∀ k x (m : ℕ), In k x → In (k * m) (A.mulNat x m)
  divNat : ∀ k x (m : ℕ), m ≠ 0 → In k x → In (k / m) (A.divNat x m)
  isNull : ∀ k x, In k x → A.isNull x = true → k = 0
  isUnit : ∀ k x, In k x → A.isUnit x = true → k = 1
  surelyZero : ∀ k x, In k x → A.surelyZero x = true → k = 0

/-! ## Indices -/

section Idx
variable {n : Nat}

theorem expo_apply (a : MIndex n) (i : Fin n) : expo a i = a.1.getD i 0 := rfl

theorem expo_injective : Function.Injective (expo (n := n)) := by
  intro a b h
  apply Subtype.ext
  apply List.ext_getElem (by rw [a.2, b.2])
  intro i h1 h2
  have := DFunLike.congr_fun h ⟨i, by rw [← a.2]; exact h1⟩
  simpa [expo_apply, List.getD_eq_getElem?_getD, h1, h2] using this

theorem expo_surjective : Function.Surjective (expo (n := n)) := by
  intro m
  refine ⟨⟨List.ofFn m, by simp⟩, ?_⟩
  ext i
  simp [expo_apply, List.getD_eq_getElem?_getD]

theorem lt_strict : Strict (lt (n := n)) := (strict_orders n).2.2

theorem expo_zero : expo (zeroIdx n) = 0 := by
  ext i
  simp [expo_apply, zeroIdx, List.getD_eq_getElem?_getD]

theorem expo_unit (j : Fin n) : expo (unitIdx n j) = Finsupp.single j 1 := by
  ext i
  simp only [expo_apply, unitIdx, List.getD_eq_getElem?_getD, List.getElem?_set, Finsupp.single_apply]
  by_cases h : j = i
  · subst h; simp
  · have : ¬ (j : ℕ) = i := fun e => h (Fin.ext e)
    simp [h, this]

theorem expo_add (a b : MIndex n) (h : a.1.sum + b.1.sum < 65536) :
    expo (addIdx a b) = expo a + expo b := by
  ext i
  have hl : a.1.length = b.1.length := by rw [a.2, b.2]
  simp only [expo_apply, addIdx, Finsupp.add_apply]
  rw [addIndex_eq hl h]
  simp [List.getD_eq_getElem?_getD, a.2, b.2]

theorem sum_addIdx (a b : MIndex n) (h : a.1.sum + b.1.sum < 65536) :
    (addIdx a b).1.sum = a.1.sum + b.1.sum := by
  have hl : a.1.length = b.1.length := by rw [a.2, b.2]
  simp only [addIdx]
  rw [addIndex_eq hl h, sum_zipWith hl]

theorem lt_addIdx (a b c : MIndex n) (ha : a.1.sum + c.1.sum < 65536)
    (hb : b.1.sum + c.1.sum < 65536) : lt (addIdx a c) (addIdx b c) = lt a b :=
  (C22_add_partial a.1 b.1 c.1 (by rw [a.2, b.2]) (by rw [a.2, c.2]) ha hb).2.2

theorem sum_unit (j : Fin n) : (unitIdx n j).1.sum = 1 := by
  have h : ∀ (m k : ℕ), k < m → ((List.replicate m 0).set k 1).sum = 1 := by
    intro m
    induction m with
    | zero => intro k hk; omega
    | succ m ih =>
      intro k hk
      cases k with
      | zero => simp [List.replicate_succ]
      | succ k => simpa [List.replicate_succ] using ih k (by omega)
  exact h n j j.2

theorem incIdx_eq (a : MIndex n) (j : Fin n) (h : a.1.sum + 1 < 65536) :
    incIdx a j = addIdx a (unitIdx n j) := by
  have hj : a.1.getD j 0 ≤ a.1.sum := by
    have hl : (j : ℕ) < a.1.length := by rw [a.2]; exact j.2
    rw [List.getD_eq_getElem?_getD, List.getElem?_eq_getElem hl]
    exact mem_le_sum (List.getElem_mem _)
  apply expo_injective
  rw [expo_add _ _ (by rw [sum_unit]; exact h), expo_unit]
  ext i
  simp only [expo_apply, incIdx, List.getD_eq_getElem?_getD, List.getElem?_set, Finsupp.add_apply,
    Finsupp.single_apply]
  by_cases hij : j = i
  · subst hij
    simp only [List.getD_eq_getElem?_getD] at hj
    have : wrap (a.1[(j : ℕ)]?.getD 0 + 1) = a.1[(j : ℕ)]?.getD 0 + 1 :=
      Nat.mod_eq_of_lt (by omega)
    rw [this]
    simp [a.2]
  · have : ¬ (j : ℕ) = i := fun e => hij (Fin.ext e)
    simp [hij, this]

theorem expo_dec (a : MIndex n) (j : Fin n) : expo (decIdx a j) = expo a - Finsupp.single j 1 := by
  ext i
  simp only [expo_apply, decIdx, List.getD_eq_getElem?_getD, List.getElem?_set, Finsupp.tsub_apply,
    Finsupp.single_apply]
  by_cases hij : j = i
  · subst hij
    simp only [a.2, Fin.is_lt, if_true, Option.getD_some]
    split_ifs with h <;> omega
  · have : ¬ (j : ℕ) = i := fun e => hij (Fin.ext e)
    simp [hij, this]

end Idx

/-! ## Sums of terms -/

section Sum
variable {n : Nat} {K : Type*} [CommRing K]

@[simp] theorem toMv_nil : toMv ([] : Terms (MIndex n) K) = 0 := rfl

@[simp] theorem toMv_cons (t : MIndex n × K) (e : Terms (MIndex n) K) :
    toMv (t :: e) = MvPolynomial.monomial (expo t.1) t.2 + toMv e := by simp [toMv]

@[simp] theorem toMv_append (e e' : Terms (MIndex n) K) : toMv (e ++ e') = toMv e + toMv e' := by
  simp [toMv]

theorem coeff_toMv (e : Terms (MIndex n) K) (a : MIndex n) :
    MvPolynomial.coeff (expo a) (toMv e) = coeff e a := by
  induction e with
  | nil => simp
  | cons t e ih =>
    rw [toMv_cons, MvPolynomial.coeff_add, ih, coeff_cons, MvPolynomial.coeff_monomial]
    by_cases h : t.1 = a
    · subst h; simp
    · have : ¬ expo t.1 = expo a := fun e => h (expo_injective e)
      simp [h, this]

theorem toMv_eq_iff (e e' : Terms (MIndex n) K) : toMv e = toMv e' ↔ coeff e = coeff e' := by
  constructor
  · intro h
    funext a
    rw [← coeff_toMv, ← coeff_toMv, h]
  · intro h
    ext m
    obtain ⟨a, rfl⟩ := expo_surjective m
    rw [coeff_toMv, coeff_toMv, h]

theorem toMv_perm {e e' : Terms (MIndex n) K} (h : e.Perm e') : toMv e = toMv e' :=
  (h.map _).sum_eq

/-- Updating a coefficient of a sorted polynomial adds the change to the sum of the terms. -/
theorem toMv_supdate (e : Terms (MIndex n) K) (hs : Sorted lt e) (a : MIndex n) (g : K → K) :
    toMv (supdate lt e a g) = toMv e + MvPolynomial.monomial (expo a) (g (coeff e a) - coeff e a) := by
  ext m
  obtain ⟨b, rfl⟩ := expo_surjective m
  rw [coeff_toMv, (C23_sorted_update lt_strict e hs a g).2, MvPolynomial.coeff_add, coeff_toMv,
    MvPolynomial.coeff_monomial]
  by_cases h : b = a
  · subst h; simp
  · have : ¬ expo a = expo b := fun e => h (expo_injective e).symm
    simp [h, this]

end Sum

/-! ## Related lists of terms -/

section Rel
variable {I K X : Type*} {In : K → X → Prop}

theorem Rel.idx {e : Terms I K} {p : Terms I X} (h : Rel In e p) :
    e.map Prod.fst = p.map Prod.fst := by
  induction h with
  | nil => rfl
  | cons h _ ih => simp [ih, h.1]

theorem sorted_map (lt : I → I → Bool) (e : Terms I X) :
    Sorted lt e ↔ (e.map Prod.fst).Pairwise (fun a b => lt a b = true) := by
  rw [List.pairwise_map]; rfl

theorem Rel.sorted {lt : I → I → Bool} {e : Terms I K} {p : Terms I X} (h : Rel In e p) :
    Sorted lt e ↔ Sorted lt p := by
  rw [sorted_map, sorted_map, h.idx]

theorem lowerBoundF_congr (lt : I → I → Bool) {e : Terms I K} {p : Terms I X}
    (h : e.map Prod.fst = p.map Prod.fst) (a : I) (fuel : Nat) :
    ∀ first len, lowerBoundF lt e a fuel first len = lowerBoundF lt p a fuel first len := by
  induction fuel with
  | zero => intros; rfl
  | succ fuel ih =>
    intro first len
    cases len with
    | zero => rfl
    | succ len =>
      have hi : (e[first + (len + 1) / 2]?).map Prod.fst = (p[first + (len + 1) / 2]?).map Prod.fst := by
        rw [← List.getElem?_map, ← List.getElem?_map, h]
      unfold lowerBoundF
      cases h1 : e[first + (len + 1) / 2]? <;> cases h2 : p[first + (len + 1) / 2]? <;>
        simp only [h1, h2, Option.map_none, Option.map_some, reduceCtorEq, Option.some.injEq] at hi
      · simp [h1, h2]
      · simp [h1, h2, hi, ih]

theorem lowerBound_congr (lt : I → I → Bool) {e : Terms I K} {p : Terms I X}
    (h : e.map Prod.fst = p.map Prod.fst) (a : I) : lowerBound lt e a = lowerBound lt p a := by
  have hl : e.length = p.length := by simpa using congrArg List.length h
  unfold lowerBound
  rw [lowerBoundF_congr lt h, hl]

theorem forall₂_set {α β : Type*} {R : α → β → Prop} {l : List α} {m : List β}
    (h : List.Forall₂ R l m) (i : Nat) {a : α} {b : β} (hab : R a b) :
    List.Forall₂ R (l.set i a) (m.set i b) := by
  induction h generalizing i with
  | nil => simp
  | cons h1 h2 ih =>
    cases i with
    | zero => exact .cons hab h2
    | succ i => exact .cons h1 (ih i)

theorem Rel.append {e e' : Terms I K} {p p' : Terms I X} (h : Rel In e p) (h' : Rel In e' p') :
    Rel In (e ++ e') (p ++ p') := List.rel_append h h'

theorem Rel.supdate [DecidableEq I] [Zero K] [Zero X] {lt : I → I → Bool} (hlt : Strict lt)
    {e : Terms I K} {p : Terms I X} (h : Rel In e p) (hs : Sorted lt e) (a : I) {g : K → K}
    {f : X → X} (h0 : In 0 0) (hg : ∀ k x, In k x → In (g k) (f x)) :
    Rel In (supdate lt e a g) (supdate lt p a f) := by
  have hle : lowerBound lt e a ≤ e.length := (lowerBound_splits hlt e hs a).le
  have hlb := lowerBound_congr lt h.idx a
  have hlen : e.length = p.length := h.length_eq
  unfold Expansion.supdate
  rw [← hlb]
  generalize lowerBound lt e a = i at *
  have hins : Rel In (insertAt e i a (g 0)) (insertAt p i a (f 0)) := by
    rw [C23_insert_at e i hle, C23_insert_at p i (by rw [← hlen]; exact hle)]
    exact Rel.append (List.forall₂_take i h)
      (.cons ⟨rfl, hg _ _ h0⟩ (List.forall₂_drop i h))
  cases h1 : e[i]? with
  | none =>
    have h2 : p[i]? = none := by
      rw [List.getElem?_eq_none_iff] at h1 ⊢
      omega
    simpa [h2] using hins
  | some s =>
    obtain ⟨hi, rfl⟩ := List.getElem?_eq_some_iff.1 h1
    have hi' : i < p.length := by omega
    have h2 : p[i]? = some p[i] := List.getElem?_eq_getElem hi'
    have hr := (List.forall₂_iff_get.1 h).2 i hi hi'
    simp only [List.get_eq_getElem] at hr
    simp only [h2]
    by_cases ha : e[i].1 = a
    · rw [if_neg (by simpa using ha), if_neg (by rw [← hr.1]; simpa using ha)]
      exact forall₂_set h i ⟨hr.1, hg _ _ hr.2⟩
    · rw [if_pos ha, if_pos (by rw [← hr.1]; exact ha)]
      exact hins

theorem Rel.filter {e : Terms I K} {p : Terms I X} (h : Rel In e p) (f : I → Bool) :
    Rel In (e.filter (fun t => f t.1)) (p.filter (fun t => f t.1)) := by
  induction h with
  | nil => exact .nil
  | @cons s t e p h1 h2 ih =>
    by_cases hf : f s.1 = true
    · have hf' : f t.1 = true := by rw [← h1.1]; exact hf
      simp only [List.filter_cons, hf, hf', if_true]
      exact .cons h1 ih
    · have hf' : ¬ f t.1 = true := by rw [← h1.1]; exact hf
      simp only [List.filter_cons, hf, hf', if_false]
      exact ih

end Rel

/-! ## The operations -/

section Ops
variable {n : Nat} {K X : Type*} [Field K] [Zero X] {A : Coef X} {In : K → X → Prop}

/-- With exact coefficients, `Encl` is the sum of the terms. -/
theorem encl_eq (p : Terms (MIndex n) K) (f : MvPolynomial (Fin n) K) :
    Encl (fun a b => a = b) p f ↔ toMv p = f := by
  have key : ∀ e : Terms (MIndex n) K, Rel (fun a b => a = b) e p ↔ e = p := by
    intro e
    have : (fun s t : MIndex n × K => s.1 = t.1 ∧ s.2 = t.2) = (fun s t => s = t) := by
      funext s t
      exact propext (Prod.ext_iff).symm
    unfold Rel
    rw [this, List.forall₂_eq_eq_eq]
  unfold Encl
  constructor
  · rintro ⟨e, h1, h2⟩
    rw [key] at h1
    rw [← h1, h2]
  · intro h
    exact ⟨p, (key p).2 rfl, h⟩

theorem Encl.nil : Encl In ([] : Terms (MIndex n) X) (0 : MvPolynomial (Fin n) K) :=
  ⟨[], .nil, rfl⟩

/-- **C89** (constants): the constant polynomial and the assignment of a constant. -/
theorem C89_constant (hA : Sound A In) (k : K) (c : X) (hc : In k c) (p : Terms (MIndex n) X) :
    Encl In (constant n c) (MvPolynomial.C k) ∧ Sorted lt (constant n c) ∧
      Encl In (assign p c) (MvPolynomial.C k) ∧ Sorted lt (assign p c) := by
  have hs : Sorted lt ([] : Terms (MIndex n) K) := List.Pairwise.nil
  have hs' : Sorted lt ([] : Terms (MIndex n) X) := List.Pairwise.nil
  have h := Rel.supdate (In := In) lt_strict (e := []) (p := []) .nil hs (zeroIdx n)
    (g := fun _ => k) (f := fun _ => c) hA.zero (fun _ _ _ => hc)
  refine ⟨⟨_, h, ?_⟩, h.sorted.1 (C23_sorted_update lt_strict [] hs _ _).1,
    ⟨[(zeroIdx n, k)], .cons ⟨rfl, hc⟩ .nil, ?_⟩, ?_⟩
  · rw [toMv_supdate _ hs]
    simp [expo_zero]
  · simp [expo_zero]
  · simp [assign, append, Sorted]

/-- **C89** (coordinates): the coordinate polynomial exists exactly for the indices of variables. -/
theorem C89_coordinate (hA : Sound A In) (j : Nat) :
    (coordinate A n j = none ↔ n ≤ j) ∧
      ∀ (hj : j < n) p, coordinate A n j = some p →
        Encl In p (MvPolynomial.X ⟨j, hj⟩) ∧ Sorted lt p := by
  have hs : Sorted lt ([] : Terms (MIndex n) K) := List.Pairwise.nil
  unfold coordinate
  constructor
  · by_cases h : j < n <;> simp [h] <;> omega
  · intro hj p hp
    rw [if_pos hj] at hp
    obtain rfl := Option.some.inj hp
    have h := Rel.supdate (In := In) lt_strict (e := []) (p := []) .nil hs (unitIdx n j)
      (g := fun _ => 1) (f := fun _ => A.one) hA.zero (fun _ _ _ => hA.one)
    refine ⟨⟨_, h, ?_⟩, h.sorted.1 (C23_sorted_update lt_strict [] hs _ _).1⟩
    rw [toMv_supdate _ hs]
    have := expo_unit (⟨j, hj⟩ : Fin n)
    simp only at this
    simp [this, MvPolynomial.X]

/-! ### Sums and differences -/

theorem mergeF_rel {both : X → X → X} {right : X → X} {σ : K → K}
    (hb : ∀ k l x y, In k x → In l y → In (k + σ l) (both x y))
    (hr : ∀ k x, In k x → In (σ k) (right x)) (N : Nat) :
    ∀ (d e : Terms (MIndex n) K) (p q : Terms (MIndex n) X), p.length + q.length ≤ N →
      Rel In d p → Rel In e q →
      ∃ r, Rel In r (mergeF lt both right N p q) ∧
        toMv r = toMv d + toMv (e.map (fun t => (t.1, σ t.2))) := by
  have hmap : ∀ (e : Terms (MIndex n) K) (q : Terms (MIndex n) X), Rel In e q →
      Rel In (e.map (fun t => (t.1, σ t.2))) (q.map (fun t => (t.1, right t.2))) := by
    intro e q h
    induction h with
    | nil => exact .nil
    | cons h1 _ ih => exact .cons ⟨h1.1, hr _ _ h1.2⟩ ih
  induction N with
  | zero =>
    intro d e p q hl hd he
    obtain rfl : p = [] := List.eq_nil_of_length_eq_zero (by omega)
    obtain rfl : q = [] := List.eq_nil_of_length_eq_zero (by omega)
    cases hd; cases he
    exact ⟨[], .nil, by simp⟩
  | succ N ih =>
    intro d e p q hl hd he
    cases he with
    | nil => exact ⟨d, by simpa [mergeF] using hd, by simp⟩
    | @cons t' t e' q' ht hq =>
      cases hd with
      | nil =>
        refine ⟨_, ?_, (zero_add _).symm⟩
        rw [mergeF]
        · exact hmap _ _ (.cons ht hq)
        · simp
      | @cons s' s d' p' hs hp =>
        simp only [List.length_cons] at hl
        rw [mergeF]
        by_cases h1 : s.1 = t.1
        · obtain ⟨r, h2, h3⟩ := ih d' e' p' q' (by omega) hp hq
          rw [if_pos h1]
          refine ⟨(s'.1, s'.2 + σ t'.2) :: r, .cons ⟨hs.1, hb _ _ _ _ hs.2 ht.2⟩ h2, ?_⟩
          simp only [toMv_cons, h3, List.map_cons]
          rw [hs.1, ht.1, h1, map_add]
          ring
        · rw [if_neg h1]
          by_cases h4 : lt s.1 t.1 = true
          · obtain ⟨r, h2, h3⟩ := ih d' (t' :: e') p' (t :: q') (by simp; omega) hp (.cons ht hq)
            rw [if_pos h4]
            refine ⟨s' :: r, .cons hs h2, ?_⟩
            rw [toMv_cons, h3, toMv_cons]
            ring
          · obtain ⟨r, h2, h3⟩ := ih (s' :: d') e' (s :: p') q' (by simp; omega) (.cons hs hp) hq
            rw [if_neg h4]
            refine ⟨(t'.1, σ t'.2) :: r, .cons ⟨ht.1, hr _ _ ht.2⟩ h2, ?_⟩
            simp only [toMv_cons, h3, List.map_cons]
            ring

omit [Zero X] in
theorem mergeF_nil_left {both : X → X → X} {right : X → X} (N : Nat) (q : Terms (MIndex n) X) :
    mergeF lt both right N [] q = q.map (fun t => (t.1, right t.2)) := by
  cases N <;> cases q <;> simp [mergeF]

omit [Zero X] in
theorem mergeF_mem {both : X → X → X} {right : X → X} (N : Nat) (p q : Terms (MIndex n) X)
    {t : MIndex n × X} (ht : t ∈ mergeF lt both right N p q) :
    (∃ s ∈ p, s.1 = t.1) ∨ ∃ s ∈ q, s.1 = t.1 := by
  induction N generalizing p q with
  | zero =>
    cases q with
    | nil => exact .inl ⟨t, by simpa [mergeF] using ht, rfl⟩
    | cons u q =>
      cases p with
      | nil =>
        rw [mergeF_nil_left] at ht
        obtain ⟨s, h1, h2⟩ := List.mem_map.1 ht
        exact .inr ⟨s, h1, by rw [← h2]⟩
      | cons s p => simp [mergeF] at ht
  | succ N ih =>
    cases q with
    | nil => exact .inl ⟨t, by simpa [mergeF] using ht, rfl⟩
    | cons u q =>
      cases p with
      | nil =>
        rw [mergeF_nil_left] at ht
        obtain ⟨s, h1, h2⟩ := List.mem_map.1 ht
        exact .inr ⟨s, h1, by rw [← h2]⟩
      | cons s p =>
        rw [mergeF] at ht
        by_cases h1 : s.1 = u.1
        · rw [if_pos h1] at ht
          rcases List.mem_cons.1 ht with rfl | ht
          · exact .inl ⟨s, by simp, rfl⟩
          · rcases ih _ _ ht with ⟨v, hv, h⟩ | ⟨v, hv, h⟩
            · exact .inl ⟨v, by simp [hv], h⟩
            · exact .inr ⟨v, by simp [hv], h⟩
        · rw [if_neg h1] at ht
          by_cases h2 : lt s.1 u.1 = true
          · rw [if_pos h2] at ht
            rcases List.mem_cons.1 ht with rfl | ht
            · exact .inl ⟨t, by simp, rfl⟩
            · rcases ih _ _ ht with ⟨v, hv, h⟩ | ⟨v, hv, h⟩
              · exact .inl ⟨v, by simp [hv], h⟩
              · exact .inr ⟨v, by simpa using hv, h⟩
          · rw [if_neg h2] at ht
            rcases List.mem_cons.1 ht with rfl | ht
            · exact .inr ⟨u, by simp, rfl⟩
            · rcases ih _ _ ht with ⟨v, hv, h⟩ | ⟨v, hv, h⟩
              · exact .inl ⟨v, by simpa using hv, h⟩
              · exact .inr ⟨v, by simp [hv], h⟩

omit [Zero X] in
theorem mergeF_sorted {both : X → X → X} {right : X → X} (N : Nat) (p q : Terms (MIndex n) X)
    (hp : Sorted lt p) (hq : Sorted lt q) : Sorted lt (mergeF lt both right N p q) := by
  have hmap : ∀ q : Terms (MIndex n) X, Sorted lt q →
      Sorted lt (q.map (fun t => (t.1, right t.2))) := by
    intro q hq
    rw [sorted_map] at hq ⊢
    simpa [List.map_map, Function.comp_def] using hq
  induction N generalizing p q with
  | zero =>
    cases q with
    | nil => simpa [mergeF] using hp
    | cons u q =>
      cases p with
      | nil => rw [mergeF_nil_left]; exact hmap _ hq
      | cons s p => simp [mergeF, Sorted]
  | succ N ih =>
    cases q with
    | nil => simpa [mergeF] using hp
    | cons u q =>
      cases p with
      | nil => rw [mergeF_nil_left]; exact hmap _ hq
      | cons s p =>
        obtain ⟨hp1, hp2⟩ := List.pairwise_cons.1 hp
        obtain ⟨hq1, hq2⟩ := List.pairwise_cons.1 hq
        rw [mergeF]
        by_cases h1 : s.1 = u.1
        · rw [if_pos h1]
          refine List.pairwise_cons.2 ⟨fun t ht => ?_, ih _ _ hp2 hq2⟩
          rcases mergeF_mem _ _ _ ht with ⟨v, hv, h⟩ | ⟨v, hv, h⟩
          · simpa [← h] using hp1 v hv
          · simpa [← h, h1] using hq1 v hv
        · rw [if_neg h1]
          by_cases h2 : lt s.1 u.1 = true
          · rw [if_pos h2]
            refine List.pairwise_cons.2 ⟨fun t ht => ?_, ih _ _ hp2 hq⟩
            rcases mergeF_mem _ _ _ ht with ⟨v, hv, h⟩ | ⟨v, hv, h⟩
            · simpa [← h] using hp1 v hv
            · rw [← h]
              rcases List.mem_cons.1 hv with rfl | hv
              · exact h2
              · exact lt_strict.trans _ _ _ h2 (hq1 v hv)
          · rw [if_neg h2]
            have h3 : lt u.1 s.1 = true := by
              rcases lt_strict.total s.1 u.1 with h | h | h
              · exact absurd h h2
              · exact absurd h h1
              · exact h
            refine List.pairwise_cons.2 ⟨fun t ht => ?_, ih _ _ hp hq2⟩
            rcases mergeF_mem _ _ _ ht with ⟨v, hv, h⟩ | ⟨v, hv, h⟩
            · rw [← h]
              rcases List.mem_cons.1 hv with rfl | hv
              · exact h3
              · exact lt_strict.trans _ _ _ h3 (hp1 v hv)
            · simpa [← h] using hq1 v hv

/-- **C89** (sum): the sum stands for the sum of the polynomials, whatever the order of the terms;
the sum of sorted polynomials is sorted. -/
theorem C89_add (hA : Sound A In) (p q : Terms (MIndex n) X) (f g : MvPolynomial (Fin n) K)
    (hp : Encl In p f) (hq : Encl In q g) :
    Encl In (add lt A p q) (f + g) ∧
      (Sorted lt p → Sorted lt q → Sorted lt (add lt A p q)) := by
  obtain ⟨d, h1, rfl⟩ := hp
  obtain ⟨e, h2, rfl⟩ := hq
  obtain ⟨r, h3, h4⟩ := mergeF_rel (σ := id) (both := A.add) (right := id)
    (fun k l x y h h' => hA.add k l x y h h') (fun _ _ h => h) _ d e p q (le_refl _) h1 h2
  exact ⟨⟨r, h3, by simpa using h4⟩, mergeF_sorted _ p q⟩

/-- **C89** (difference). -/
theorem C89_sub (hA : Sound A In) (p q : Terms (MIndex n) X) (f g : MvPolynomial (Fin n) K)
    (hp : Encl In p f) (hq : Encl In q g) :
    Encl In (sub lt A p q) (f - g) ∧
      (Sorted lt p → Sorted lt q → Sorted lt (sub lt A p q)) := by
  obtain ⟨d, h1, rfl⟩ := hp
  obtain ⟨e, h2, rfl⟩ := hq
  obtain ⟨r, h3, h4⟩ := mergeF_rel (σ := fun x => -x) (both := A.sub) (right := A.neg)
    (fun k l x y h h' => by rw [← sub_eq_add_neg]; exact hA.sub k l x y h h')
    hA.neg _ d e p q (le_refl _) h1 h2
  refine ⟨⟨r, h3, ?_⟩, mergeF_sorted _ p q⟩
  have : ∀ e : Terms (MIndex n) K, toMv (e.map (fun t => (t.1, -t.2))) = -toMv e := by
    intro e
    induction e with
    | nil => simp
    | cons t e ih => simp only [List.map_cons, toMv_cons, ih, map_neg]; ring
  rw [h4, this]
  ring

/-! ### Products -/

theorem supdate_fold_rel {J : Type*} (hA : Sound A In) (idx : J → MIndex n) (k : J → K) (x : J → X)
    (hk : ∀ j, In (k j) (x j)) (l : List J) (e : Terms (MIndex n) K) (p : Terms (MIndex n) X)
    (h : Rel In e p) (hs : Sorted lt e) :
    ∃ r, Rel In r (l.foldl (fun r j => supdate lt r (idx j) (fun c => A.add c (x j))) p) ∧
      Sorted lt r ∧ toMv r = toMv e + (l.map (fun j => MvPolynomial.monomial (expo (idx j)) (k j))).sum := by
  induction l generalizing e p with
  | nil => exact ⟨e, h, hs, by simp⟩
  | cons j l ih =>
    have h1 := Rel.supdate (In := In) lt_strict h hs (idx j) (g := fun c => c + k j)
      (f := fun c => A.add c (x j)) hA.zero (fun a b hab => hA.add _ _ _ _ hab (hk j))
    obtain ⟨r, h2, h3, h4⟩ := ih _ _ h1 (C23_sorted_update lt_strict e hs _ _).1
    refine ⟨r, h2, h3, ?_⟩
    rw [h4, toMv_supdate _ hs]
    simp
    ring

theorem rel_zip {I : Type*} {d : Terms I K} {p : Terms I X} (h : Rel In d p) :
    ∃ l : List ((I × K × X)), (∀ t ∈ l, In t.2.1 t.2.2) ∧ d = l.map (fun t => (t.1, t.2.1)) ∧
      p = l.map (fun t => (t.1, t.2.2)) := by
  induction h with
  | nil => exact ⟨[], by simp⟩
  | @cons s t d p h1 _ ih =>
    obtain ⟨l, h2, rfl, rfl⟩ := ih
    refine ⟨(s.1, s.2, t.2) :: l, ?_, by simp, by simp [h1.1]⟩
    intro u hu
    rcases List.mem_cons.1 hu with rfl | hu
    · exact h1.2
    · exact h2 u hu

/-- **C89** (product): while the degrees stay below `2^16`, the product stands for the product of
the polynomials and is sorted, whatever the order of the terms of the factors. -/
theorem C89_mul_partial (hA : Sound A In) (p q : Terms (MIndex n) X) (f g : MvPolynomial (Fin n) K)
    (hp : Encl In p f) (hq : Encl In q g)
    (hd : ∀ s ∈ p, ∀ t ∈ q, s.1.1.sum + t.1.1.sum < 65536) :
    Encl In (mul lt addIdx A p q) (f * g) ∧ Sorted lt (mul lt addIdx A p q) := by
  obtain ⟨d, h1, rfl⟩ := hp
  obtain ⟨e, h2, rfl⟩ := hq
  have key : ∀ (d : Terms (MIndex n) K) (p : Terms (MIndex n) X), Rel In d p →
      (∀ s ∈ p, ∀ t ∈ q, s.1.1.sum + t.1.1.sum < 65536) →
      ∀ (r0 : Terms (MIndex n) K) (r : Terms (MIndex n) X), Rel In r0 r → Sorted lt r0 →
      ∃ r1, Rel In r1 (p.foldl (fun r s => q.foldl
          (fun r t => supdate lt r (addIdx s.1 t.1) (fun c => A.add c (A.mul s.2 t.2))) r) r) ∧
        Sorted lt r1 ∧ toMv r1 = toMv r0 + toMv d * toMv e := by
    intro d p h
    induction h with
    | nil => intro _ r0 r h hs; exact ⟨r0, h, hs, by simp⟩
    | @cons s' s d p hs' _ ih =>
      intro hd r0 r h hs
      obtain ⟨l, hl1, hl2, hl3⟩ := rel_zip h2
      -- one row of the product
      have hrow : ∃ r2, Rel In r2 (q.foldl
          (fun r t => supdate lt r (addIdx s.1 t.1) (fun c => A.add c (A.mul s.2 t.2))) r) ∧
          Sorted lt r2 ∧ toMv r2 = toMv r0 + MvPolynomial.monomial (expo s'.1) s'.2 * toMv e := by
        obtain ⟨r2, h3, h4, h5⟩ := supdate_fold_rel hA
          (J := {t : MIndex n × K × X // t ∈ l}) (fun t => addIdx s.1 t.1.1)
          (fun t => s'.2 * t.1.2.1) (fun t => A.mul s.2 t.1.2.2)
          (fun t => hA.mul _ _ _ _ hs'.2 (hl1 t.1 t.2)) l.attach r0 r h hs
        refine ⟨r2, ?_, h4, ?_⟩
        · rw [hl3, List.foldl_map]
          have := List.foldl_attach (l := l) (f := fun r t => supdate lt r (addIdx s.1 t.1)
            (fun c => A.add c (A.mul s.2 t.2.2))) (b := r)
          rw [← this]
          exact h3
        · rw [h5]
          congr 1
          have hd' : ∀ t ∈ l, s.1.1.sum + t.1.1.sum < 65536 := by
            intro t ht
            exact hd s (by simp) (t.1, t.2.2) (by rw [hl3]; exact List.mem_map.2 ⟨t, ht, rfl⟩)
          have e1 : (l.attach.map (fun t => MvPolynomial.monomial (expo (addIdx s.1 t.1.1))
              (s'.2 * t.1.2.1))) = l.map (fun t => MvPolynomial.monomial (expo s'.1) s'.2 *
                MvPolynomial.monomial (expo t.1) t.2.1) := by
            conv => rhs; rw [← List.attach_map_subtype_val l]
            rw [List.map_map]
            apply List.map_congr_left
            intro t _
            simp only [Function.comp_apply, MvPolynomial.monomial_mul]
            rw [expo_add _ _ (hd' t.1 t.2), hs'.1]
          rw [e1, List.sum_map_mul_left, hl2]
          simp [toMv, List.map_map, Function.comp_def]
      obtain ⟨r2, h3, h4, h5⟩ := hrow
      obtain ⟨r3, h6, h7, h8⟩ := ih (fun u hu => hd u (by simp [hu])) _ _ h3 h4
      refine ⟨r3, h6, h7, ?_⟩
      rw [h8, h5, toMv_cons]
      ring
  obtain ⟨r, h3, h4, h5⟩ := key d p h1 hd [] [] .nil List.Pairwise.nil
  exact ⟨⟨r, h3, by simpa using h5⟩, h3.sorted.1 h4⟩

/-- **C89** (multiplication by a number). -/
theorem C89_mul_const (hA : Sound A In) (p : Terms (MIndex n) X) (f : MvPolynomial (Fin n) K)
    (hp : Encl In p f) (k : K) (c : X) (hc : In k c) :
    Encl In (mulConst A p c) (f * MvPolynomial.C k) ∧
      (Sorted lt p → Sorted lt (mulConst A p c)) := by
  obtain ⟨d, h1, rfl⟩ := hp
  unfold mulConst
  by_cases h : A.isNull c = true
  · rw [if_pos h, hA.isNull k c hc h]
    exact ⟨by simpa using Encl.nil, fun _ => List.Pairwise.nil⟩
  · rw [if_neg h]
    refine ⟨⟨d.map (fun t => (t.1, t.2 * k)), ?_, ?_⟩, ?_⟩
    · induction h1 with
      | nil => exact .nil
      | cons h1 _ ih => exact .cons ⟨h1.1, hA.mul _ _ _ _ h1.2 hc⟩ ih
    · clear h1
      induction d with
      | nil => simp
      | cons t d ih =>
        simp only [List.map_cons, toMv_cons, ih, add_mul]
        rw [mul_comm (MvPolynomial.monomial _ _) (MvPolynomial.C k), MvPolynomial.C_mul_monomial,
          mul_comm t.2 k]
    · intro hs
      rw [sorted_map] at hs ⊢
      simpa [List.map_map, Function.comp_def] using hs

/-- **C89** (multiplication by a monomial): while the degrees stay below `2^16`. -/
theorem C89_mul_monomial_partial (hA : Sound A In) (p : Terms (MIndex n) X)
    (f : MvPolynomial (Fin n) K) (hp : Encl In p f) (m : MIndex n × X) (k : K) (hc : In k m.2)
    (hd : ∀ s ∈ p, s.1.1.sum + m.1.1.sum < 65536) :
    Encl In (mulMonomial addIdx A p m) (f * MvPolynomial.monomial (expo m.1) k) ∧
      (Sorted lt p → Sorted lt (mulMonomial addIdx A p m)) := by
  obtain ⟨d, h1, rfl⟩ := hp
  unfold mulMonomial
  by_cases h : A.isNull m.2 = true
  · rw [if_pos h, hA.isNull k m.2 hc h]
    exact ⟨by simpa using Encl.nil, fun _ => List.Pairwise.nil⟩
  · rw [if_neg h]
    refine ⟨⟨d.map (fun t => (addIdx t.1 m.1, t.2 * k)), ?_, ?_⟩, ?_⟩
    · clear hd
      induction h1 with
      | nil => exact .nil
      | cons h1 _ ih => exact .cons ⟨by simp only [h1.1], hA.mul _ _ _ _ h1.2 hc⟩ ih
    · have hd' : ∀ s ∈ d, s.1.1.sum + m.1.1.sum < 65536 := by
        intro s hs
        have : s.1 ∈ p.map Prod.fst := by rw [← h1.idx]; exact List.mem_map_of_mem hs
        obtain ⟨t, ht, e⟩ := List.mem_map.1 this
        rw [← e]; exact hd t ht
      clear h1 hd
      induction d with
      | nil => simp
      | cons t d ih =>
        simp only [List.map_cons, toMv_cons, ih (fun s hs => hd' s (by simp [hs])), add_mul,
          MvPolynomial.monomial_mul]
        rw [expo_add _ _ (hd' t (by simp))]
    · intro hs
      unfold Sorted at hs ⊢
      rw [List.pairwise_map]
      have hs2 : p.Pairwise (fun s t => s ∈ p ∧ t ∈ p ∧ lt s.1 t.1 = true) := by
        exact (List.pairwise_iff_forall_sublist.2 (fun {a b} hab => ⟨hab.subset (by simp),
          hab.subset (by simp), List.pairwise_iff_forall_sublist.1 hs hab⟩))
      refine hs2.imp ?_
      rintro s t ⟨h1, h2, h3⟩
      rw [lt_addIdx _ _ _ (hd s h1) (hd t h2)]
      exact h3

/-! ### Adding a number, changing signs -/

/-- **C89** (adding a number): on a sorted polynomial. -/
theorem C89_add_const (hA : Sound A In) (p : Terms (MIndex n) X) (f : MvPolynomial (Fin n) K)
    (hp : Encl In p f) (hs : Sorted lt p) (k : K) (c : X) (hc : In k c) :
    Encl In (addConst A p c) (f + MvPolynomial.C k) ∧ Sorted lt (addConst A p c) := by
  obtain ⟨d, h1, rfl⟩ := hp
  have hs' := h1.sorted.2 hs
  have h := Rel.supdate (In := In) lt_strict h1 hs' (zeroIdx n) (g := fun x => x + k)
    (f := fun x => A.add x c) hA.zero (fun a b hab => hA.add _ _ _ _ hab hc)
  refine ⟨⟨_, h, ?_⟩, h.sorted.1 (C23_sorted_update lt_strict d hs' _ _).1⟩
  rw [toMv_supdate _ hs']
  simp [expo_zero]

theorem set_fold_rel (hA : Sound A In) (σ : K → K) (τ : X → X) (h : ∀ k x, In k x → In (σ k) (τ x))
    (d : Terms (MIndex n) K) (p : Terms (MIndex n) X) (hd : Rel In d p) :
    ∀ (e : Terms (MIndex n) K) (r : Terms (MIndex n) X), Rel In e r → Sorted lt e →
      Distinct (e ++ d) →
      ∃ r', Rel In r' (p.foldl (fun r t => supdate lt r t.1 (fun _ => τ t.2)) r) ∧ Sorted lt r' ∧
        toMv r' = toMv e + toMv (d.map (fun t => (t.1, σ t.2))) := by
  induction hd with
  | nil => intro e r h1 h2 _; exact ⟨e, h1, h2, by simp⟩
  | @cons s t d p hst _ ih =>
    intro e r h1 h2 h3
    have h4 := Rel.supdate (In := In) lt_strict h1 h2 t.1 (g := fun _ => σ s.2)
      (f := fun _ => τ t.2) hA.zero (fun _ _ _ => h _ _ hst.2)
    have h5 := C23_sorted_update lt_strict e h2 t.1 (fun _ => σ s.2)
    have hz : coeff e t.1 = 0 := by
      apply coeff_eq_zero
      intro u hu he
      unfold Distinct at h3
      rw [List.map_append, List.nodup_append] at h3
      exact h3.2.2 u.1 (List.mem_map_of_mem hu) s.1 (by simp) (by rw [he, hst.1])
    -- the indices of the updated list are those of `e` and the new one
    have hidx : ∀ a, a ∈ (supdate lt e t.1 (fun _ => σ s.2)).map Prod.fst →
        a = t.1 ∨ a ∈ e.map Prod.fst := by
      intro a ha
      have hle : lowerBound lt e t.1 ≤ e.length := (lowerBound_splits lt_strict e h2 t.1).le
      unfold Expansion.supdate at ha
      generalize lowerBound lt e t.1 = i at ha hle
      have hins : ∀ c, a ∈ (insertAt e i t.1 c).map Prod.fst → a = t.1 ∨ a ∈ e.map Prod.fst := by
        intro c hc
        rw [C23_insert_at e i hle] at hc
        simp only [List.map_append, List.map_cons, List.mem_append, List.mem_cons] at hc
        rcases hc with hc | hc | hc
        · right
          obtain ⟨u, hu, rfl⟩ := List.mem_map.1 hc
          exact List.mem_map_of_mem (List.mem_of_mem_take hu)
        · exact .inl hc
        · right
          obtain ⟨u, hu, rfl⟩ := List.mem_map.1 hc
          exact List.mem_map_of_mem (List.mem_of_mem_drop hu)
      cases hg : e[i]? with
      | none => simp only [hg] at ha; exact hins _ ha
      | some u =>
        simp only [hg] at ha
        by_cases hu : u.1 = t.1
        · rw [if_neg (by simpa using hu)] at ha
          obtain ⟨v, hv, rfl⟩ := List.mem_map.1 ha
          rcases List.mem_or_eq_of_mem_set hv with hv | rfl
          · exact .inr (List.mem_map_of_mem hv)
          · exact .inl hu
        · rw [if_pos hu] at ha; exact hins _ ha
    obtain ⟨r', h6, h7, h8⟩ := ih _ _ h4 h5.1 (by
      unfold Distinct at h3 ⊢
      rw [List.map_append, List.nodup_append] at h3 ⊢
      refine ⟨(sorted_distinct lt_strict h5.1), (List.nodup_cons.1 h3.2.1).2, ?_⟩
      intro a ha b hb hab
      rcases hidx a ha with rfl | ha
      · rw [← hst.1] at hab
        rw [← hab] at hb
        exact (List.nodup_cons.1 h3.2.1).1 hb
      · exact h3.2.2 a ha b (by simp [List.mem_map.1 hb]) hab)
    refine ⟨r', h6, h7, ?_⟩
    rw [h8, toMv_supdate _ h2, hz]
    simp [hst.1]
    ring

/-- **C89** (signs): on a sorted polynomial, `+p` and `-p` stand for the polynomial and its
negative. -/
theorem C89_neg (hA : Sound A In) (p : Terms (MIndex n) X) (f : MvPolynomial (Fin n) K)
    (hp : Encl In p f) (hs : Sorted lt p) :
    Encl In (neg lt A p) (-f) ∧ Sorted lt (neg lt A p) ∧
      Encl In (pos lt p) f ∧ Sorted lt (pos lt p) := by
  obtain ⟨d, h1, rfl⟩ := hp
  have hd : Distinct ([] ++ d) := by
    rw [List.nil_append]; exact sorted_distinct lt_strict (h1.sorted.2 hs)
  obtain ⟨r, h2, h3, h4⟩ := set_fold_rel hA (fun k => -k) A.neg hA.neg d p h1 [] [] .nil
    List.Pairwise.nil hd
  obtain ⟨r', h2', h3', h4'⟩ := set_fold_rel hA (fun k => k) (fun x => x) (fun _ _ h => h) d p h1
    [] [] .nil List.Pairwise.nil hd
  refine ⟨⟨r, h2, ?_⟩, h2.sorted.1 h3, ⟨r', h2', by simpa using h4'⟩, h2'.sorted.1 h3'⟩
  rw [h4]
  have : ∀ e : Terms (MIndex n) K, toMv (e.map (fun t => (t.1, -t.2))) = -toMv e := by
    intro e
    induction e with
    | nil => simp
    | cons t e ih => simp only [List.map_cons, toMv_cons, ih, map_neg]; ring
  rw [this]
  simp

end Ops

end Verif.Polynomial
