import Verif.Differential.Germ
import Mathlib.Algebra.Polynomial.Eval.Coeff
/-!
# C44: equality, second derivatives and univariate differentials; where the constructors are wrong
-/
namespace Verif.Differential
open Verif.Expansion

variable {n m : Nat} {K : Type*} [Field K] [DecidableEq K]

/-! ### Equality -/

theorem eqF_nil (f : Nat) (xs ys : Terms (MIndex n) K) (h : xs = [] ∨ ys = []) :
    eqF f xs ys = (xs.all (fun t => decide (t.2 = 0)) && ys.all (fun u => decide (u.2 = 0))) := by
  cases f with
  | zero => rfl
  | succ f =>
    rcases h with rfl | rfl
    · rw [eqF]; simp
    · cases xs <;> rw [eqF] <;> simp

theorem coeff_head {t : MIndex n × K} {ts : Terms (MIndex n) K} (h : Sorted gl (t :: ts)) :
    coeff ts t.1 = 0 := by
  apply coeff_eq_zero
  intro u hu e
  have := (List.pairwise_cons.1 h).1 u hu
  rw [e] at this
  exact absurd this (by rw [(gl_strict n).irrefl]; decide)

theorem coeff_before {a : MIndex n} {u : MIndex n × K} {us : Terms (MIndex n) K}
    (h : Sorted gl (u :: us)) (hlt : gl a u.1 = true) : coeff (u :: us) a = 0 := by
  apply coeff_eq_zero
  intro v hv e
  have hav : gl a v.1 = true := by
    rcases List.mem_cons.1 hv with rfl | hv
    · exact hlt
    · exact (gl_strict n).trans _ _ _ hlt ((List.pairwise_cons.1 h).1 v hv)
  rw [e] at hav
  exact absurd hav (by rw [(gl_strict n).irrefl]; decide)

theorem all_zero_iff {e : Terms (MIndex n) K} (h : Sorted gl e) :
    e.all (fun t => decide (t.2 = 0)) = true ↔ ∀ a, coeff e a = 0 := by
  induction e with
  | nil => simp [coeff_nil]
  | cons t ts ih =>
    rw [List.all_cons, Bool.and_eq_true, decide_eq_true_iff, ih (List.pairwise_cons.1 h).2]
    constructor
    · rintro ⟨h1, h2⟩ a
      rw [coeff_cons, h1, h2]; simp
    · intro ha
      have h1 : t.2 = 0 := by
        have := ha t.1
        rw [coeff_cons, coeff_head h] at this
        simpa using this
      refine ⟨h1, fun a => ?_⟩
      have := ha a
      rw [coeff_cons, h1] at this
      simpa using this

theorem eqF_spec (f : Nat) (xs ys : Terms (MIndex n) K) (hf : xs.length + ys.length ≤ f)
    (hx : Sorted gl xs) (hy : Sorted gl ys) :
    eqF f xs ys = true ↔ ∀ a, coeff xs a = coeff ys a := by
  have hbase : ∀ (f : Nat) (xs ys : Terms (MIndex n) K), Sorted gl xs → Sorted gl ys →
      (xs = [] ∨ ys = []) → (eqF f xs ys = true ↔ ∀ a, coeff xs a = coeff ys a) := by
    intro f xs ys hx hy h
    rw [eqF_nil _ _ _ h, Bool.and_eq_true, all_zero_iff hx, all_zero_iff hy]
    constructor
    · rintro ⟨h1, h2⟩ a; rw [h1, h2]
    · intro ha
      rcases h with rfl | rfl
      · exact ⟨fun a => coeff_nil a, fun a => by rw [← ha]; exact coeff_nil a⟩
      · exact ⟨fun a => by rw [ha]; exact coeff_nil a, fun a => coeff_nil a⟩
  induction f generalizing xs ys with
  | zero =>
    refine hbase _ _ _ hx hy (Or.inl ?_)
    cases xs with
    | nil => rfl
    | cons t ts => simp at hf
  | succ f ih =>
    cases xs with
    | nil => exact hbase _ _ _ hx hy (Or.inl rfl)
    | cons t ts =>
      cases ys with
      | nil => exact hbase _ _ _ hx hy (Or.inr rfl)
      | cons u us =>
        have hts := (List.pairwise_cons.1 hx).2
        have hus := (List.pairwise_cons.1 hy).2
        have hl : ts.length + us.length + 2 ≤ f + 1 := by simp at hf; omega
        rw [eqF]
        split_ifs with h1 h2
        · have e1 : eqF f ts us = true ↔ ∀ a, coeff ts a = coeff us a := ih _ _ (by omega) hts hus
          rw [Bool.and_eq_true, decide_eq_true_iff, e1]
          constructor
          · rintro ⟨a1, a2⟩ a
            rw [coeff_cons, coeff_cons, h1, a1, a2]
          · intro ha
            have e : t.2 = u.2 := by
              have := ha t.1
              rw [coeff_cons, coeff_cons, coeff_head hx, h1, coeff_head hy] at this
              simpa using this
            refine ⟨e, fun a => ?_⟩
            have := ha a
            rw [coeff_cons, coeff_cons, h1, e] at this
            exact add_left_cancel this
        · have e1 : eqF f ts (u :: us) = true ↔ ∀ a, coeff ts a = coeff (u :: us) a := ih _ _ (by simp; omega) hts hy
          rw [Bool.and_eq_true, decide_eq_true_iff, e1]
          constructor
          · rintro ⟨a1, a2⟩ a
            rw [coeff_cons, a1, ← a2]; simp
          · intro ha
            have e : t.2 = 0 := by
              have := ha t.1
              rw [coeff_cons, coeff_head hx, coeff_before hy h2] at this
              simpa using this
            refine ⟨e, fun a => ?_⟩
            have := ha a
            rw [coeff_cons, e] at this
            simpa using this
        · have h3 : gl u.1 t.1 = true := by
            rcases (gl_strict n).total t.1 u.1 with h | h | h
            · exact absurd h h2
            · exact absurd h h1
            · exact h
          have e1 : eqF f (t :: ts) us = true ↔ ∀ a, coeff (t :: ts) a = coeff us a := ih _ _ (by simp; omega) hx hus
          rw [Bool.and_eq_true, decide_eq_true_iff, e1]
          constructor
          · rintro ⟨a1, a2⟩ a
            rw [a2, coeff_cons u, a1]; simp
          · intro ha
            have e : u.2 = 0 := by
              have := ha u.1
              rw [coeff_before hx h3, coeff_cons, coeff_head hy] at this
              simpa using this.symm
            refine ⟨e, fun a => ?_⟩
            have := ha a
            rw [coeff_cons u, e] at this
            simpa using this

/-- **C44** (equality): two differentials compare equal exactly if all their coefficients are equal; the
degrees need not be. -/
theorem C44_equal (x y : Diff n K) (hx : WF x) (hy : WF y) :
    beq x y = true ↔ ∀ a, coef x a = coef y a := by
  rw [beq, eqF_spec _ _ _ (le_refl _) hx.sorted hy.sorted]
  apply forall_congr'
  intro a
  rw [coef, coef, C23_get _ (sorted_distinct (gl_strict n) hx.sorted),
    C23_get _ (sorted_distinct (gl_strict n) hy.sorted)]

/-- Two differentials of different degrees, of the functions `1+h` and `1+h+h²` for instance, may
compare equal. -/
example : beq (var 1 1 0 : Diff 1 ℚ) (var 2 1 0) = true := by decide +kernel

/-! ### Second derivatives -/

section
omit [Field K] [DecidableEq K]

theorem firstGreater_spec {a b : List Nat} (h : firstGreater a b = true) :
    ∃ k, (∀ l < k, a.getD l 0 = b.getD l 0) ∧ a.getD k 0 > b.getD k 0 := by
  induction a generalizing b with
  | nil => simp [firstGreater] at h
  | cons x xs ih =>
    cases b with
    | nil => simp [firstGreater] at h
    | cons y ys =>
      rw [firstGreater] at h
      split_ifs at h with hxy
      · refine ⟨0, fun l hl => absurd hl (by omega), ?_⟩
        simpa using h
      · obtain ⟨k, h1, h2⟩ := ih h
        refine ⟨k + 1, fun l hl => ?_, by simpa using h2⟩
        cases l with
        | zero => simpa using hxy
        | succ l => simpa using h1 l (by omega)

theorem getD_eq_getIx (a : MIndex n) (k : Fin n) : a.1.getD k 0 = getIx a k := by
  rw [List.getD_eq_getElem?_getD, List.getElem?_eq_getElem (by rw [a.2]; exact k.2)]; rfl

/-- The index has the two unit components `p≤q`. -/
def IsPair (a : MIndex n) (p q : Fin n) : Prop :=
  p ≤ q ∧ ∀ k, getIx a k = (if k = p then 1 else 0) + (if k = q then 1 else 0)

theorem exists_pair {a : MIndex n} (h : a.1.sum = 2) : ∃ p q, IsPair a p q := by
  have step : ∀ (f : Fin n →₀ ℕ) (k : Nat), f.degree = k + 1 →
      ∃ p g, f = Finsupp.single p 1 + g ∧ g.degree = k := by
    intro f k hf
    have hne : f ≠ 0 := by rintro rfl; simp at hf
    obtain ⟨p, hp⟩ := Finsupp.ne_iff.1 hne
    have hle : Finsupp.single p 1 ≤ f := by
      rw [Finsupp.single_le_iff]
      have : f p ≠ 0 := hp
      omega
    refine ⟨p, f - Finsupp.single p 1, (add_tsub_cancel_of_le hle).symm, ?_⟩
    have e : f = Finsupp.single p 1 + (f - Finsupp.single p 1) := (add_tsub_cancel_of_le hle).symm
    have := congrArg Finsupp.degree e
    rw [map_add, Finsupp.degree_single] at this
    omega
  rw [← degree_mono] at h
  obtain ⟨p, g, e1, hg⟩ := step _ 1 h
  obtain ⟨q, g', e2, hg'⟩ := step _ 0 hg
  have h0 : g' = 0 := by
    rwa [Finsupp.degree_eq_zero_iff] at hg'
  subst h0
  have key : ∀ k, getIx a k = (if k = p then 1 else 0) + (if k = q then 1 else 0) := by
    intro k
    rw [← mono_apply, e1, e2, add_zero, Finsupp.add_apply, Finsupp.single_apply, Finsupp.single_apply]
    simp only [eq_comm]
  rcases le_total p q with hpq | hpq
  · exact ⟨p, q, hpq, key⟩
  · exact ⟨q, p, hpq, fun k => by rw [key]; ring⟩

theorem pair_lt {a b : MIndex n} {p q p' q' : Fin n} (ha : IsPair a p q) (hb : IsPair b p' q')
    (sa : a.1.sum = 2) (sb : b.1.sum = 2) (h : gl a b = true) :
    p < p' ∨ p = p' ∧ q < q' := by
  have da : degree a.1 = 2 := by rw [degree_eq_sum (by omega), sa]
  have db : degree b.1 = 2 := by rw [degree_eq_sum (by omega), sb]
  have hg : firstGreater a.1 b.1 = true := by
    unfold gl gradedLess at h
    rw [if_neg (by rw [da, db]; simp)] at h
    exact h
  obtain ⟨k, h1, h2⟩ := firstGreater_spec hg
  have hk : k < n := by
    by_contra hk
    rw [List.getD_eq_getElem?_getD, List.getElem?_eq_none (by rw [a.2]; omega)] at h2
    simp only [Option.getD_none] at h2
    omega
  have h1' : ∀ l : Fin n, l.1 < k → getIx a l = getIx b l := by
    intro l hl
    rw [← getD_eq_getIx, ← getD_eq_getIx, h1 l hl]
  have h2' : getIx a ⟨k, hk⟩ > getIx b ⟨k, hk⟩ := by
    rw [← getD_eq_getIx, ← getD_eq_getIx]; exact h2
  rw [ha.2, hb.2] at h2'
  by_contra hc
  push Not at hc
  obtain ⟨c1, c2⟩ := hc
  rcases lt_or_eq_of_le c1 with c1 | c1
  · by_cases hk' : p'.1 < k
    · have e := h1' p' hk'
      rw [ha.2, hb.2, if_neg (ne_of_lt c1), if_neg (ne_of_lt (lt_of_lt_of_le c1 ha.1)), if_pos rfl] at e
      omega
    · have hkp : (⟨k, hk⟩ : Fin n) < p := lt_of_le_of_lt (Fin.le_def.2 (by simp only; omega)) c1
      rw [if_neg (ne_of_lt hkp), if_neg (ne_of_lt (lt_of_lt_of_le hkp ha.1))] at h2'
      omega
  · subst c1
    have c2 := c2 rfl
    by_cases hqq : q' = q
    · subst hqq; omega
    · by_cases hk' : q'.1 < k
      · have e := h1' q' hk'
        rw [ha.2, hb.2, if_neg hqq, if_pos (rfl : q' = q')] at e
        omega
      · by_cases hkq : (⟨k, hk⟩ : Fin n) = q
        · have hlt : q' < q := lt_of_le_of_ne c2 hqq
          rw [← hkq, Fin.lt_def] at hlt
          exact hk' hlt
        · rw [if_neg hkq] at h2'
          omega

theorem scan_spec (a : MIndex n) (p : Fin n) (f i : Nat) (hf : n ≤ f + i) (hi : i ≤ p.1)
    (hp : getIx a p ≠ 0) (hz : ∀ k : Fin n, i ≤ k.1 → k < p → getIx a k = 0) :
    scan a f i = some p := by
  induction f generalizing i with
  | zero => have := p.2; omega
  | succ f ih =>
    rw [scan, dif_pos (by have := p.2; omega)]
    by_cases h : i = p.1
    · subst h
      rw [if_neg hp]
    · rw [if_pos (hz _ (le_refl _) (by rw [Fin.lt_def]; simp only; omega))]
      exact ih (i + 1) (by omega) (by omega) (fun k hk => hz k (by omega))

/-- The multi-index of the variables `u` and `v`. -/
def pairIx (u v : Fin n) : MIndex n := addIx (unitIx u) (unitIx v)

theorem getIx_pairIx (u v k : Fin n) :
    getIx (pairIx u v) k = (if k = u then 1 else 0) + (if k = v then 1 else 0) := by
  rw [← mono_apply, pairIx, mono_addIx (by rw [sum_unitIx, sum_unitIx]; omega), mono_unitIx, mono_unitIx,
    Finsupp.add_apply, Finsupp.single_apply, Finsupp.single_apply]
  simp only [eq_comm]

theorem sum_pairIx (u v : Fin n) : (pairIx u v).1.sum = 2 := by
  rw [← degree_mono, pairIx, mono_addIx (by rw [sum_unitIx, sum_unitIx]; omega), map_add, degree_mono,
    degree_mono, sum_unitIx, sum_unitIx]

theorem eq_pairIx_iff {a : MIndex n} {p q : Fin n} (h : IsPair a p q) (u v : Fin n) :
    a = pairIx u v ↔ (u = p ∧ v = q) ∨ (u = q ∧ v = p) := by
  constructor
  · intro e
    have key : ∀ k, (if k = p then 1 else 0) + (if k = q then 1 else 0) =
        (if k = u then 1 else 0) + (if k = v then 1 else 0) := by
      intro k
      rw [← h.2, e, getIx_pairIx]
    by_cases hu : u = p
    · subst hu
      have k2 := key q
      have k4 := key v
      by_cases hvq : v = q
      · exact Or.inl ⟨rfl, hvq⟩
      · rw [if_pos (rfl : v = v), if_neg hvq] at k4
        omega
    · have k3 := key u
      rw [if_neg hu, if_pos (rfl : u = u)] at k3
      have huq : u = q := by
        by_contra h; rw [if_neg h] at k3; omega
      subst huq
      have k1 := key p
      rw [if_pos (rfl : p = p), if_neg (Ne.symm hu)] at k1
      have hpv : p = v := by
        by_contra h; rw [if_neg h] at k1; omega
      exact Or.inr ⟨rfl, hpv.symm⟩
  · intro e
    apply ext_getIx
    intro k
    rw [h.2, getIx_pairIx]
    rcases e with ⟨rfl, rfl⟩ | ⟨rfl, rfl⟩
    · rfl
    · ring

end

theorem hess_fold (L : Terms (MIndex n) K) (hs : Sorted gl L) (h2 : ∀ t ∈ L, t.1.1.sum = 2)
    (s : HState n K) (hi : ∀ t ∈ L, ∀ p q, IsPair t.1 p q → s.i ≤ p.1)
    (hj : ∀ t ∈ L, ∀ p q, IsPair t.1 p q → s.i = p.1 → p < q → s.j ≤ q.1) (hij : s.i < s.j)
    (hH : ∀ t ∈ L, ∀ u v, t.1 = pairIx u v → s.H u v = 0) :
    ∃ s', L.foldlM hessStep s = some s' ∧ ∀ u v, s'.H u v = s.H u v +
      coeff L (pairIx u v) / (if u = v then 1 else 2) := by
  induction L generalizing s with
  | nil => exact ⟨s, rfl, fun u v => by rw [coeff_nil]; simp⟩
  | cons t L ih =>
    have hst := List.pairwise_cons.1 hs
    have ht2 := h2 t (List.mem_cons_self ..)
    obtain ⟨p, q, hp⟩ := exists_pair ht2
    have hip := hi t (List.mem_cons_self ..) p q hp
    have hjp := hj t (List.mem_cons_self ..) p q hp
    have hsc : scan t.1 (n - s.i) s.i = some p := by
      apply scan_spec _ _ _ _ (by omega) hip
      · rw [hp.2]; simp
      · intro k _ hk
        rw [hp.2, if_neg (ne_of_lt hk), if_neg (ne_of_lt (lt_of_lt_of_le hk hp.1))]
    have hlt : ∀ u ∈ L, ∀ p' q', IsPair u.1 p' q' → p < p' ∨ p = p' ∧ q < q' := fun u hu p' q' hp' =>
      pair_lt hp hp' ht2 (h2 u (List.mem_cons_of_mem _ hu)) (hst.1 u hu)
    have hnot : ∀ u v, t.1 = pairIx u v → ∀ w ∈ L, w.1 ≠ pairIx u v := by
      intro u v e w hw e'
      have := hst.1 w hw
      rw [e, e', (gl_strict n).irrefl] at this
      cases this
    have fin : ∀ s1 : HState n K, hessStep s t = some s1 → s1.i = p.1 → s1.i < s1.j →
        (p < q → s1.j ≤ q.1) → (p = q → s1.j ≤ p.1 + 1 ∨ s1.j = s.j ∧ s.i = p.1) →
        (∀ u v, s1.H u v = if t.1 = pairIx u v then t.2 / (if u = v then 1 else 2) else s.H u v) →
        ∃ s', (t :: L).foldlM hessStep s = some s' ∧ ∀ u v, s'.H u v = s.H u v +
          coeff (t :: L) (pairIx u v) / (if u = v then 1 else 2) := by
      intro s1 e1 e2 e3 e4 e5 e6
      have g1 : ∀ t ∈ L, ∀ p q, IsPair t.1 p q → s1.i ≤ p.1 := by
        intro u hu p' q' hp'
        rcases hlt u hu p' q' hp' with h | ⟨h, -⟩
        · rw [e2]; exact (Fin.lt_def.1 h).le
        · rw [e2, h]
      have g2 : ∀ t ∈ L, ∀ p q, IsPair t.1 p q → s1.i = p.1 → p < q → s1.j ≤ q.1 := by
        intro u hu p' q' hp' hpe hlt'
        rcases hlt u hu p' q' hp' with h | ⟨h, h'⟩
        · rw [Fin.lt_def] at h; omega
        · rcases lt_or_eq_of_le hp.1 with hpq | hpq
          · exact (e4 hpq).trans (Fin.lt_def.1 h').le
          · rcases e5 hpq with h5 | ⟨h5, h6⟩
            · rw [hpq] at h5; rw [Fin.lt_def] at h'; omega
            · rw [h5]
              exact hj u (List.mem_cons_of_mem _ hu) p' q' hp' (by rw [h6, h]) hlt'
      have g3 : ∀ t ∈ L, ∀ u v, t.1 = pairIx u v → s1.H u v = 0 := by
        intro w hw u v e
        have hne : t.1 ≠ pairIx u v := fun e' => hnot u v e' w hw e
        rw [e6, if_neg hne]
        exact hH w (List.mem_cons_of_mem _ hw) u v e
      obtain ⟨s', f1, f2⟩ := ih hst.2 (fun u hu => h2 u (List.mem_cons_of_mem _ hu)) s1 g1 g2 e3 g3
      refine ⟨s', ?_, ?_⟩
      · rw [List.foldlM_cons, e1]; exact f1
      · intro u v
        rw [f2, e6, coeff_cons]
        by_cases e : t.1 = pairIx u v
        · rw [if_pos e, if_pos e, hH t (List.mem_cons_self ..) u v e]; ring
        · rw [if_neg e, if_neg e]; ring
    rcases lt_or_eq_of_le hp.1 with hpq | hpq
    · have h1 : getIx t.1 p ≠ 2 := by
        rw [hp.2, if_pos rfl, if_neg (ne_of_lt hpq)]; omega
      set j0 := if p.1 = s.i then s.j else p.1 + 1 with hj0
      have hj1 : j0 ≤ q.1 := by
        rw [hj0]; split_ifs with h
        · exact hjp h.symm hpq
        · exact Fin.lt_def.1 hpq
      have hj2 : p.1 < j0 := by
        rw [hj0]; split_ifs with h
        · omega
        · omega
      have hsc2 : scan t.1 (n - j0) j0 = some q := by
        apply scan_spec _ _ _ _ (by omega) hj1
        · rw [hp.2]; simp
        · intro k hk1 hk2
          rw [hp.2, if_neg (by rintro rfl; omega), if_neg (ne_of_lt hk2)]
      refine fin ⟨p, q, setEntry (setEntry s.H p q (t.2 / 2)) q p (t.2 / 2)⟩ ?_ rfl
        (Fin.lt_def.1 hpq) (fun _ => le_refl _) (fun h => absurd h (ne_of_lt hpq)) ?_
      · rw [hessStep, hsc, Option.bind_some, if_neg h1, ← hj0, hsc2]; rfl
      · intro u v
        simp only [setEntry, eq_pairIx_iff hp]
        by_cases c1 : u = q ∧ v = p
        · rw [if_pos c1, if_pos (Or.inr c1), if_neg (by rw [c1.1, c1.2]; exact (ne_of_lt hpq).symm)]
        · rw [if_neg c1]
          by_cases c2 : u = p ∧ v = q
          · rw [if_pos c2, if_pos (Or.inl c2), if_neg (by rw [c2.1, c2.2]; exact ne_of_lt hpq)]
          · rw [if_neg c2, if_neg (by tauto)]
    · subst hpq
      have h1 : getIx t.1 p = 2 := by rw [hp.2]; simp
      refine fin ⟨p, if p.1 = s.i then s.j else p.1 + 1, setEntry s.H p p t.2⟩ ?_ rfl ?_
        (fun h => absurd h (lt_irrefl _)) (fun _ => ?_) ?_
      · rw [hessStep, hsc, Option.bind_some, if_pos h1]
      · show p.1 < if p.1 = s.i then s.j else p.1 + 1
        split_ifs <;> omega
      · simp only
        split_ifs with h
        · exact Or.inr ⟨rfl, h.symm⟩
        · exact Or.inl (le_refl _)
      · intro u v
        simp only [setEntry, eq_pairIx_iff hp, or_self]
        by_cases c1 : u = p ∧ v = p
        · rw [if_pos c1, if_pos c1, if_pos (by rw [c1.1, c1.2])]; simp
        · rw [if_neg c1, if_neg c1]

/-- **C44** (second derivatives): for a differential of degree at least two, `half_hessian` never reads
beyond an index, and twice its entries are the second partial derivatives. -/
theorem C44_half_hessian [CharZero K] (x : Diff n K) (p : MvPolynomial (Fin n) K) (hx : Rep x p)
    (hd : 2 ≤ x.deg) :
    ∃ H, halfHessian x = some H ∧ ∀ u v,
      2 * H u v = (MvPolynomial.pderiv u (MvPolynomial.pderiv v p)).coeff 0 := by
  have hdeg : ∀ t ∈ x.terms, degree t.1.1 = t.1.1.sum := fun t ht => degree_eq_sum (hx.1.fits t ht)
  set D := x.terms.dropWhile (fun t => decide (degree t.1.1 ≤ 1)) with hD
  set L := D.takeWhile (fun t => decide (degree t.1.1 ≤ 2)) with hL
  have hDsub : D.Sublist x.terms := List.dropWhile_sublist _
  have hLsub : L.Sublist D := List.takeWhile_sublist _
  have hDs : Sorted gl D := hx.1.sorted.sublist hDsub
  have hLs : Sorted gl L := hDs.sublist hLsub
  have hD2 : ∀ t ∈ D, 2 ≤ t.1.1.sum := by
    cases hDe : D with
    | nil => intro t ht; cases ht
    | cons w D' =>
      have hw : ¬ degree w.1.1 ≤ 1 := by
        have := List.head_dropWhile_not (fun t : MIndex n × K => decide (degree t.1.1 ≤ 1)) (l := x.terms)
          (by rw [← hD, hDe]; simp)
        simp only [← hD, hDe, List.head_cons] at this
        exact of_decide_eq_false this
      have hwm : w ∈ x.terms := hDsub.mem (by rw [hDe]; exact List.mem_cons_self ..)
      intro t ht
      have htm : t ∈ x.terms := hDsub.mem (by rw [hDe]; exact ht)
      rw [hdeg w hwm] at hw
      rcases List.mem_cons.1 ht with rfl | ht'
      · omega
      · rw [hDe] at hDs
        have := sum_le_of_gl ((List.pairwise_cons.1 hDs).1 t ht') (hx.1.fits w hwm) (hx.1.fits t htm)
        omega
  have hL2 : ∀ t ∈ L, t.1.1.sum = 2 := by
    intro t ht
    have h1 := hD2 t (hLsub.mem ht)
    have h2 := of_decide_eq_true (List.mem_takeWhile_imp (p := fun t : MIndex n × K => decide (degree t.1.1 ≤ 2)) ht)
    rw [hdeg t (hDsub.mem (hLsub.mem ht))] at h2
    omega
  obtain ⟨s', e1, e2⟩ := hess_fold L hLs hL2 ⟨0, 1, fun _ _ => 0⟩ (fun _ _ _ _ _ => Nat.zero_le _)
    (fun _ _ p q _ _ h => by have := Fin.lt_def.1 h; simp only; omega) (by simp) (fun _ _ _ _ _ => rfl)
  refine ⟨s'.H, ?_, fun u v => ?_⟩
  · rw [halfHessian, if_neg (by omega), ← hD, ← hL, e1]; rfl
  · have hc : coeff L (pairIx u v) = p.coeff (mono (pairIx u v)) := by
      have hcx : coeff x.terms (pairIx u v) = p.coeff (mono (pairIx u v)) := by
        rw [← hx.2 _ (by rw [degree_mono, sum_pairIx]; exact hd), poly, coeff_toPoly]
      rw [← hcx]
      have e3 : x.terms = x.terms.takeWhile (fun t => decide (degree t.1.1 ≤ 1)) ++ D :=
        (List.takeWhile_append_dropWhile).symm
      have e4 : D = L ++ D.dropWhile (fun t => decide (degree t.1.1 ≤ 2)) :=
        (List.takeWhile_append_dropWhile).symm
      have z1 : coeff (x.terms.takeWhile (fun t => decide (degree t.1.1 ≤ 1))) (pairIx u v) = 0 := by
        apply coeff_eq_zero
        intro t ht e
        have h1 := of_decide_eq_true (List.mem_takeWhile_imp (p := fun t : MIndex n × K => decide (degree t.1.1 ≤ 1)) ht)
        rw [hdeg t ((List.takeWhile_sublist _).mem ht), e, sum_pairIx] at h1
        omega
      have z2 : coeff (D.dropWhile (fun t => decide (degree t.1.1 ≤ 2))) (pairIx u v) = 0 := by
        have hE : (D.dropWhile (fun t => decide (degree t.1.1 ≤ 2))).Sublist D := List.dropWhile_sublist _
        apply coeff_eq_zero
        intro t ht e
        have hEs := hDs.sublist hE
        cases hEe : D.dropWhile (fun t => decide (degree t.1.1 ≤ 2)) with
        | nil => rw [hEe] at ht; cases ht
        | cons w E =>
          have hw : ¬ degree w.1.1 ≤ 2 := by
            have := List.head_dropWhile_not (fun t : MIndex n × K => decide (degree t.1.1 ≤ 2)) (l := D)
              (by rw [hEe]; simp)
            simp only [hEe, List.head_cons] at this
            exact of_decide_eq_false this
          have hwm : w ∈ x.terms := hDsub.mem (hE.mem (by rw [hEe]; exact List.mem_cons_self ..))
          have htm : t ∈ x.terms := hDsub.mem (hE.mem ht)
          rw [hdeg w hwm] at hw
          have hst : t.1.1.sum = 2 := by rw [e, sum_pairIx]
          rw [hEe] at ht hEs
          rcases List.mem_cons.1 ht with rfl | ht'
          · omega
          · have := sum_le_of_gl ((List.pairwise_cons.1 hEs).1 t ht') (hx.1.fits w hwm)
              (hx.1.fits t htm)
            omega
      conv_rhs => rw [e3, coeff_append, z1, zero_add, e4, coeff_append, z2, add_zero]
    have hm : mono (pairIx u v) = Finsupp.single u 1 + Finsupp.single v 1 := by
      rw [pairIx, mono_addIx (by rw [sum_unitIx, sum_unitIx]; omega), mono_unitIx, mono_unitIx]
    rw [e2, hc, hm, MvPolynomial.coeff_pderiv, MvPolynomial.coeff_pderiv]
    by_cases huv : u = v
    · subst huv
      rw [if_pos rfl]
      simp
      ring
    · rw [if_neg huv]
      have hvu : (Finsupp.single u 1 : Fin n →₀ ℕ) v = 0 := by
        rw [Finsupp.single_apply, if_neg huv]
      simp only [zero_add, hvu, Finsupp.coe_zero, Pi.zero_apply, Nat.cast_zero]
      field_simp

end Verif.Differential
