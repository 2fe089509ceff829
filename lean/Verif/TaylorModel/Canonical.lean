import Verif.TaylorModel.Compose
import Verif.TaylorModel.Struct

/-!
# Property C75: Taylor models stay in canonical form

Looking up a coefficient, bounding the range and evaluating by Horner's rule all rely on the terms
of a model being in strictly increasing order of their indices.  Every operation keeps this form.
-/

namespace Verif.TaylorModel

open Ariadne (Rounding)
open Ariadne.Rounding
open Verif.Expansion

variable {K : Type*} [Field K] [LinearOrder K] [IsStrictOrderedRing K]

/-! ## Specification -/

/-- Every index has `n` components, and the indices are strictly increasing for the reverse
lexicographic order; in particular no index occurs twice. -/
def Canon (n : Nat) (t : TM K) : Prop := WF n t ∧ Sorted revLexLess t.terms

theorem rl_irrefl (a : List Nat) : revLexLess a a = false :=
  (C22_strict_total a.length).2.2.irrefl a rfl

theorem rl_trans {n : Nat} {a b c : List Nat} (ha : a.length = n) (hb : b.length = n)
    (hc : c.length = n) (h1 : revLexLess a b = true) (h2 : revLexLess b c = true) :
    revLexLess a c = true := (C22_strict_total n).2.2.trans a b c ha hb hc h1 h2

theorem rl_total {n : Nat} {a b : List Nat} (ha : a.length = n) (hb : b.length = n) :
    revLexLess a b = true ∨ a = b ∨ revLexLess b a = true := (C22_strict_total n).2.2.total a b ha hb

/-- No index occurs twice in a model in canonical form. -/
theorem C75_distinct {n : Nat} {t : TM K} (h : Canon n t) : Distinct t.terms := by
  unfold Distinct
  rw [List.Nodup, List.pairwise_map]
  refine h.2.imp (fun {a b} hab => ?_)
  intro e
  rw [e, rl_irrefl] at hab
  cases hab

/-- Zero is the largest index. -/
theorem rl_zero {n : Nat} {a : List Nat} (ha : a.length = n) (h0 : a ≠ List.replicate n 0) :
    revLexLess a (List.replicate n 0) = true := by
  rcases rl_total ha (List.length_replicate (n := n) (a := 0)) with h | h | h
  · exact h
  · exact absurd h h0
  · exfalso
    unfold revLexLess at h
    rw [List.reverse_replicate] at h
    have : ∀ (b : List Nat) (k : Nat), firstGreater (List.replicate k 0) b = false := by
      intro b
      induction b with
      | nil => intro k; cases k <;> simp [List.replicate_succ, firstGreater]
      | cons y b ih =>
        intro k
        cases k with
        | zero => simp [firstGreater]
        | succ k =>
          rw [List.replicate_succ]
          unfold firstGreater
          by_cases hy : 0 ≠ y
          · rw [if_pos hy]; simp
          · rw [if_neg hy]; exact ih k
    rw [this] at h
    cases h

/-! ## Sweeping and termwise operations -/

theorem sweepLoop_sublist (R : Rounding K) (d : List Nat → K → Bool) (p : Terms (List Nat) K) (e : K) :
    (sweepLoop R d p e).1.Sublist p := by
  induction p generalizing e with
  | nil => simp [sweepLoop]
  | cons t p ih =>
    obtain ⟨a, c⟩ := t
    unfold sweepLoop
    by_cases h : d a c = true
    · rw [if_pos h]; exact (ih _).cons _
    · rw [if_neg h]; exact (ih _).cons_cons _

/-- **C75** (sweeping). -/
theorem C75_sweep (R : Rounding K) (s : Sweeper K) {n : Nat} {t : TM K} (h : Canon n t) :
    Canon n (sweep R s t) :=
  ⟨fun u hu => h.1 u ((sweepLoop_sublist R _ _ _).subset hu), h.2.sublist (sweepLoop_sublist R _ _ _)⟩

theorem apply1_indices (op : K → K → K × K) (p : Terms (List Nat) K) (e : K) :
    (apply1 op p e).1.map Prod.fst = p.map Prod.fst := by
  induction p generalizing e with
  | nil => rfl
  | cons t p ih =>
    obtain ⟨a, c⟩ := t
    simp only [apply1, List.map_cons, ih]

theorem canon_of_indices {n : Nat} {t r : TM K} (e : r.terms.map Prod.fst = t.terms.map Prod.fst)
    (h : Canon n t) : Canon n r := by
  constructor
  · intro u hu
    have h1 : u.1 ∈ r.terms.map Prod.fst := List.mem_map_of_mem hu
    rw [e] at h1
    obtain ⟨v, hv, hvu⟩ := List.mem_map.1 h1
    rw [← hvu]
    exact h.1 v hv
  · have h2 := h.2
    unfold Sorted at h2 ⊢
    have key : ∀ p : Terms (List Nat) K, p.Pairwise (fun s t => revLexLess s.1 t.1 = true) ↔
        (p.map Prod.fst).Pairwise (fun a b => revLexLess a b = true) :=
      fun p => (List.pairwise_map (f := Prod.fst) (R := fun a b => revLexLess a b = true)).symm
    rw [key] at h2 ⊢
    rw [e]
    exact h2

/-- **C75** (negation and multiplication by a number). -/
theorem C75_neg_scal (R : Rounding K) (c : Num K) {n : Nat} {t : TM K} (h : Canon n t) :
    Canon n (neg R t) ∧ Canon n (scal R t c) :=
  ⟨canon_of_indices (apply1_indices _ _ _) h, canon_of_indices (apply1_indices _ _ _) h⟩

/-- **C75** (adding a number): the constant term is kept last. -/
theorem C75_acc (R : Rounding K) (c : Num K) {n : Nat} {t : TM K} (h : Canon n t)
    (hf : ∀ u ∈ t.terms, Fits u.1) : Canon n (acc R n t c) := by
  unfold acc
  by_cases h0 : c.l = 0 ∧ c.u = 0
  · rw [if_pos h0]; exact h
  · rw [if_neg h0]
    cases hl : t.terms.getLast? with
    | none =>
      have hn : t.terms = [] := List.getLast?_eq_none_iff.1 hl
      simp only [hn, List.nil_append]
      exact ⟨fun u hu => by simp only [List.mem_singleton] at hu; subst hu; simp, by simp [Sorted]⟩
    | some u =>
      obtain ⟨p, hp⟩ := List.getLast?_eq_some_iff.1 hl
      have hwu := h.1 u (by rw [hp]; simp)
      have hfu := hf u (by rw [hp]; simp)
      have hs := h.2
      simp only
      by_cases hd : degree u.1 > 0
      · rw [if_pos hd]
        have hu0 : u.1 ≠ List.replicate n 0 := by
          intro e
          rw [e, degree_of_fits (by unfold Fits; rw [Expansion.sum_replicate_zero]; omega),
            Expansion.sum_replicate_zero] at hd
          omega
        have hu := rl_zero hwu hu0
        refine ⟨?_, ?_⟩
        · intro v hv
          rcases List.mem_append.1 hv with hv | hv
          · exact h.1 v hv
          · simp only [List.mem_singleton] at hv; subst hv; simp
        · unfold Sorted at hs ⊢
          rw [List.pairwise_append]
          refine ⟨hs, by simp, ?_⟩
          intro v hv w hw
          simp only [List.mem_singleton] at hw
          subst hw
          simp only
          rw [hp, List.pairwise_append] at hs
          rw [hp] at hv
          rcases List.mem_append.1 hv with hv | hv
          · exact rl_trans (h.1 v (by rw [hp]; simp [hv])) hwu (by simp)
              (hs.2.2 v hv u (by simp)) hu
          · simp only [List.mem_singleton] at hv
            subst hv
            exact hu
      · rw [if_neg hd]
        refine canon_of_indices ?_ h
        simp only [hp, List.dropLast_concat, List.map_append, List.map_cons, List.map_nil]

/-- **C75** (constants and coordinates). -/
theorem C75_constructors (R : Rounding K) (n j : Nat) (c : Num K) :
    Canon n (constant R n c) ∧ Canon n (assign R n c) ∧ Canon n (coordinate n j : TM K) := by
  refine ⟨(C75_neg_scal R c ?_).2, ?_, ?_, ?_⟩
  · exact ⟨fun u hu => by simp only [List.mem_singleton] at hu; subst hu; simp, by simp [Sorted]⟩
  · unfold assign
    by_cases h : c.value R = 0
    · rw [if_pos h]; exact ⟨fun u hu => by simp at hu, by simp [Sorted]⟩
    · rw [if_neg h]
      exact ⟨fun u hu => by simp only [List.mem_singleton] at hu; subst hu; simp, by simp [Sorted]⟩
  · intro u hu
    simp only [coordinate, List.mem_singleton] at hu
    subst hu
    simp
  · simp [coordinate, Sorted]

/-! ## Sums -/

theorem apply2F_canon (op : Op2 K) (n : Nat) : ∀ (N : Nat) (p q : Terms (List Nat) K) (e : K),
    (∀ u ∈ p, u.1.length = n) → (∀ u ∈ q, u.1.length = n) →
    Sorted revLexLess p → Sorted revLexLess q →
    Sorted revLexLess (apply2F op N p q e).1 := by
  intro N
  induction N with
  | zero => intro p q e _ _ _ _; simp [apply2F, Sorted]
  | succ N ih =>
    intro p q e hp hq sp sq
    -- a head smaller than everything in both lists is smaller than the rest of the result
    have head : ∀ (a : List Nat) (x : K) (p q : Terms (List Nat) K) (e : K),
        (∀ u ∈ p, u.1.length = n) → (∀ u ∈ q, u.1.length = n) →
        Sorted revLexLess p → Sorted revLexLess q →
        (∀ u ∈ p, revLexLess a u.1 = true) → (∀ u ∈ q, revLexLess a u.1 = true) →
        Sorted revLexLess ((a, x) :: (apply2F op N p q e).1) := by
      intro a x p q e hp hq sp sq h1 h2
      refine List.pairwise_cons.2 ⟨?_, ih p q e hp hq sp sq⟩
      intro u hu
      obtain ⟨v, hv, ev⟩ := mem_apply2F hu
      simp only
      rw [← ev]
      rcases hv with hv | hv
      · exact h1 v hv
      · exact h2 v hv
    match p, q with
    | [], [] => simp [apply2F, Sorted]
    | (a, x) :: p, [] =>
      unfold apply2F
      have h := List.pairwise_cons.1 sp
      exact head a _ p [] e (fun u hu => hp u (by simp [hu])) (by simp) h.2 (by simp [Sorted])
        h.1 (by simp)
    | [], (b, y) :: q =>
      unfold apply2F
      have h := List.pairwise_cons.1 sq
      exact head b _ [] q e (by simp) (fun u hu => hq u (by simp [hu])) (by simp [Sorted]) h.2
        (by simp) h.1
    | (a, x) :: p, (b, y) :: q =>
      have ha : a.length = n := hp (a, x) (by simp)
      have hb : b.length = n := hq (b, y) (by simp)
      have h1 := List.pairwise_cons.1 sp
      have h2 := List.pairwise_cons.1 sq
      have hp' : ∀ u ∈ p, u.1.length = n := fun u hu => hp u (by simp [hu])
      have hq' : ∀ u ∈ q, u.1.length = n := fun u hu => hq u (by simp [hu])
      unfold apply2F
      by_cases c1 : revLexLess a b = true
      · rw [if_pos c1]
        refine head a _ p ((b, y) :: q) e hp' hq h1.2 sq h1.1 ?_
        intro u hu
        rcases List.mem_cons.1 hu with rfl | hu
        · exact c1
        · exact rl_trans ha hb (hq' u hu) c1 (h2.1 u hu)
      · rw [if_neg c1]
        by_cases c2 : revLexLess b a = true
        · rw [if_pos c2]
          refine head b _ ((a, x) :: p) q e hp hq' sp h2.2 ?_ h2.1
          intro u hu
          rcases List.mem_cons.1 hu with rfl | hu
          · exact c2
          · exact rl_trans hb ha (hp' u hu) c2 (h1.1 u hu)
        · rw [if_neg c2]
          have e' : a = b := by
            rcases rl_total ha hb with h | h | h
            · exact absurd h c1
            · exact h
            · exact absurd h c2
          subst e'
          exact head a _ p q _ hp' hq' h1.2 h2.2 h1.1 h2.1

/-- **C75** (sum and difference). -/
theorem C75_add_sub (R : Rounding K) (s : Sweeper K) {n : Nat} {x y : TM K} (hx : Canon n x)
    (hy : Canon n y) : Canon n (add R s x y) ∧ Canon n (sub R s x y) := by
  have key : ∀ op : Op2 K, Canon n (combine R s op x y) := by
    intro op
    refine C75_sweep R s ⟨?_, apply2F_canon op n _ _ _ _ hx.1 hy.1 hx.2 hy.2⟩
    intro u hu
    obtain ⟨v, hv, e⟩ := mem_apply2F hu
    rw [← e]
    exact hv.elim (hx.1 v) (hy.1 v)
  exact ⟨key _, key _⟩

/-! ## Products -/

theorem addIndex_length {n : Nat} {a b : List Nat} (ha : a.length = n) (hb : b.length = n) :
    (addIndex a b).length = n := by simp [addIndex, ha, hb]

theorem addIndex_comm (a b : List Nat) : addIndex a b = addIndex b a := by
  unfold addIndex
  rw [List.zipWith_comm]
  simp only [Nat.add_comm]

theorem fmaLoopF_canon (R : Rounding K) (fma : K → K → K → K → K × K) (n : Nat) (xa : List Nat)
    (hxa : xa.length = n) (xv : K) : ∀ (N : Nat) (r q : Terms (List Nat) K) (e : K),
    (∀ u ∈ r, u.1.length = n) → (∀ u ∈ q, u.1.length = n ∧ xa.sum + u.1.sum < 65536) →
    Sorted revLexLess r → Sorted revLexLess q →
    Sorted revLexLess (fmaLoopF R fma xa xv N r q e).1 ∧
      ∀ u ∈ (fmaLoopF R fma xa xv N r q e).1,
        (∃ w ∈ r, w.1 = u.1) ∨ ∃ v ∈ q, addIndex xa v.1 = u.1 := by
  have mono : ∀ a b : List Nat, a.length = n → b.length = n → xa.sum + a.sum < 65536 →
      xa.sum + b.sum < 65536 → revLexLess a b = true →
      revLexLess (addIndex xa a) (addIndex xa b) = true := by
    intro a b ha hb h1 h2 h
    rw [addIndex_comm xa a, addIndex_comm xa b,
      (C22_add_partial a b xa (ha.trans hb.symm) (ha.trans hxa.symm) (by omega) (by omega)).2.2]
    exact h
  intro N
  induction N with
  | zero => intro r q e _ _ _ _; simp [fmaLoopF, Sorted]
  | succ N ih =>
    intro r q e hr hq sr sq
    have head : ∀ (a : List Nat) (x : K) (r q : Terms (List Nat) K) (e : K),
        (∀ u ∈ r, u.1.length = n) → (∀ u ∈ q, u.1.length = n ∧ xa.sum + u.1.sum < 65536) →
        Sorted revLexLess r → Sorted revLexLess q →
        (∀ u ∈ r, revLexLess a u.1 = true) → (∀ u ∈ q, revLexLess a (addIndex xa u.1) = true) →
        Sorted revLexLess ((a, x) :: (fmaLoopF R fma xa xv N r q e).1) := by
      intro a x r q e hr hq sr sq h1 h2
      have h := ih r q e hr hq sr sq
      refine List.pairwise_cons.2 ⟨?_, h.1⟩
      intro u hu
      simp only
      rcases h.2 u hu with ⟨w, hw, ew⟩ | ⟨v, hv, ev⟩
      · rw [← ew]; exact h1 w hw
      · rw [← ev]; exact h2 v hv
    match r, q with
    | [], [] => simp [fmaLoopF, Sorted]
    | (a, x) :: r, [] =>
      have h := List.pairwise_cons.1 sr
      have hr' : ∀ u ∈ r, u.1.length = n := fun u hu => hr u (by simp [hu])
      unfold fmaLoopF
      refine ⟨head a _ r [] e hr' (by simp) h.2 (by simp [Sorted]) h.1 (by simp), ?_⟩
      intro u hu
      rcases List.mem_cons.1 hu with rfl | hu
      · exact .inl ⟨_, by simp, rfl⟩
      · rcases (ih r [] e hr' (by simp) h.2 (by simp [Sorted])).2 u hu with ⟨w, hw, ew⟩ | ⟨v, hv, ev⟩
        · exact .inl ⟨w, by simp [hw], ew⟩
        · simp at hv
    | [], (ya, yv) :: q =>
      have h := List.pairwise_cons.1 sq
      have hq' : ∀ u ∈ q, u.1.length = n ∧ xa.sum + u.1.sum < 65536 := fun u hu => hq u (by simp [hu])
      obtain ⟨hy1, hy2⟩ := hq (ya, yv) (by simp)
      unfold fmaLoopF
      refine ⟨head _ _ [] q _ (by simp) hq' (by simp [Sorted]) h.2 (by simp)
        (fun u hu => mono _ _ hy1 (hq' u hu).1 hy2 (hq' u hu).2 (h.1 u hu)), ?_⟩
      intro u hu
      rcases List.mem_cons.1 hu with rfl | hu
      · exact .inr ⟨(ya, yv), by simp, rfl⟩
      · rcases (ih [] q _ (by simp) hq' (by simp [Sorted]) h.2).2 u hu with ⟨w, hw, ew⟩ | ⟨v, hv, ev⟩
        · simp at hw
        · exact .inr ⟨v, by simp [hv], ev⟩
    | (ra, rv) :: r, (ya, yv) :: q =>
      have h1 := List.pairwise_cons.1 sr
      have h2 := List.pairwise_cons.1 sq
      have hr' : ∀ u ∈ r, u.1.length = n := fun u hu => hr u (by simp [hu])
      have hq' : ∀ u ∈ q, u.1.length = n ∧ xa.sum + u.1.sum < 65536 := fun u hu => hq u (by simp [hu])
      obtain ⟨hy1, hy2⟩ := hq (ya, yv) (by simp)
      have hra : ra.length = n := hr (ra, rv) (by simp)
      have hta := addIndex_length hxa hy1
      have hyq : ∀ u ∈ q, revLexLess (addIndex xa ya) (addIndex xa u.1) = true := fun u hu =>
        mono _ _ hy1 (hq' u hu).1 hy2 (hq' u hu).2 (h2.1 u hu)
      unfold fmaLoopF
      simp only
      by_cases c1 : ra = addIndex xa ya
      · rw [if_pos c1]
        refine ⟨head _ _ r q _ hr' hq' h1.2 h2.2 (fun u hu => by rw [← c1]; exact h1.1 u hu) hyq, ?_⟩
        intro u hu
        rcases List.mem_cons.1 hu with rfl | hu
        · exact .inr ⟨(ya, yv), by simp, rfl⟩
        · rcases (ih r q _ hr' hq' h1.2 h2.2).2 u hu with ⟨w, hw, ew⟩ | ⟨v, hv, ev⟩
          · exact .inl ⟨w, by simp [hw], ew⟩
          · exact .inr ⟨v, by simp [hv], ev⟩
      · rw [if_neg c1]
        by_cases c2 : revLexLess ra (addIndex xa ya) = true
        · rw [if_pos c2]
          refine ⟨head ra _ r ((ya, yv) :: q) e hr' hq h1.2 sq h1.1 ?_, ?_⟩
          · intro u hu
            rcases List.mem_cons.1 hu with rfl | hu
            · exact c2
            · exact rl_trans hra hta (addIndex_length hxa (hq' u hu).1) c2 (hyq u hu)
          · intro u hu
            rcases List.mem_cons.1 hu with rfl | hu
            · exact .inl ⟨_, by simp, rfl⟩
            · rcases (ih r _ e hr' hq h1.2 sq).2 u hu with ⟨w, hw, ew⟩ | ⟨v, hv, ev⟩
              · exact .inl ⟨w, by simp [hw], ew⟩
              · exact .inr ⟨v, hv, ev⟩
        · rw [if_neg c2]
          have c3 : revLexLess (addIndex xa ya) ra = true := by
            rcases rl_total hra hta with h | h | h
            · exact absurd h c2
            · exact absurd h c1
            · exact h
          refine ⟨head _ _ ((ra, rv) :: r) q _ hr hq' sr h2.2 ?_ hyq, ?_⟩
          · intro u hu
            rcases List.mem_cons.1 hu with rfl | hu
            · exact c3
            · exact rl_trans hta hra (hr' u hu) c3 (h1.1 u hu)
          · intro u hu
            rcases List.mem_cons.1 hu with rfl | hu
            · exact .inr ⟨(ya, yv), by simp, rfl⟩
            · rcases (ih _ q _ hr hq' sr h2.2).2 u hu with ⟨w, hw, ew⟩ | ⟨v, hv, ev⟩
              · exact .inl ⟨w, hw, ew⟩
              · exact .inr ⟨v, by simp [hv], ev⟩

/-- **C75** (fused multiplication and addition, and product): as long as no exponent overflows. -/
theorem C75_ifma (R : Rounding K) (fma : K → K → K → K → K × K) (s : Sweeper K) {n : Nat}
    {r x y : TM K} (hr : Canon n r) (hx : WF n x) (hy : Canon n y)
    (h : ∀ u ∈ x.terms, ∀ v ∈ y.terms, u.1.sum + v.1.sum < 65536) :
    Canon n (ifmaWith fma R s r x y) := by
  have key : ∀ (p : Terms (List Nat) K), (∀ u ∈ p, u ∈ x.terms) → ∀ r : TM K, Canon n r →
      Canon n (p.foldl (fmaStep R fma s y.terms) r) := by
    intro p
    induction p with
    | nil => intro _ r hr; exact hr
    | cons t p ih =>
      intro hp r hr
      rw [List.foldl_cons]
      apply ih (fun u hu => hp u (by simp [hu]))
      have ht := hp t (by simp)
      have hl := fmaLoopF_canon R fma n t.1 (hx t ht) t.2 (r.terms.length + y.terms.length) r.terms
        y.terms 0 hr.1 (fun u hu => ⟨hy.1 u hu, h t ht u hu⟩) hr.2 hy.2
      refine C75_sweep R s ⟨?_, hl.1⟩
      intro u hu
      rcases hl.2 u hu with ⟨w, hw, ew⟩ | ⟨v, hv, ev⟩
      · rw [← ew]; exact hr.1 w hw
      · rw [← ev]; exact addIndex_length (hx t ht) (hy.1 v hv)
  exact key x.terms (fun _ h => h) r hr

/-- **C75** (product). -/
theorem C75_mul (R : Rounding K) (s : Sweeper K) {n : Nat} {x y : TM K} (hx : WF n x)
    (hy : Canon n y) (h : ∀ u ∈ x.terms, ∀ v ∈ y.terms, u.1.sum + v.1.sum < 65536) :
    Canon n (mul R s x y) :=
  C75_ifma R (fmaErr R) s ⟨fun u hu => by simp at hu, by simp [Sorted]⟩ hx hy h

/-! ## Differentiation and integration -/

/-- The index with one in place `k`. -/
def unitIndex (n k : Nat) : List Nat := (List.replicate n 0).set k 1

theorem unitIndex_sum_le (n k : Nat) : (unitIndex n k).sum ≤ 1 := by
  unfold unitIndex
  induction n generalizing k with
  | zero => simp
  | succ n ih =>
    cases k with
    | zero => simp [List.replicate_succ]
    | succ k => simpa [List.replicate_succ] using ih k

theorem set_succ_eq (a : List Nat) (k : Nat) (hk : k < a.length) (h : a.sum + 1 < 65536) :
    a.set k (a.getD k 0 + 1) = addIndex a (unitIndex a.length k) := by
  rw [addIndex_eq (by simp [unitIndex]) (by have := unitIndex_sum_le a.length k; omega)]
  clear h
  unfold unitIndex
  induction a generalizing k with
  | nil => simp at hk
  | cons x a ih =>
    have hz : ∀ b : List Nat, List.zipWith (· + ·) b (List.replicate b.length 0) = b := by
      intro b
      induction b with
      | nil => rfl
      | cons y b ihb => simp [List.replicate_succ, ihb]
    cases k with
    | zero => simp [List.replicate_succ, hz]
    | succ k =>
      have := ih k (by simpa using hk)
      simp only [List.getD_eq_getElem?_getD] at this
      simp [List.replicate_succ, this]

theorem rl_set_succ {n : Nat} (a b : List Nat) (ha : a.length = n) (hb : b.length = n) (k : Nat)
    (hk : k < n) (h1 : a.sum + 1 < 65536) (h2 : b.sum + 1 < 65536) :
    revLexLess (a.set k (a.getD k 0 + 1)) (b.set k (b.getD k 0 + 1)) = revLexLess a b := by
  rw [set_succ_eq a k (by omega) h1, set_succ_eq b k (by omega) h2, ha, hb]
  have := unitIndex_sum_le n k
  exact (C22_add_partial a b (unitIndex n k) (ha.trans hb.symm) (by simp [unitIndex, ha]) (by omega)
    (by omega)).2.2

/-- **C75** (antiderivative). -/
theorem C75_antidifferentiate (R : Rounding K) {n k : Nat} (hk : k < n) {t : TM K} (h : Canon n t)
    (hd : ∀ u ∈ t.terms, u.1.sum + 1 < 65536) : Canon n (antidifferentiate R k t) := by
  have key : ∀ (p : Terms (List Nat) K) (e : K), (∀ u ∈ p, u.1.sum + 1 < 65536) →
      (antidifferentiate.loop R k p e).1.map Prod.fst =
        p.map (fun u => u.1.set k (u.1.getD k 0 + 1)) := by
    intro p
    induction p with
    | nil => intro e _; rfl
    | cons u p ih =>
      intro e hp
      obtain ⟨a, c⟩ := u
      unfold antidifferentiate.loop
      simp only [List.map_cons]
      rw [ih _ (fun v hv => hp v (by simp [hv]))]
      have h1 := hp (a, c) (by simp)
      have h2 := getD_le_sum a k
      simp only at h1
      rw [wrap, Nat.mod_eq_of_lt (by omega)]
  have e1 := key t.terms 0 hd
  constructor
  · intro u hu
    have h1 : u.1 ∈ (antidifferentiate.loop R k t.terms 0).1.map Prod.fst := List.mem_map_of_mem hu
    rw [e1] at h1
    obtain ⟨v, hv, ev⟩ := List.mem_map.1 h1
    rw [← ev, List.length_set]
    exact h.1 v hv
  · unfold Sorted
    have e2 : ((antidifferentiate R k t).terms.map Prod.fst).Pairwise
        (fun a b => revLexLess a b = true) := by
      show ((antidifferentiate.loop R k t.terms 0).1.map Prod.fst).Pairwise _
      rw [e1, List.pairwise_map]
      refine h.2.imp_of_mem (fun {u v} hu hv huv => ?_)
      rw [rl_set_succ u.1 v.1 (h.1 u hu) (h.1 v hv) k hk (hd u hu) (hd v hv)]
      exact huv
    exact List.pairwise_map.1 e2

/-- **C75** (derivative). -/
theorem C75_differentiate (R : Rounding K) {n k : Nat} (hk : k < n) {t : TM K} (h : Canon n t)
    (hd : ∀ u ∈ t.terms, u.1.sum < 65536) : Canon n (differentiate R k t) := by
  have key : ∀ (p : Terms (List Nat) K) (e : K),
      (differentiate.loop R k p e).1.map Prod.fst =
        (p.filter (fun u => u.1.getD k 0 ≠ 0)).map (fun u => u.1.set k (u.1.getD k 0 - 1)) := by
    intro p
    induction p with
    | nil => intro e; rfl
    | cons u p ih =>
      intro e
      obtain ⟨a, c⟩ := u
      unfold differentiate.loop
      by_cases h0 : a.getD k 0 ≠ 0
      · rw [if_pos h0, List.filter_cons_of_pos (by simpa using h0)]
        simp only [List.map_cons]
        rw [ih]
      · rw [if_neg h0, List.filter_cons_of_neg (by simpa using h0), ih]
  have e1 := key t.terms 0
  constructor
  · intro u hu
    have h1 : u.1 ∈ (differentiate.loop R k t.terms 0).1.map Prod.fst := List.mem_map_of_mem hu
    rw [e1] at h1
    obtain ⟨v, hv, ev⟩ := List.mem_map.1 h1
    rw [← ev, List.length_set]
    exact h.1 v (List.mem_filter.1 hv).1
  · unfold Sorted
    have e2 : ((differentiate R k t).terms.map Prod.fst).Pairwise
        (fun a b => revLexLess a b = true) := by
      show ((differentiate.loop R k t.terms 0).1.map Prod.fst).Pairwise _
      rw [e1, List.pairwise_map]
      refine (h.2.filter _).imp_of_mem (fun {u v} hu hv huv => ?_)
      obtain ⟨hu1, hu2⟩ := List.mem_filter.1 hu
      obtain ⟨hv1, hv2⟩ := List.mem_filter.1 hv
      simp only [ne_eq, decide_not, Bool.not_eq_eq_eq_not, Bool.not_true, decide_eq_false_iff_not]
        at hu2 hv2
      have low : ∀ a : List Nat, a.length = n → a.getD k 0 ≠ 0 →
          (a.set k (a.getD k 0 - 1)).sum + 1 = a.sum := by
        intro a ha h0
        clear h e1 key huv hu hv hu1 hv1 hu2 hv2
        induction a generalizing k n with
        | nil => simp at h0
        | cons x a ih =>
          cases k with
          | zero => simp at h0 ⊢; omega
          | succ k =>
            have := ih (n := a.length) (k := k) (by simp only [List.length_cons] at ha; omega) rfl
              (by simpa using h0)
            simp only [List.getD_cons_succ, List.set_cons_succ, List.sum_cons]
            omega
      have back : ∀ a : List Nat, a.length = n → a.getD k 0 ≠ 0 →
          (a.set k (a.getD k 0 - 1)).set k ((a.set k (a.getD k 0 - 1)).getD k 0 + 1) = a := by
        intro a ha h0
        rw [getD_set_self a k (by omega), List.set_set, Nat.sub_add_cancel (by omega), set_getD_self]
      have h1 := low u.1 (h.1 u hu1) hu2
      have h2 := low v.1 (h.1 v hv1) hv2
      have h3 := hd u hu1
      have h4 := hd v hv1
      rw [← rl_set_succ _ _ (by simpa using h.1 u hu1) (by simpa using h.1 v hv1) k hk (by omega)
        (by omega), back u.1 (h.1 u hu1) hu2, back v.1 (h.1 v hv1) hv2]
      exact huv
    exact List.pairwise_map.1 e2

/-! ## Normalisation -/

theorem uniqueAbsorb_rest (R : Rounding K) (a : List Nat) (v : K) (p : Terms (List Nat) K) (e : K) :
    (uniqueAbsorb R a v p e).2.1 <:+ p ∧
      ∀ b c q, (uniqueAbsorb R a v p e).2.1 = (b, c) :: q → b ≠ a := by
  induction p generalizing v e with
  | nil => simp [uniqueAbsorb]
  | cons t p ih =>
    obtain ⟨b, c⟩ := t
    unfold uniqueAbsorb
    by_cases h : b = a
    · rw [if_pos h]
      exact ⟨(ih _ _).1.trans (List.suffix_cons _ _), (ih _ _).2⟩
    · rw [if_neg h]
      refine ⟨List.suffix_rfl, ?_⟩
      intro b' c' q e
      simp only [List.cons.injEq, Prod.mk.injEq] at e
      rw [← e.1.1]
      exact h

/-- **C75** (cleanup): sorting the terms in any way and combining the equal indices gives a model in
canonical form. -/
theorem C75_cleanup (R : Rounding K) (s : Sweeper K) {n : Nat} (q : Terms (List Nat) K) (err : K)
    (hw : ∀ u ∈ q, u.1.length = n)
    (hs : q.Pairwise (fun u v => revLexLess v.1 u.1 = false)) : Canon n (cleanup R s q err) := by
  have key : ∀ (N : Nat) (q : Terms (List Nat) K) (e : K), (∀ u ∈ q, u.1.length = n) →
      q.Pairwise (fun u v => revLexLess v.1 u.1 = false) →
      Sorted revLexLess (uniqueF R N q e).1 ∧ ∀ u ∈ (uniqueF R N q e).1, ∃ v ∈ q, v.1 = u.1 := by
    intro N
    induction N with
    | zero => intro q e _ _; simp [uniqueF, Sorted]
    | succ N ih =>
      intro q e hw hs
      match q with
      | [] => simp [uniqueF, Sorted]
      | (a, c) :: p =>
        unfold uniqueF
        simp only
        obtain ⟨hsuf, hne⟩ := uniqueAbsorb_rest R a c p e
        set w := uniqueAbsorb R a c p e with hwdef
        have hp := List.pairwise_cons.1 hs
        have hsub : w.2.1.Sublist p := hsuf.sublist
        have hpw : ∀ u ∈ w.2.1, u.1.length = n := fun u hu => hw u (by simp [hsub.subset hu])
        have hps := hp.2.sublist hsub
        have ih' := ih w.2.1 w.2.2 hpw hps
        have ha : a.length = n := hw (a, c) (by simp)
        refine ⟨List.pairwise_cons.2 ⟨?_, ih'.1⟩, ?_⟩
        · intro u hu
          simp only
          obtain ⟨v, hv, ev⟩ := ih'.2 u hu
          rw [← ev]
          rcases rl_total ha (hpw v hv) with h | h | h
          · exact h
          · exfalso
            cases hq : w.2.1 with
            | nil => rw [hq] at hv; simp at hv
            | cons b r =>
              obtain ⟨b, d⟩ := b
              have hb := hne b d r hq
              rw [hq] at hv
              have hbm : (b, d) ∈ p := hsub.subset (by rw [hq]; simp)
              have hbl := hw (b, d) (by simp [hbm])
              have h2 := hp.1 (b, d) hbm
              simp only at h2
              have hba : revLexLess a b = true := by
                rcases rl_total ha hbl with h' | h' | h'
                · exact h'
                · exact absurd h'.symm hb
                · rw [h2] at h'; cases h'
              rcases List.mem_cons.1 hv with rfl | hv
              · exact hb h.symm
              · rw [hq] at hps
                have h3 := (List.pairwise_cons.1 hps).1 v hv
                simp only at h3
                rw [← h, hba] at h3
                cases h3
          · have h2 := hp.1 v (hsub.subset hv)
            simp only at h2
            rw [h2] at h
            cases h
        · intro u hu
          rcases List.mem_cons.1 hu with rfl | hu
          · exact ⟨(a, c), by simp, rfl⟩
          · obtain ⟨v, hv, ev⟩ := ih'.2 u hu
            exact ⟨v, by simp [hsub.subset hv], ev⟩
  have h := key q.length q 0 hw hs
  refine C75_sweep R s ⟨?_, h.1⟩
  intro u hu
  obtain ⟨v, hv, ev⟩ := h.2 u hu
  rw [← ev]
  exact hw v hv

/-! ## Composition -/

section
variable (R : Rounding K)

/-- A canonical model enclosing a function, with degree at most `B` after `room` further
multiplications by models of degree at most `D`. -/
structure CGood (n D B room : Nat) (t : TM K) (f : List K → K) : Prop where
  enc : Encloses n t f
  canon : Canon n t
  deg : ∀ u ∈ t.terms, u.1.sum + room * D ≤ B
  rep : ∀ u ∈ t.terms, R.Rep u.2

theorem CGood.good {n D B room : Nat} (hB : B < 65536) {t : TM K} {f : List K → K}
    (h : CGood R n D B room t f) : Good R n D room t f :=
  ⟨h.enc, h.canon.1, fun u hu => lt_of_le_of_lt (h.deg u hu) hB, h.rep⟩

/-- **C75** (composition): the composition of a canonical model of degree at most `M` with canonical
models of degree at most `D` is a canonical model of degree at most `M*D`, enclosing the composed
function whenever the multiplication is sound. -/
theorem compose_canon (n m : Nat) (mulM : TM K → TM K → TM K) (hm : SoundMul R n mulM)
    (hc : ∀ t x : TM K, WF n t → Canon n x →
      (∀ u ∈ t.terms, ∀ v ∈ x.terms, u.1.sum + v.1.sum < 65536) → Canon n (mulM t x))
    (s : Sweeper K) (t : TM K) (ht : Canon m t) (M D : Nat)
    (hM : ∀ u ∈ t.terms, u.1.sum ≤ M) (hMD : M * D < 65536) (f : List K → K) (hf : Encloses m t f)
    (y : List (TM K)) (g : List (List K → K)) (hy : y.length = m)
    (hyg : List.Forall₂ (fun x h => Encloses n x h ∧ Canon n x ∧ ∀ u ∈ x.terms, u.1.sum ≤ D) y g)
    (hbox : ∀ z, InBox n z → InBox m (g.map (fun h => h z))) :
    ∃ r, composeWith mulM R s n m t y = some r ∧ Canon n r ∧ (∀ u ∈ r.terms, u.1.sum ≤ M * D) ∧
      Encloses n r (fun z => f (g.map (fun h => h z))) := by
  obtain ⟨q, hq⟩ := Option.isSome_iff_exists.1 (horner_total (add R s) mulM
    (fun c => assign R n (Num.exact c)) (⟨[], 0⟩ : TM K) m t.terms ht.1 ht.2 y)
  have hres : Respects (add R s) mulM (fun c => assign R n (Num.exact c)) (⟨[], 0⟩ : TM K)
      (fun c : K => (fun _ : List K => c)) (CGood R n D (M * D))
      (fun x h => Encloses n x h ∧ Canon n x ∧ ∀ u ∈ x.terms, u.1.sum ≤ D) M := by
    refine ⟨?_, ?_, ?_, ?_⟩
    · intro room t r f g h1 h2
      have h3 := good_add R n D room s (h1.good R hMD) (h2.good R hMD)
      refine ⟨h3.enc, (C75_add_sub R s h1.canon h2.canon).1, ?_, h3.rep⟩
      intro u hu
      obtain ⟨v, hv, e⟩ := mem_apply2F (mem_sweep R hu)
      rw [← e]
      exact hv.elim (h1.deg v) (h2.deg v)
    · intro room t f x g h1 h2
      have h3 := good_mul R n D room hm (h1.good R hMD) h2.1 h2.2.1.1 h2.2.2
      have hsum : ∀ u ∈ t.terms, ∀ v ∈ x.terms, u.1.sum + v.1.sum + room * D ≤ M * D := by
        intro u hu v hv
        have h4 := h1.deg u hu
        have h5 := h2.2.2 v hv
        have : (room + 1) * D = room * D + D := by ring
        omega
      refine ⟨h3.enc, hc t x h1.canon.1 h2.2.1 (fun u hu v hv => by have := hsum u hu v hv; omega),
        ?_, h3.rep⟩
      intro u hu
      obtain ⟨v, hv, w, hw, e⟩ := hm.idx t x u hu
      rw [e]
      have := addIndex_sum_le v.1 w.1
      have := hsum v hv w hw
      omega
    · intro room c hr
      refine ⟨assign_encloses R n c, (C75_constructors R n 0 _).2.1, ?_,
        fun u hu => (assign_terms R n c u hu).2⟩
      intro u hu
      rw [(assign_terms R n c u hu).1, Expansion.sum_replicate_zero, zero_add]
      exact Nat.mul_le_mul_right D hr
    · intro room _
      refine ⟨encloses_zero n, ⟨?_, by simp [Sorted]⟩, ?_, ?_⟩ <;> intro u hu <;> simp at hu
  have hgood := horner_rel hres m t.terms (fun u hu => ⟨ht.1 u hu, hM u hu⟩) y g hy hyg q hq
  have hdeg : ∀ u ∈ q.terms, u.1.sum ≤ M * D := fun u hu => by have := hgood.deg u hu; omega
  have hfit : ∀ u ∈ q.terms, Fits u.1 := fun u hu => by have := hdeg u hu; unfold Fits; omega
  refine ⟨_, by unfold composeWith; rw [hq]; rfl, C75_acc R _ hgood.canon hfit, ?_, ?_⟩
  · intro u hu
    unfold acc at hu
    by_cases h0 : (-t.err = 0 ∧ t.err = 0)
    · rw [if_pos h0] at hu; exact hdeg u hu
    · rw [if_neg h0] at hu
      cases hl : q.terms.getLast? with
      | none =>
        rw [hl] at hu
        rcases List.mem_append.1 hu with hu | hu
        · exact hdeg u hu
        · simp only [List.mem_singleton] at hu
          subst hu
          simp [Expansion.sum_replicate_zero]
      | some v =>
        rw [hl] at hu
        simp only at hu
        by_cases hd : degree v.1 > 0
        · rw [if_pos hd] at hu
          rcases List.mem_append.1 hu with hu | hu
          · exact hdeg u hu
          · simp only [List.mem_singleton] at hu
            subst hu
            simp [Expansion.sum_replicate_zero]
        · rw [if_neg hd] at hu
          obtain ⟨p, hp⟩ := List.getLast?_eq_some_iff.1 hl
          rcases List.mem_append.1 hu with hu | hu
          · exact hdeg u (List.mem_of_mem_dropLast hu)
          · simp only [List.mem_singleton] at hu
            subst hu
            exact hdeg v (by rw [hp]; simp)
  · intro z hz
    have h1 := hf _ (hbox z hz)
    have h2 := C24_acc_symmetric R n q hfit hgood.rep _ hgood.enc t.err _ h1 z hz
    beta_reduce at h2
    rw [sum_apply, sub_add_cancel] at h2
    exact h2

/-- **C75** (composition, exact arithmetic). -/
theorem C75_compose (hR : ∀ x, R.Rep x) (n m : Nat) (s : Sweeper K)
    (t : TM K) (ht : Canon m t) (M D : Nat)
    (hM : ∀ u ∈ t.terms, u.1.sum ≤ M) (hMD : M * D < 65536) (f : List K → K) (hf : Encloses m t f)
    (y : List (TM K)) (g : List (List K → K)) (hy : y.length = m)
    (hyg : List.Forall₂ (fun x h => Encloses n x h ∧ Canon n x ∧ ∀ u ∈ x.terms, u.1.sum ≤ D) y g)
    (hbox : ∀ z, InBox n z → InBox m (g.map (fun h => h z))) :
    ∃ r, compose R s n m t y = some r ∧ Canon n r ∧ (∀ u ∈ r.terms, u.1.sum ≤ M * D) ∧
      Encloses n r (fun z => f (g.map (fun h => h z))) :=
  compose_canon R n m _ (soundMul_exact R hR n s)
    (fun t x h1 h2 h3 => C75_mul R s h1 h2 h3) s t ht M D hM hMD f hf y g hy hyg hbox

end

/-! ## Non-vacuity, and a wrong order -/

/-- A product with cancelling and coinciding indices stays canonical. -/
example : Canon 2 (⟨[([0, 1], 1), ([1, 0], -1), ([0, 0], 2)], 1 / 8⟩ : TM ℚ) ∧
    (mul (Ariadne.PBit.rounding 4 (by norm_num)) trivialSweeper
      (⟨[([0, 1], 1), ([1, 0], -1), ([0, 0], 2)], 1 / 8⟩ : TM ℚ)
      ⟨[([0, 1], 1), ([1, 0], 1)], 0⟩).terms =
      [([0, 2], 1), ([1, 1], 0), ([0, 1], 2), ([2, 0], -1), ([1, 0], 2)] := by
  refine ⟨⟨?_, ?_⟩, by decide +kernel⟩
  · intro u hu
    simp only [List.mem_cons, List.not_mem_nil, or_false] at hu
    rcases hu with rfl | rfl | rfl <;> rfl
  · simp only [Sorted, List.pairwise_cons, List.mem_cons, List.not_mem_nil, or_false]
    refine ⟨?_, ?_, ?_, List.Pairwise.nil⟩
    · rintro u (rfl | rfl) <;> decide
    · rintro u rfl; decide
    · simp

/-- **C75** fails without the bound on exponents: multiplying `x^65535*y + y` (canonical) by `x`
wraps the first exponent to zero and gives `y` after `x*y`; the result `[(0,1),(1,1)]` is not in
order, and the next sum does not combine equal terms. -/
theorem C75_mul_overflow (R : Rounding ℚ) :
    ∃ x y : TM ℚ, Canon 2 x ∧ Canon 2 y ∧ ¬ Canon 2 (mul R trivialSweeper x y) := by
  have e1 : R.near 1 = 1 := near_of_rep R R.rep_one
  refine ⟨⟨[([1, 0], 1)], 0⟩, ⟨[([65535, 1], 1), ([0, 1], 1)], 0⟩, ?_, ?_, ?_⟩
  · exact ⟨fun u hu => by simp only [List.mem_singleton] at hu; subst hu; rfl, by simp [Sorted]⟩
  · refine ⟨?_, ?_⟩
    · intro u hu
      simp only [List.mem_cons, List.not_mem_nil, or_false] at hu
      rcases hu with rfl | rfl <;> rfl
    · simp only [Sorted, List.pairwise_cons, List.mem_cons, List.not_mem_nil, or_false]
      refine ⟨?_, ?_, List.Pairwise.nil⟩
      · rintro u rfl; decide
      · simp
  · intro h
    have e2 : (mul R trivialSweeper (⟨[([1, 0], 1)], 0⟩ : TM ℚ)
        ⟨[([65535, 1], 1), ([0, 1], 1)], 0⟩).terms.map Prod.fst = [[0, 1], [1, 1]] := by
      have a1 : addIndex [1, 0] [65535, 1] = [0, 1] := by decide
      have a2 : addIndex [1, 0] [0, 1] = [1, 1] := by decide
      simp [mul, ifma, ifmaWith, fmaStep, fmaLoopF, sweep, sweepLoop, trivialSweeper, mulErr, a1, a2]
    have h2 := h.2
    unfold Sorted at h2
    have h3 := (List.pairwise_map (f := Prod.fst) (R := fun a b => revLexLess a b = true)).2 h2
    rw [e2] at h3
    have := (List.pairwise_cons.1 h3).1 [1, 1] (by simp)
    revert this
    decide

end Verif.TaylorModel
