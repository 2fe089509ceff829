import Verif.Polynomial.Calculus

/-!
# Evaluation, partial evaluation and composition of polynomials
-/

namespace Verif.Polynomial

open Verif.Expansion

section Eval
variable {n : Nat} {K X : Type*} [Field K] [Zero X] {A : Coef X} {In : K → X → Prop}

/-! ### Horner's rule -/

theorem hornerLoop_map {X X' Y : Type*} (add mul : Y → Y → Y) (coef : X → Y) (g : X' → X) (z : Y)
    (x : List Y) (e : Terms (List Nat) X') : ∀ (a : List Nat) (c : X') (j : Nat) (r : List Y),
    hornerLoop add mul coef z x (e.map (fun t => (t.1, g t.2))) a (g c) j r =
      hornerLoop add mul (fun c => coef (g c)) z x e a c j r := by
  induction e with
  | nil => intros; rfl
  | cons t e ih =>
    intro a c j r
    simp only [List.map_cons, hornerLoop]
    cases lastDiff a t.1 with
    | none => rfl
    | some k => simp only [ih]

theorem hornerEvaluate_map {X X' Y : Type*} (add mul : Y → Y → Y) (coef : X → Y) (g : X' → X)
    (z : Y) (n : Nat) (e : Terms (List Nat) X') (x : List Y) :
    hornerEvaluate add mul coef z n (e.map (fun t => (t.1, g t.2))) x =
      hornerEvaluate add mul (fun c => coef (g c)) z n e x := by
  cases e with
  | nil => rfl
  | cons t e => exact hornerLoop_map add mul coef g z x e t.1 t.2 n _

theorem monomial_ofFn {R : Type*} [CommRing R] (ψ : Fin n → R) (a : MIndex n) :
    monomial (List.ofFn ψ) a.1 = ∏ i, ψ i ^ (expo a i) := by
  unfold monomial
  have : List.zipWith (fun y n => y ^ n) (List.ofFn ψ) a.1 =
      List.ofFn (fun i : Fin n => ψ i ^ (expo a i)) := by
    apply List.ext_getElem
    · simp [a.2]
    · intro i h1 h2
      have hi : i < n := by simpa using h2
      have ha : i < a.1.length := by rw [a.2]; exact hi
      simp [expo_apply, List.getD_eq_getElem?_getD, ha]
  rw [this, List.prod_ofFn]

theorem aeval_toMv {R : Type*} [CommRing R] [Algebra K R] (ψ : Fin n → R)
    (d : Terms (MIndex n) K) :
    MvPolynomial.aeval ψ (toMv d) =
      (d.map (fun t => algebraMap K R t.2 * monomial (List.ofFn ψ) t.1.1)).sum := by
  induction d with
  | nil => simp
  | cons t d ih =>
    rw [toMv_cons, map_add, ih, List.map_cons, List.sum_cons, monomial_ofFn,
      MvPolynomial.aeval_monomial, Finsupp.prod_fintype _ _ (by simp)]

omit [Field K] [Zero X] in
theorem rel_pairs {I : Type*} {d : Terms I K} {p : Terms I X} (h : Rel In d p) :
    ∃ l : List (I × {t : K × X // In t.1 t.2}), d = l.map (fun t => (t.1, t.2.1.1)) ∧
      p = l.map (fun t => (t.1, t.2.1.2)) := by
  induction h with
  | nil => exact ⟨[], by simp⟩
  | @cons s t d p h1 _ ih =>
    obtain ⟨l, rfl, rfl⟩ := ih
    exact ⟨(s.1, ⟨(s.2, t.2), h1.2⟩) :: l, by simp, by simp [h1.1]⟩

/-- **C89** (evaluation): a sorted polynomial is evaluated without undefined behaviour, and the
result encloses the value of the polynomial. -/
theorem C89_evaluate (hA : Sound A In) (p : Terms (MIndex n) X) (f : MvPolynomial (Fin n) K)
    (hp : Encl In p f) (hs : Sorted lt p) (x : Fin n → X) (ξ : Fin n → K)
    (hx : ∀ i, In (ξ i) (x i)) :
    ∃ y, evaluate A p (List.ofFn x) = some y ∧ In (MvPolynomial.eval ξ f) y := by
  obtain ⟨d, h1, rfl⟩ := hp
  obtain ⟨l, rfl, rfl⟩ := rel_pairs h1
  have hb : bare (l.map (fun t => (t.1, t.2.1.2))) =
      (l.map (fun t => (t.1.1, t.2))).map (fun t => (t.1, t.2.1.2)) := by
    simp [bare, List.map_map, Function.comp_def]
  unfold evaluate
  rw [hb, hornerEvaluate_map (g := fun c : {t : K × X // In t.1 t.2} => c.1.2)]
  obtain ⟨y, h2, h3⟩ := C53_horner_encloses (In := In) (val := fun c : {t : K × X // In t.1 t.2} =>
      c.1.1) (coef := fun c : {t : K × X // In t.1 t.2} => id c.1.2) (z := (0 : X))
    (fun v w t r => hA.add v w t r) (fun v w t r => hA.mul v w t r) (fun c => show In c.1.1 (id c.1.2) from c.2) hA.zero n
    (l.map (fun t => (t.1.1, t.2)))
    (by
      intro t ht
      obtain ⟨u, _, rfl⟩ := List.mem_map.1 ht
      exact u.1.2)
    (by
      rw [sorted_map] at hs ⊢
      simp only [List.map_map] at hs ⊢
      unfold lt at hs
      rw [List.pairwise_map] at hs ⊢
      exact hs)
    (List.ofFn x) (List.ofFn ξ) (by simp)
    (by
      rw [List.forall₂_iff_get]
      refine ⟨by simp, fun i h1 h2 => ?_⟩
      simp only [List.get_eq_getElem, List.getElem_ofFn]
      exact hx _)
  refine ⟨y, h2, ?_⟩
  have := aeval_toMv ξ (l.map (fun t => (t.1, t.2.1.1)))
  rw [MvPolynomial.aeval_eq_eval] at this
  rw [this]
  simpa [value, List.map_map, Function.comp_def] using h3

/-! ### Composition -/

/-- The indices after an update are the old ones and the updated one. -/
theorem supdate_idx (e : Terms (MIndex n) X) (h2 : Sorted lt e) (b : MIndex n) (g : X → X)
    {t : MIndex n × X} (ht : t ∈ supdate lt e b g) : t.1 = b ∨ ∃ s ∈ e, s.1 = t.1 := by
  have hle : lowerBound lt e b ≤ e.length := (lowerBound_splits lt_strict e h2 b).le
  unfold Expansion.supdate at ht
  generalize lowerBound lt e b = i at ht hle
  have hins : ∀ c, t ∈ insertAt e i b c → t.1 = b ∨ ∃ s ∈ e, s.1 = t.1 := by
    intro c hc
    rw [C23_insert_at e i hle] at hc
    simp only [List.mem_append, List.mem_cons] at hc
    rcases hc with hc | hc | hc
    · exact .inr ⟨t, List.mem_of_mem_take hc, rfl⟩
    · exact .inl (by rw [hc])
    · exact .inr ⟨t, List.mem_of_mem_drop hc, rfl⟩
  cases hg : e[i]? with
  | none => simp only [hg] at ht; exact hins _ ht
  | some u =>
    simp only [hg] at ht
    by_cases hu : u.1 = b
    · rw [if_neg (by simpa using hu)] at ht
      rcases List.mem_or_eq_of_mem_set ht with hv | rfl
      · exact .inr ⟨t, hv, rfl⟩
      · exact .inl hu
    · rw [if_pos hu] at ht; exact hins _ ht

theorem supdate_sorted (e : Terms (MIndex n) X) (h : Sorted lt e) (b : MIndex n) (g : X → X) :
    Sorted lt (supdate lt e b g) := by
  -- the arrangement depends only on the indices
  let e' : Terms (MIndex n) ℤ := e.map (fun t => (t.1, 0))
  have hr : Rel (fun (_ : ℤ) (_ : X) => True) e' e := by
    have : ∀ l : Terms (MIndex n) X,
        Rel (fun (_ : ℤ) (_ : X) => True) (l.map (fun t => (t.1, (0 : ℤ)))) l := by
      intro l
      induction l with
      | nil => exact .nil
      | cons t l ih => exact .cons ⟨rfl, trivial⟩ ih
    exact this e
  have hs : Sorted lt e' := hr.sorted.2 h
  have h1 := Rel.supdate (In := fun (_ : ℤ) (_ : X) => True) lt_strict hr hs b
    (g := fun x => x) (f := g) trivial (fun _ _ _ => trivial)
  exact h1.sorted.1 (C23_sorted_update lt_strict e' hs b _).1

/-- The indices of a product are sums of indices of the factors. -/
theorem mul_idx (p q : Terms (MIndex n) X) {t : MIndex n × X} (ht : t ∈ mul lt addIdx A p q) :
    ∃ u ∈ p, ∃ v ∈ q, t.1 = addIdx u.1 v.1 := by
  have row : ∀ (s : MIndex n × X) (q : Terms (MIndex n) X) (r : Terms (MIndex n) X), Sorted lt r →
      Sorted lt (q.foldl (fun r t => supdate lt r (addIdx s.1 t.1)
        (fun c => A.add c (A.mul s.2 t.2))) r) ∧
      ∀ t ∈ q.foldl (fun r t => supdate lt r (addIdx s.1 t.1)
        (fun c => A.add c (A.mul s.2 t.2))) r,
        (∃ u ∈ r, u.1 = t.1) ∨ ∃ v ∈ q, t.1 = addIdx s.1 v.1 := by
    intro s q
    induction q with
    | nil => intro r hr; exact ⟨hr, fun t ht => .inl ⟨t, ht, rfl⟩⟩
    | cons w q ih =>
      intro r hr
      obtain ⟨h1, h2⟩ := ih (supdate lt r (addIdx s.1 w.1) (fun c => A.add c (A.mul s.2 w.2)))
        (supdate_sorted r hr _ _)
      refine ⟨h1, fun t ht => ?_⟩
      rcases h2 t ht with ⟨u, hu, e⟩ | ⟨v, hv, e⟩
      · rcases supdate_idx r hr _ _ hu with h | ⟨u', hu', e'⟩
        · exact .inr ⟨w, by simp, by rw [← e, h]⟩
        · exact .inl ⟨u', hu', by rw [e', e]⟩
      · exact .inr ⟨v, by simp [hv], e⟩
  have key : ∀ (p : Terms (MIndex n) X) (r : Terms (MIndex n) X), Sorted lt r →
      ∀ t ∈ p.foldl (fun r s => q.foldl (fun r t => supdate lt r (addIdx s.1 t.1)
        (fun c => A.add c (A.mul s.2 t.2))) r) r,
        (∃ u ∈ r, u.1 = t.1) ∨ ∃ u ∈ p, ∃ v ∈ q, t.1 = addIdx u.1 v.1 := by
    intro p
    induction p with
    | nil => intro r hr t ht; exact .inl ⟨t, ht, rfl⟩
    | cons s p ih =>
      intro r hr t ht
      obtain ⟨h1, h2⟩ := row s q r hr
      rcases ih _ h1 t ht with ⟨u, hu, e⟩ | ⟨u, hu, v, hv, e⟩
      · rcases h2 u hu with ⟨u', hu', e'⟩ | ⟨v, hv, e'⟩
        · exact .inl ⟨u', hu', by rw [e', e]⟩
        · exact .inr ⟨s, by simp, v, hv, by rw [← e, e']⟩
      · exact .inr ⟨u, by simp [hu], v, hv, e⟩
  rcases key p [] List.Pairwise.nil t ht with ⟨u, hu, _⟩ | h
  · simp at hu
  · exact h

/-- **C89** (composition): when the total degree of the result stays below `2^16`, substituting
sorted polynomials in a sorted polynomial succeeds and gives a sorted polynomial standing for the
result of the substitution. -/
theorem C89_compose_partial {m : Nat} (hA : Sound A In) (p : Terms (MIndex n) X)
    (f : MvPolynomial (Fin n) K) (hp : Encl In p f) (hs : Sorted lt p)
    (q : Fin n → Terms (MIndex m) X) (g : Fin n → MvPolynomial (Fin m) K)
    (hq : ∀ i, Encl In (q i) (g i)) (hqs : ∀ i, Sorted lt (q i)) (M D : Nat)
    (hM : ∀ t ∈ p, t.1.1.sum ≤ M) (hD : ∀ i, ∀ t ∈ q i, t.1.1.sum ≤ D) (hMD : M * D < 65536) :
    ∃ r, compose A p (List.ofFn q) = some r ∧ Encl In r (MvPolynomial.aeval g f) ∧ Sorted lt r := by
  obtain ⟨d, h1, rfl⟩ := hp
  obtain ⟨l, rfl, rfl⟩ := rel_pairs h1
  have hb : bare (l.map (fun t => (t.1, t.2.1.2))) =
      (l.map (fun t => (t.1.1, t.2))).map (fun t => (t.1, t.2.1.2)) := by
    simp [bare, List.map_map, Function.comp_def]
  unfold compose
  rw [hb, hornerEvaluate_map (g := fun c : {t : K × X // In t.1 t.2} => c.1.2)]
  let Q : Nat → Terms (MIndex m) X → MvPolynomial (Fin m) K → Prop := fun s t v =>
    s ≤ M ∧ Encl In t v ∧ Sorted lt t ∧ ∀ u ∈ t, u.1.1.sum ≤ (M - s) * D
  let P : Terms (MIndex m) X → MvPolynomial (Fin m) K → Prop := fun t v =>
    Encl In t v ∧ Sorted lt t ∧ ∀ u ∈ t, u.1.1.sum ≤ D
  have hR : Respects (add lt A) (mul lt addIdx A)
      (fun c : {t : K × X // In t.1 t.2} => assign ([] : Terms (MIndex m) X) c.1.2) []
      (fun c => algebraMap K (MvPolynomial (Fin m) K) c.1.1) Q P M := by
    refine ⟨?_, ?_, ?_, ?_⟩
    · rintro s t r v w ⟨h1, h2, h3, h4⟩ ⟨_, h5, h6, h7⟩
      obtain ⟨h8, h9⟩ := C89_add hA t r v w h2 h5
      refine ⟨h1, h8, h9 h3 h6, fun u hu => ?_⟩
      rcases mergeF_mem _ _ _ hu with ⟨y, hy, e⟩ | ⟨y, hy, e⟩
      · rw [← e]; exact h4 y hy
      · rw [← e]; exact h7 y hy
    · rintro s t v x ξ ⟨h1, h2, h3, h4⟩ ⟨h5, h6, h7⟩
      have hle : (M - (s + 1)) * D + D = (M - s) * D := by
        have : M - s = (M - (s + 1)) + 1 := by omega
        rw [this]; ring
      have hle' : (M - s) * D ≤ M * D := Nat.mul_le_mul_right _ (by omega)
      have hd : ∀ a ∈ t, ∀ b ∈ x, a.1.1.sum + b.1.1.sum < 65536 := by
        intro a ha b hb
        have := h4 a ha
        have := h7 b hb
        omega
      obtain ⟨h8, h9⟩ := C89_mul_partial hA t x v ξ h2 h5 hd
      refine ⟨by omega, h8, h9, fun u hu => ?_⟩
      obtain ⟨a, ha, b, hb, e⟩ := mul_idx t x hu
      rw [e, sum_addIdx _ _ (hd a ha b hb)]
      have := h4 a ha
      have := h7 b hb
      omega
    · rintro s c hs
      obtain ⟨-, -, h3, h4⟩ := C89_constant hA c.1.1 c.1.2 c.2 ([] : Terms (MIndex m) X)
      refine ⟨hs, h3, h4, fun u hu => ?_⟩
      have : u = (zeroIdx m, c.1.2) := by simpa [assign, append] using hu
      rw [this]
      simp [zeroIdx]
    · intro s hs
      exact ⟨hs, Encl.nil, List.Pairwise.nil, by simp⟩
  have htot := horner_total (add lt A) (mul lt addIdx A)
    (fun c : {t : K × X // In t.1 t.2} => assign ([] : Terms (MIndex m) X) c.1.2) [] n
    (l.map (fun t => (t.1.1, t.2)))
    (by
      intro t ht
      obtain ⟨u, _, rfl⟩ := List.mem_map.1 ht
      exact u.1.2)
    (by
      rw [sorted_map] at hs ⊢
      simp only [List.map_map] at hs ⊢
      unfold lt at hs
      rw [List.pairwise_map] at hs ⊢
      exact hs) (List.ofFn q)
  obtain ⟨y, hy⟩ := Option.isSome_iff_exists.1 htot
  have h2 := horner_rel hR n (l.map (fun t => (t.1.1, t.2)))
    (by
      intro t ht
      obtain ⟨u, hu, rfl⟩ := List.mem_map.1 ht
      exact ⟨u.1.2, hM (u.1, u.2.1.2) (List.mem_map.2 ⟨u, hu, rfl⟩)⟩)
    (List.ofFn q) (List.ofFn g) (by simp)
    (by
      rw [List.forall₂_iff_get]
      refine ⟨by simp, fun i h1 h2 => ?_⟩
      simp only [List.get_eq_getElem, List.getElem_ofFn]
      exact ⟨hq _, hqs _, hD _⟩) y hy
  refine ⟨y, hy, ?_, h2.2.2.1⟩
  have h3 := h2.2.1
  rw [aeval_toMv]
  simpa [List.map_map, Function.comp_def] using h3

/-! ### Partial evaluation -/

theorem firstGreater_append {a b : List Nat} (h : a.length = b.length) (x y : Nat) :
    firstGreater (a ++ [x]) (b ++ [y]) = if a = b then decide (x > y) else firstGreater a b := by
  induction a generalizing b with
  | nil =>
    cases b with
    | nil =>
      by_cases hxy : x = y
      · simp [firstGreater, hxy]
      · simp [firstGreater, hxy]
    | cons => simp at h
  | cons u a ih =>
    cases b with
    | nil => simp at h
    | cons v b =>
      simp only [List.length_cons, Nat.add_right_cancel_iff] at h
      simp only [List.cons_append, firstGreater, ih h]
      by_cases huv : u = v
      · simp [huv]
      · simp [huv]

theorem revLexLess_cons {a b : List Nat} (h : a.length = b.length) (x y : Nat) :
    revLexLess (x :: a) (y :: b) = if a = b then decide (x > y) else revLexLess a b := by
  unfold revLexLess
  rw [List.reverse_cons, List.reverse_cons, firstGreater_append (by simpa using h)]
  simp

theorem revLexLess_eraseIdx : ∀ {a b : List Nat} (k : Nat), a.length = b.length →
    a.getD k 0 = b.getD k 0 → k < a.length →
    revLexLess (a.eraseIdx k) (b.eraseIdx k) = revLexLess a b := by
  intro a
  induction a with
  | nil => intro b k _ _ hk; simp at hk
  | cons x a ih =>
    intro b k h hk hlt
    cases b with
    | nil => simp at h
    | cons y b =>
      simp only [List.length_cons, Nat.add_right_cancel_iff] at h
      cases k with
      | zero =>
        simp only [List.getD_cons_zero] at hk
        rw [List.eraseIdx_cons_zero, List.eraseIdx_cons_zero, revLexLess_cons h, hk]
        by_cases hab : a = b
        · subst hab
          simp [revLexLess, firstGreater_irrefl]
        · simp [hab]
      | succ k =>
        simp only [List.getD_cons_succ] at hk
        simp only [List.length_cons, Nat.add_lt_add_iff_right] at hlt
        rw [List.eraseIdx_cons_succ, List.eraseIdx_cons_succ, revLexLess_cons h,
          revLexLess_cons (by rw [List.length_eraseIdx, List.length_eraseIdx, h])]
        rw [ih k h hk hlt]
        have hiff : a.eraseIdx k = b.eraseIdx k ↔ a = b := by
          constructor
          · intro e
            have ha : k < b.length := by omega
            rw [List.getD_eq_getElem?_getD, List.getD_eq_getElem?_getD,
              List.getElem?_eq_getElem hlt, List.getElem?_eq_getElem ha] at hk
            simp only [Option.getD_some] at hk
            have e1 := List.insertIdx_eraseIdx_getElem (l := a) (n := k) (hn := hlt)
            have e2 := List.insertIdx_eraseIdx_getElem (l := b) (n := k) (hn := ha)
            rw [← e1, ← e2, e, hk]
          · intro e; rw [e]
        simp only [hiff]

omit [Zero X] [Field K] in
theorem slice_sorted (p : Terms (MIndex (n + 1)) X) (k : Fin (n + 1)) (i : Nat)
    (hs : Sorted lt p) : Sorted lt (slice p k i) := by
  unfold slice Sorted
  rw [List.pairwise_map]
  have h := List.Pairwise.filter (fun t => decide (t.1.1.getD k 0 = i)) hs
  have h2 : (p.filter (fun t => decide (t.1.1.getD k 0 = i))).Pairwise
      (fun s t => s.1.1.getD k 0 = i ∧ t.1.1.getD k 0 = i ∧ lt s.1 t.1 = true) := by
    refine List.pairwise_iff_forall_sublist.2 (fun {a b} hab => ⟨?_, ?_,
      List.pairwise_iff_forall_sublist.1 h hab⟩)
    · simpa using (List.mem_filter.1 (hab.subset (by simp : a ∈ [a, b]))).2
    · simpa using (List.mem_filter.1 (hab.subset (by simp : b ∈ [a, b]))).2
  refine h2.imp ?_
  rintro s t ⟨h3, h4, h5⟩
  unfold lt dropIdx at *
  rw [revLexLess_eraseIdx k (by rw [s.1.2, t.1.2]) (by rw [h3, h4]) (by rw [s.1.2]; exact k.2)]
  exact h5

omit [Zero X] [Field K] in
theorem slice_rel {d : Terms (MIndex (n + 1)) K} {p : Terms (MIndex (n + 1)) X} (h : Rel In d p)
    (k : Fin (n + 1)) (i : Nat) : Rel In (slice d k i) (slice p k i) := by
  have h1 := Rel.filter h (fun a => decide (a.1.getD k 0 = i))
  unfold slice
  have : ∀ (d : Terms (MIndex (n + 1)) K) (p : Terms (MIndex (n + 1)) X), Rel In d p →
      Rel In (d.map (fun t => (dropIdx t.1 k, t.2))) (p.map (fun t => (dropIdx t.1 k, t.2))) := by
    intro d p h
    induction h with
    | nil => exact .nil
    | cons h _ ih => exact .cons ⟨by simp only [h.1], h.2⟩ ih
  exact this _ _ h1

theorem cpower_in (hA : Sound A In) (k : K) (c : X) (hc : In k c) (i : Nat) :
    In (k ^ i) (cpower A c i) := by
  induction i using Nat.strong_induction_on with
  | _ i ih =>
    match i with
    | 0 => simpa [cpower] using hA.one
    | 1 => simpa [cpower] using hc
    | 2 => simpa [cpower] using hA.sqr k c hc
    | j + 3 =>
      have h1 := ih (j + 1) (by omega)
      have h2 := hA.mul _ _ _ _ h1 (hA.sqr k c hc)
      have : k ^ (j + 3) = k ^ (j + 1) * k ^ 2 := by ring
      rw [this, cpower]
      exact h2

theorem sumSlices_encl (hA : Sound A In) (s : Nat → Terms (MIndex n) X)
    (g : Nat → MvPolynomial (Fin n) K) (h : ∀ i, Encl In (s i) (g i)) (m : Nat) :
    Encl In (sumSlices A s m) (∑ i ∈ Finset.range (m + 1), g i) ∧
      ((∀ i, Sorted lt (s i)) → Sorted lt (sumSlices A s m)) := by
  induction m with
  | zero => exact ⟨by simpa [sumSlices] using h 0, fun hs => hs 0⟩
  | succ m ih =>
    obtain ⟨h1, h2⟩ := C89_add hA _ _ _ _ ih.1 (h (m + 1))
    rw [Finset.sum_range_succ]
    exact ⟨h1, fun hs => h2 (ih.2 hs) (hs _)⟩

omit [Zero X] [Field K] in
theorem le_deg (p : Terms (MIndex n) X) {t : MIndex n × X} (ht : t ∈ p) :
    degree t.1.1 ≤ deg p := by
  have key : ∀ (p : Terms (MIndex n) X) (m : Nat),
      m ≤ p.foldl (fun d t => max d (degree t.1.1)) m ∧
      ∀ t ∈ p, degree t.1.1 ≤ p.foldl (fun d t => max d (degree t.1.1)) m := by
    intro p
    induction p with
    | nil => intro m; simp
    | cons u p ih =>
      intro m
      obtain ⟨h1, h2⟩ := ih (max m (degree u.1.1))
      refine ⟨le_trans (le_max_left _ _) h1, fun t ht => ?_⟩
      rcases List.mem_cons.1 ht with rfl | ht
      · exact le_trans (le_max_right _ _) h1
      · exact h2 t ht
  exact (key p 0).2 t ht

theorem dropIdx_sum (a : MIndex (n + 1)) (k : Fin (n + 1)) :
    (dropIdx a k).1.sum + a.1.getD k 0 = a.1.sum := by
  have key : ∀ (l : List Nat) (i : Nat), i < l.length → (l.eraseIdx i).sum + l.getD i 0 = l.sum := by
    intro l
    induction l with
    | nil => intro i hi; simp at hi
    | cons x l ih =>
      intro i hi
      cases i with
      | zero => simp [Nat.add_comm]
      | succ i =>
        have := ih i (by simpa using hi)
        simp only [List.eraseIdx_cons_succ, List.sum_cons, List.getD_cons_succ]
        omega
  exact key a.1 k (by rw [a.2]; exact k.2)

theorem expo_drop (a : MIndex (n + 1)) (k : Fin (n + 1)) (i : Fin n) :
    expo (dropIdx a k) i = expo a (k.succAbove i) := by
  simp only [expo_apply, dropIdx, List.getD_eq_getElem?_getD, List.getElem?_eraseIdx,
    Fin.succAbove]
  by_cases h : (i : ℕ) < k
  · have : i.castSucc < k := h
    simp [h, this]
  · have : ¬ i.castSucc < k := h
    simp [h, this]

/-- One term after the substitution. -/
theorem aeval_insertNth (k : Fin (n + 1)) (c : K) (a : MIndex (n + 1)) (v : K) :
    MvPolynomial.aeval (k.insertNth (MvPolynomial.C c) MvPolynomial.X :
        Fin (n + 1) → MvPolynomial (Fin n) K) (MvPolynomial.monomial (expo a) v) =
      MvPolynomial.monomial (expo (dropIdx a k)) v * MvPolynomial.C (c ^ a.1.getD k 0) := by
  rw [MvPolynomial.aeval_monomial, Finsupp.prod_fintype _ _ (by simp),
    Fin.prod_univ_succAbove _ k]
  simp only [Fin.insertNth_apply_same, Fin.insertNth_apply_succAbove, MvPolynomial.algebraMap_eq]
  rw [MvPolynomial.monomial_eq (s := expo (dropIdx a k)), Finsupp.prod_fintype _ _ (by simp)]
  simp only [expo_drop, map_pow]
  rw [expo_apply]
  ring

/-- The terms collected by the exponent of one variable. -/
theorem slices_sum (k : Fin (n + 1)) (c : K) (d : Terms (MIndex (n + 1)) K) (m : Nat)
    (hm : ∀ t ∈ d, t.1.1.getD k 0 ≤ m) :
    ∑ i ∈ Finset.range (m + 1), toMv (slice d k i) * MvPolynomial.C (c ^ i) =
      MvPolynomial.aeval (k.insertNth (MvPolynomial.C c) MvPolynomial.X :
        Fin (n + 1) → MvPolynomial (Fin n) K) (toMv d) := by
  induction d with
  | nil => simp [slice]
  | cons t d ih =>
    rw [toMv_cons, map_add, ← ih (fun u hu => hm u (by simp [hu])), aeval_insertNth]
    have hs : ∀ i, toMv (slice (t :: d) k i) * MvPolynomial.C (c ^ i) =
        (if i = t.1.1.getD k 0 then MvPolynomial.monomial (expo (dropIdx t.1 k)) t.2 *
          MvPolynomial.C (c ^ t.1.1.getD k 0) else 0) +
          toMv (slice d k i) * MvPolynomial.C (c ^ i) := by
      intro i
      unfold slice
      by_cases h : t.1.1.getD k 0 = i
      · rw [List.filter_cons_of_pos (by simpa using h), List.map_cons, toMv_cons, if_pos h.symm, h]
        ring
      · rw [List.filter_cons_of_neg (by simpa using h), if_neg (fun e => h e.symm), zero_add]
    simp only [hs, Finset.sum_add_distrib]
    congr 1
    rw [Finset.sum_ite_eq' (Finset.range (m + 1)) (t.1.1.getD k 0), if_pos]
    have := hm t (by simp)
    simp only [Finset.mem_range]
    omega

/-- **C89** (partial evaluation): for a polynomial whose terms have degree below `2^16`, putting a
number for one variable gives the polynomial in the other variables, sorted if the original was;
when the number is neither decidedly zero nor one, the degree must not be zero. -/
theorem C89_partial_evaluate_partial (hA : Sound A In) (p : Terms (MIndex (n + 1)) X)
    (f : MvPolynomial (Fin (n + 1)) K) (hp : Encl In p f) (k : Fin (n + 1)) (v : K) (c : X)
    (hc : In v c) (hd : ∀ t ∈ p, t.1.1.sum < 65536)
    (hdeg : A.isNull c = true ∨ A.isUnit c = true ∨ deg p ≠ 0) :
    ∃ r, partialEvaluate A p k c = some r ∧
      Encl In r (MvPolynomial.aeval (k.insertNth (MvPolynomial.C v) MvPolynomial.X :
        Fin (n + 1) → MvPolynomial (Fin n) K) f) ∧ (Sorted lt p → Sorted lt r) := by
  obtain ⟨d, h1, rfl⟩ := hp
  have hidx : ∀ s ∈ d, ∃ t ∈ p, t.1 = s.1 := by
    intro s hs
    have : s.1 ∈ p.map Prod.fst := by rw [← h1.idx]; exact List.mem_map_of_mem hs
    obtain ⟨t, ht, e⟩ := List.mem_map.1 this
    exact ⟨t, ht, e⟩
  have hle : ∀ t ∈ p, t.1.1.getD k 0 ≤ deg p := by
    intro t ht
    have h2 := le_deg p ht
    rw [degree_of_fits (hd t ht)] at h2
    have := dropIdx_sum t.1 k
    omega
  have hle' : ∀ t ∈ d, t.1.1.getD k 0 ≤ deg p := by
    intro s hs
    obtain ⟨t, ht, e⟩ := hidx s hs
    rw [← e]; exact hle t ht
  unfold partialEvaluate
  by_cases hn : A.isNull c = true
  · rw [if_pos hn]
    refine ⟨_, rfl, ⟨slice d k 0, slice_rel h1 k 0, ?_⟩, slice_sorted p k 0⟩
    rw [← slices_sum k v d (deg p) hle', hA.isNull v c hc hn, Finset.sum_range_succ']
    simp
  · rw [if_neg hn]
    have hall : (p.all (fun t => decide (t.1.1.getD k 0 < deg p + 1) &&
        decide (degree (dropIdx t.1 k).1 + t.1.1.getD k 0 = degree t.1.1))) = true := by
      rw [List.all_eq_true]
      intro t ht
      rw [Bool.and_eq_true, decide_eq_true_eq, decide_eq_true_eq]
      have h2 := dropIdx_sum t.1 k
      have h3 := hd t ht
      refine ⟨by have := hle t ht; omega, ?_⟩
      rw [degree_of_fits h3, degree_of_fits (by unfold Fits; omega)]
      exact h2
    rw [if_pos hall]
    by_cases hu : A.isUnit c = true
    · rw [if_pos hu]
      obtain ⟨h2, h3⟩ := sumSlices_encl hA (slice p k) (fun i => toMv (slice d k i))
        (fun i => ⟨_, slice_rel h1 k i, rfl⟩) (deg p)
      refine ⟨_, rfl, ?_, fun hs => h3 (fun i => slice_sorted p k i hs)⟩
      rw [← slices_sum k v d (deg p) hle', hA.isUnit v c hc hu]
      simpa using h2
    · rw [if_neg hu]
      have h0 : deg p ≠ 0 := by
        rcases hdeg with h | h | h
        · exact absurd h hn
        · exact absurd h hu
        · exact h
      rw [if_neg h0]
      obtain ⟨h2, h3⟩ := sumSlices_encl hA
        (fun i => if i = 0 then slice p k 0 else mulConst A (slice p k i) (cpower A c i))
        (fun i => toMv (slice d k i) * MvPolynomial.C (v ^ i))
        (fun i => by
          by_cases hi : i = 0
          · subst hi
            simp only [if_true]
            exact ⟨_, slice_rel h1 k 0, by simp⟩
          · simp only [hi, if_false]
            exact (C89_mul_const hA _ _ ⟨_, slice_rel h1 k i, rfl⟩ _ _ (cpower_in hA v c hc i)).1)
        (deg p)
      refine ⟨_, rfl, ?_, fun hs => h3 (fun i => ?_)⟩
      · rw [← slices_sum k v d (deg p) hle']
        exact h2
      · by_cases hi : i = 0
        · subst hi
          simpa using slice_sorted p k 0 hs
        · simp only [hi, if_false]
          exact (C89_mul_const hA _ _ ⟨_, slice_rel h1 k i, rfl⟩ _ _ (cpower_in hA v c hc i)).2
            (slice_sorted p k i hs)

end Eval

end Verif.Polynomial
