import Verif.Chebyshev.Lemmas

/-!
# Properties of Chebyshev polynomials in one variable (C94)

The specification is `Denotes E b ts f`: the terms are those of the function `f` in the basis `b`, with coefficients
represented in the sense of `E` (equality, membership in bounds).  The basis functions are Mathlib's Chebyshev polynomials.
-/

namespace Verif.Chebyshev

open Verif.Complex (Arith Sound exact exact_sound)
open Verif.Expansion (Terms)

variable {I X P M : Type*} {A : Arith X} {E E' : X → ℝ → Prop} {b : I → P → ℝ}

/-- **C94** Negatives, multiples, sums and differences, in one and in several variables, and whatever the order of the terms. -/
theorem C94_linear [DecidableEq I] (h : Sound A E E') (less : I → I → Bool) {l1 l2 : Terms I X} {f1 f2 : P → ℝ} {s : X}
    {r : ℝ} (h1 : Denotes E b l1 f1) (h2 : Denotes E b l2 f2) (hs : E s r) :
    Denotes E b (neg A l1) (fun x => -f1 x) ∧ Denotes E b (scale A l1 s) (fun x => f1 x * r) ∧
    Denotes E b (add A less l1 l2) (fun x => f1 x + f2 x) ∧ Denotes E b (sub A less l1 l2) (fun x => f1 x - f2 x) := by
  have hneg : ∀ {l : Terms I X} {f : P → ℝ}, Denotes E b l f → Denotes E b (neg A l) (fun x => -f x) := fun hl =>
    (hl.map (φ := fun t => (t.1, A.neg t.2)) (b' := b) (s := -1) (w := fun _ => 1)
      (fun t c hc => by have := h.neg hc; simpa using this) (fun t _ x => by simp)).congr fun x => by simp
  refine ⟨hneg h1, ?_, add_denotes h less l1 l2 f1 f2 h1 h2, ?_⟩
  · exact (h1.map (φ := fun t => (t.1, A.mul t.2 s)) (b' := b) (s := r) (w := fun _ => 1)
      (fun t c hc => by have := h.mul hc hs; simpa [mul_comm] using this) (fun t _ x => by simp)).congr
        fun x => by simp [mul_comm]
  · exact (add_denotes h less l1 _ f1 _ h1 (hneg h2)).congr fun x => by ring

/-- **C94** When a scalar can be added to a polynomial the result is right. -/
theorem C94_add_scalar (h : Sound A E E') {isZero : I → Bool} {zero : I} (hz : ∀ i, isZero i = true → ∀ x, b i x = 1)
    (h0 : ∀ x, b zero x = 1) {s : X} {r : ℝ} (hs : E s r) : ∀ {ts ts' : Terms I X} {f : P → ℝ}, Denotes E b ts f →
    addScalar A isZero zero s ts = some ts' → Denotes E b ts' (fun x => f x + r)
  | [], ts', f, hf, ht => by
    rw [← Option.some.inj ht]
    exact ⟨r, _, hs, denotes_nil, fun x => by simp only []; rw [hf x, h0 x]; ring⟩
  | (i, a) :: ts, ts', f, ⟨c, g, hc, hg, e⟩, ht => by
    unfold addScalar at ht
    simp only at ht
    by_cases hi : isZero i = true
    · rw [if_pos hi] at ht
      rw [← Option.some.inj ht]
      exact ⟨_, g, h.add hc hs, hg, fun x => by simp only []; rw [e x, hz i hi x]; ring⟩
    · rw [if_neg hi] at ht; cases ht

/-- **C94** `sup_norm` bounds the values where the basis functions are at most one, so on the unit box.  `U m u` says that the
magnitude `m` is known to be at least `u`. -/
theorem C94_sup_norm {mag : X → M} {addM : M → M → M} {U : M → ℝ → Prop} (h0 : U (mag (A.nat 0)) 0)
    (hm : ∀ {a c}, E a c → U (mag a) |c|) (ha : ∀ {m n u v}, U m u → U n v → U (addM m n) (u + v)) {ts : Terms I X}
    {f : P → ℝ} (hf : Denotes E b ts f) :
    ∃ u, U (supNorm A mag addM ts) u ∧ ∀ x, (∀ i, |b i x| ≤ 1) → |f x| ≤ u := by
  have key : ∀ (ts : Terms I X) (m : M) (u : ℝ) (f : P → ℝ), U m u → Denotes E b ts f →
      ∃ v, U (ts.foldl (fun r t => addM r (mag t.2)) m) v ∧ ∀ x, (∀ i, |b i x| ≤ 1) → u + |f x| ≤ v := by
    intro ts
    induction ts with
    | nil => intro m u f hm hf; exact ⟨u, hm, fun x _ => by rw [hf x]; simp⟩
    | cons t ts ih =>
      rintro m u f hm' ⟨c, g, hc, hg, e⟩
      obtain ⟨v, hv, hle⟩ := ih _ _ g (ha hm' (hm hc)) hg
      refine ⟨v, hv, fun x hx => ?_⟩
      have h1 := hle x hx
      have h2 : |f x| ≤ |c| + |g x| := by
        rw [e x]
        refine (abs_add_le _ _).trans (add_le_add_left ?_ _)
        rw [abs_mul]
        exact mul_le_of_le_one_right (abs_nonneg c) (hx t.1)
      linarith
  obtain ⟨v, hv, hle⟩ := key ts _ 0 f h0 hf
  exact ⟨v, hv, fun x hx => by simpa using hle x hx⟩

namespace Uni

/-! ## Evaluation -/

theorem advance_sound (h : Sound A E E') {tx : X} {y : ℝ} (htx : E tx (y * 2)) : ∀ (m j : ℕ) (p c : X),
    E p (cheb j y) → E c (cheb (j + 1) y) →
    E (advance A tx m p c).1 (cheb (j + m) y) ∧ E (advance A tx m p c).2 (cheb (j + 1 + m) y)
  | 0, _, _, _, hp, hc => ⟨hp, hc⟩
  | m + 1, j, p, c, hp, hc => by
    have h1 : E (A.sub (A.mul tx c) p) (cheb (j + 1 + 1) y) := by
      rw [show j + 1 + 1 = j + 2 by omega, cheb_add_two, mul_comm 2 y]
      exact h.sub (h.mul htx hc) hp
    have := advance_sound h htx m (j + 1) c _ hc h1
    rw [show j + (m + 1) = j + 1 + m by omega, show j + 1 + (m + 1) = j + 1 + 1 + m by omega]
    exact this

theorem evalLoop_sound (h : Sound A E E') {tx : X} {y : ℝ} (htx : E tx (y * 2)) : ∀ (ts : Terms ℕ X) (j : ℕ) (p c r : X)
    (f : ℝ → ℝ) (v : ℝ), Sorted ts → (∀ t ∈ ts, j + 1 ≤ t.1) → E p (cheb j y) → E c (cheb (j + 1) y) → E r v →
    Denotes E cheb ts f → E (evalLoop A tx ts (j + 1) p c r) (v + f y)
  | [], _, _, _, _, f, v, _, _, _, _, hr, hf => by rw [hf y, add_zero]; exact hr
  | (i, a) :: ts, j, p, c, r, f, v, hs, hj, hp, hc, hr, ⟨c', g, hc', hg, e⟩ => by
    have hi := hj _ List.mem_cons_self
    have hs' := List.pairwise_cons.1 hs
    obtain ⟨m, hm⟩ := Nat.exists_eq_add_of_le hi
    simp only at hm
    have ha := advance_sound h htx m j p c hp hc
    unfold evalLoop
    simp only
    rw [show i - (j + 1) = m by omega, show j + 1 + m = j + m + 1 by omega]
    have h2 : E (advance A tx m p c).2 (cheb (j + m + 1) y) := by
      rw [show j + m + 1 = j + 1 + m by omega]; exact ha.2
    have := evalLoop_sound h htx ts (j + m) _ _ (A.add r (A.mul (advance A tx m p c).2 a)) g (v + cheb (j + m + 1) y * c')
      hs'.2 (fun t ht => by have := hs'.1 t ht; simp only at this; omega) ha.1 h2 (h.add hr (h.mul h2 hc')) hg
    rw [e y]
    simp only
    rw [show i = j + m + 1 by omega]
    rw [show v + (c' * cheb (j + m + 1) y + g y) = v + cheb (j + m + 1) y * c' + g y by ring]
    exact this

/-- **C94** Evaluation at a number represented gives the value of the function denoted. -/
theorem C94_evaluate (h : Sound A E E') {ts : Terms ℕ X} {f : ℝ → ℝ} (hs : Sorted ts) (hf : Denotes E cheb ts f) {x : X}
    {y : ℝ} (hx : E x y) : E (evaluate A ts x) (f y) := by
  have hz : E (A.mul x (A.nat 0)) 0 := by simpa using h.mul hx (h.nat 0)
  have htx : E (A.mul x (A.nat 2)) (y * 2) := by simpa using h.mul hx (h.nat 2)
  have hp : E (A.add (A.mul x (A.nat 0)) (A.nat 1)) (cheb 0 y) := by
    rw [cheb_zero]; simpa using h.add hz (h.nat 1)
  have hc : E x (cheb (0 + 1) y) := by rw [zero_add, cheb_one]; exact hx
  match ts, hs, hf with
  | [], _, hf => rw [hf y]; exact hz
  | (i, a) :: r, hs, hf =>
    unfold evaluate
    simp only
    by_cases hi : i = 0
    · rw [if_pos hi]
      obtain ⟨c, g, hc', hg, e⟩ := hf
      rw [e y]
      simp only
      rw [hi, cheb_zero, mul_one]
      exact evalLoop_sound h htx r 0 _ _ a g c (List.pairwise_cons.1 hs).2
        (fun t ht => by have := (List.pairwise_cons.1 hs).1 t ht; simp only at this; omega) hp hc hc' hg
    · rw [if_neg hi]
      have := evalLoop_sound h htx ((i, a) :: r) 0 _ _ _ f 0 hs (fun t ht => by
        rcases List.mem_cons.1 ht with rfl | ht
        · simp only; omega
        · have := (List.pairwise_cons.1 hs).1 t ht; simp only at this; omega) hp hc hz hf
      simpa only [zero_add] using this

/-! ## Constructors -/

/-- **C94** The constructors make strictly sorted polynomials, the constant, the coordinate, the basis functions up to degree
65535 and the sum with given coefficients. -/
theorem C94_constructors (h : Sound A E E') {a : X} {c : ℝ} (ha : E a c) {k d : ℕ} (hk : k < 65536) {g : ℕ → X} {cs : ℕ → ℝ}
    (hg : ∀ i, E (g i) (cs i)) :
    Denotes E cheb (constant a) (fun _ => c) ∧ Denotes E cheb (coordinate A) (fun x => x) ∧
    Denotes E cheb (basis A k) (cheb k) ∧
    Denotes E cheb (ofCoefficients d g) (fun x => ((List.range (d + 1)).map fun i => cs i * cheb i x).sum) ∧
    Sorted (constant a) ∧ Sorted (coordinate A) ∧ Sorted (basis A k) ∧ Sorted (ofCoefficients d g) := by
  refine ⟨⟨c, _, ha, denotes_nil, fun x => ?_⟩, ⟨1, _, by simpa using h.nat 1, denotes_nil, fun x => ?_⟩,
    ⟨1, _, by simpa using h.nat 1, denotes_nil, fun x => ?_⟩, ?_, List.pairwise_singleton _ _,
    List.pairwise_singleton _ _, List.pairwise_singleton _ _, ?_⟩
  · rw [cheb_zero]; ring
  · rw [cheb_one]; ring
  · rw [wrap, Nat.mod_eq_of_lt hk]; ring
  · unfold ofCoefficients
    induction List.range (d + 1) with
    | nil => exact fun x => by simp
    | cons i l ih => exact ⟨cs i, _, hg i, ih, fun x => by simp⟩
  · unfold ofCoefficients Sorted
    rw [List.pairwise_map]
    exact List.pairwise_lt_range

/-- **C94** Sums, differences, negatives and multiples are strictly sorted again, so that they can be evaluated. -/
theorem C94_sorted {l1 l2 : Terms ℕ X} {s : X} (h1 : Sorted l1) (h2 : Sorted l2) :
    Sorted (add A less l1 l2) ∧ Sorted (sub A less l1 l2) ∧ Sorted (neg A l1) ∧ Sorted (scale A l1 s) := by
  have hn : ∀ {l : Terms ℕ X}, Sorted l → Sorted (neg A l) := fun hl => by
    unfold neg Sorted; rw [List.pairwise_map]; exact hl
  refine ⟨add_sorted h1 h2, add_sorted h1 (hn h2), hn h1, ?_⟩
  unfold scale Sorted; rw [List.pairwise_map]; exact h1

/-! ## Products -/

theorem absDiff_eq {i j : ℕ} (hi : i ≤ 32768) (hj : j ≤ 32768) : absDiff i j = (i - j) + (j - i) := by
  unfold absDiff wrap
  simp only
  split_ifs <;> omega

/-- what a number in a buffer denotes -/
def Coef (E : X → ℝ → Prop) (a : X) (f : ℝ → ℝ) : Prop := ∃ c, E a c ∧ ∀ x, f x = c

theorem coef_add (h : Sound A E E') {a : X} {c : ℝ} (hc : E a c) (β : X) (g : ℝ → ℝ) (hβ : Coef E β g) :
    Coef E (A.add β a) (fun x => g x + c) := by
  obtain ⟨d, hd, e⟩ := hβ
  exact ⟨d + c, h.add hd hc, fun x => by simp only []; rw [e x]⟩

theorem mulTerm_sound (h : Sound A E E') {t1 t2 : ℕ × X} {c1 c2 : ℝ} (h1 : E t1.2 c1) (h2 : E t2.2 c2)
    (hi : t1.1 ≤ 32768) (hj : t2.1 ≤ 32768) (hij : t1.1 + t2.1 < 65536) {buf buf' : List X} {S : ℝ → ℝ}
    (hb : mulTerm A buf t1 t2 = some buf') (hS : DenBuf (Coef E) cheb 0 buf S) :
    DenBuf (Coef E) cheb 0 buf' (fun x => S x + 2 * (c1 * cheb t1.1 x) * (c2 * cheb t2.1 x)) := by
  obtain ⟨b', hb1, hb2⟩ := Option.bind_eq_some_iff.1 hb
  have hc := h.mul h1 h2
  have := denBuf_add (f := fun _ => c1 * c2) (coef_add h hc) hb2 (denBuf_add (f := fun _ => c1 * c2) (coef_add h hc) hb1 hS)
  refine this.congr fun x => ?_
  rw [absDiff_eq hi hj, wrap, Nat.mod_eq_of_lt hij, Nat.zero_add, Nat.zero_add]
  have := cheb_mul t1.1 t2.1 x
  linear_combination (c1 * c2) * this

theorem mulInner_sound (h : Sound A E E') {t1 : ℕ × X} {c1 : ℝ} (h1 : E t1.2 c1) (hi : t1.1 ≤ 32768) :
    ∀ (l2 : Terms ℕ X) (buf buf' : List X) (S f2 : ℝ → ℝ), (∀ t ∈ l2, t.1 ≤ 32768 ∧ t1.1 + t.1 < 65536) →
    l2.foldlM (fun b t2 => mulTerm A b t1 t2) buf = some buf' → DenBuf (Coef E) cheb 0 buf S → Denotes E cheb l2 f2 →
    DenBuf (Coef E) cheb 0 buf' (fun x => S x + 2 * (c1 * cheb t1.1 x) * f2 x)
  | [], buf, buf', S, f2, _, hb, hS, h2 => by
    rw [← Option.some.inj hb]
    exact hS.congr fun x => by rw [h2 x]; ring
  | t2 :: l2, buf, buf', S, f2, hl, hb, hS, ⟨c2, g, hc2, hg, e⟩ => by
    rw [List.foldlM_cons] at hb
    obtain ⟨b1, hb1, hb2⟩ := Option.bind_eq_some_iff.1 hb
    have ht := hl t2 List.mem_cons_self
    have := mulTerm_sound h h1 hc2 hi ht.1 ht.2 hb1 hS
    refine (mulInner_sound h h1 hi l2 b1 buf' _ g (fun t ht => hl t (List.mem_cons_of_mem _ ht)) hb2 this hg).congr
      fun x => ?_
    rw [e x]; ring

theorem mulLoop_sound (h : Sound A E E') (l2 : Terms ℕ X) {f2 : ℝ → ℝ} (h2 : Denotes E cheb l2 f2) :
    ∀ (l1 : Terms ℕ X) (buf buf' : List X) (S f1 : ℝ → ℝ),
    (∀ t1 ∈ l1, t1.1 ≤ 32768 ∧ ∀ t ∈ l2, t.1 ≤ 32768 ∧ t1.1 + t.1 < 65536) →
    mulLoop A l1 l2 buf = some buf' → DenBuf (Coef E) cheb 0 buf S → Denotes E cheb l1 f1 →
    DenBuf (Coef E) cheb 0 buf' (fun x => S x + 2 * f1 x * f2 x)
  | [], buf, buf', S, f1, _, hb, hS, h1 => by
    rw [← Option.some.inj hb]
    exact hS.congr fun x => by rw [h1 x]; ring
  | t1 :: l1, buf, buf', S, f1, hl, hb, hS, ⟨c1, g, hc1, hg, e⟩ => by
    unfold mulLoop at hb
    rw [List.foldlM_cons] at hb
    obtain ⟨b1, hb1, hb2⟩ := Option.bind_eq_some_iff.1 hb
    have ht := hl t1 List.mem_cons_self
    have := mulInner_sound h hc1 ht.1 l2 buf b1 S f2 ht.2 hb1 hS h2
    refine (mulLoop_sound h l2 h2 l1 b1 buf' _ g (fun t ht => hl t (List.mem_cons_of_mem _ ht)) hb2 this hg).congr
      fun x => ?_
    rw [e x]; ring

theorem collect_sound (h : Sound A E E') : ∀ (buf : List X) (i : ℕ) (S : ℝ → ℝ), DenBuf (Coef E) cheb i buf S →
    Denotes E cheb ((buf.zipIdx i).map fun b => (b.2, A.hlf b.1)) (fun x => S x / 2)
  | [], _, S, hS => fun x => by simp only []; rw [hS x]; simp
  | a :: buf, i, S, ⟨f, g, ⟨c, hc, ef⟩, hg, e⟩ =>
    ⟨c / 2, _, h.hlf hc, collect_sound h buf (i + 1) g hg, fun x => by simp only []; rw [e x, ef x]; ring⟩

theorem mulInner_total (t1 : ℕ × X) (hi : t1.1 ≤ 32768) : ∀ (l2 : Terms ℕ X) (buf : List X),
    (∀ t ∈ l2, t.1 ≤ 32768 ∧ t1.1 + t.1 < 65536 ∧ t1.1 + t.1 < buf.length) →
    ∃ buf', l2.foldlM (fun b t2 => mulTerm A b t1 t2) buf = some buf' ∧ buf'.length = buf.length
  | [], buf, _ => ⟨buf, rfl, rfl⟩
  | t2 :: l2, buf, hl => by
    obtain ⟨hj, hw, hlen⟩ := hl t2 List.mem_cons_self
    have ha := absDiff_eq hi hj
    obtain ⟨b1, e1, k1⟩ := bufAdd_isSome A.add (buf := buf) (j := absDiff t1.1 t2.1) (A.mul t1.2 t2.2) (by omega)
    obtain ⟨b2, e2, k2⟩ := bufAdd_isSome A.add (buf := b1) (j := wrap (t1.1 + t2.1)) (A.mul t1.2 t2.2)
      (by rw [wrap, Nat.mod_eq_of_lt hw]; omega)
    obtain ⟨b3, e3, k3⟩ := mulInner_total t1 hi l2 b2 (fun t ht => by
      have := hl t (List.mem_cons_of_mem _ ht); rw [k2, k1]; exact this)
    refine ⟨b3, ?_, by omega⟩
    rw [List.foldlM_cons]
    have : mulTerm A buf t1 t2 = some b2 := by unfold mulTerm; simp only [e1, Option.bind_some, e2]
    rw [this]
    exact e3

theorem mulLoop_total (l2 : Terms ℕ X) : ∀ (l1 : Terms ℕ X) (buf : List X),
    (∀ t1 ∈ l1, t1.1 ≤ 32768 ∧ ∀ t ∈ l2, t.1 ≤ 32768 ∧ t1.1 + t.1 < 65536 ∧ t1.1 + t.1 < buf.length) →
    ∃ buf', mulLoop A l1 l2 buf = some buf' ∧ buf'.length = buf.length
  | [], buf, _ => ⟨buf, rfl, rfl⟩
  | t1 :: l1, buf, hl => by
    obtain ⟨hi, ht⟩ := hl t1 List.mem_cons_self
    obtain ⟨b1, e1, k1⟩ := mulInner_total (A := A) t1 hi l2 buf ht
    obtain ⟨b2, e2, k2⟩ := mulLoop_total l2 l1 b1 (fun t ht => by
      rw [k1]; exact hl t (List.mem_cons_of_mem _ ht))
    refine ⟨b2, ?_, by omega⟩
    unfold mulLoop
    rw [List.foldlM_cons, e1]
    exact e2

theorem sorted_le_last {l : Terms ℕ X} {t : ℕ × X} (hs : Sorted l) (hl : l.getLast? = some t) : ∀ s ∈ l, s.1 ≤ t.1 := by
  obtain ⟨l', rfl⟩ := List.getLast?_eq_some_iff.1 hl
  intro s hs'
  rcases List.mem_append.1 hs' with h | h
  · exact ((List.pairwise_append.1 hs).2.2 s h t (by simp)).le
  · rw [List.mem_singleton.1 h]

theorem collect_sorted (buf : List X) : Sorted (collect A buf) := by
  unfold collect Sorted
  rw [List.pairwise_map]
  have : ∀ (buf : List X) (i : ℕ), (buf.zipIdx i).Pairwise fun s t => s.2 < t.2 := by
    intro buf
    induction buf with
    | nil => intro i; exact List.Pairwise.nil
    | cons a buf ih =>
      intro i
      rw [List.zipIdx_cons, List.pairwise_cons]
      refine ⟨fun s hs => ?_, ih (i + 1)⟩
      have := List.le_snd_of_mem_zipIdx hs
      simp only; omega
  exact this buf 0

/-- **C94** The product of non-empty strictly sorted polynomials of degrees up to 32768, whose sum is below 65535, is defined,
strictly sorted, and denotes the product of the functions. -/
theorem C94_mul (h : Sound A E E') {l1 l2 : Terms ℕ X} {t1 t2 : ℕ × X} (hs1 : Sorted l1) (hs2 : Sorted l2)
    (e1 : l1.getLast? = some t1) (e2 : l2.getLast? = some t2) (hi : t1.1 ≤ 32768) (hj : t2.1 ≤ 32768)
    (hd : t1.1 + t2.1 < 65535) :
    ∃ p, mul A l1 l2 = some p ∧ Sorted p ∧ ∀ f1 f2, Denotes E cheb l1 f1 → Denotes E cheb l2 f2 →
      Denotes E cheb p (fun x => f1 x * f2 x) := by
  have m1 := sorted_le_last hs1 e1
  have m2 := sorted_le_last hs2 e2
  have hw : wrap (t1.1 + t2.1 + 1) = t1.1 + t2.1 + 1 := by unfold wrap; omega
  obtain ⟨buf, eb, _⟩ := mulLoop_total (A := A) l2 l1 (List.replicate (wrap (t1.1 + t2.1 + 1)) (A.nat 0)) (fun s hs => by
    have := m1 s hs
    refine ⟨by omega, fun t ht => ?_⟩
    have := m2 t ht
    rw [List.length_replicate, hw]
    omega)
  refine ⟨collect A buf, ?_, collect_sorted buf, fun f1 f2 h1 h2 => ?_⟩
  · unfold mul; rw [e1, e2]; simp only [eb, Option.map_some]
  · have hz : Coef E (A.nat 0) (fun _ => 0) := ⟨0, by simpa using h.nat 0, fun _ => rfl⟩
    have := mulLoop_sound h l2 h2 l1 _ buf _ f1 (fun s hs => by
      have := m1 s hs
      refine ⟨by omega, fun t ht => ?_⟩
      have := m2 t ht
      omega) eb (denBuf_replicate hz _ 0) h1
    exact (collect_sound h buf 0 _ this).congr fun x => by ring

/-! ## Counterexamples -/

/-- **C94** The difference of indices above 32768 overflows: multiplying by the constant one moves half of the polynomial of
degree `i` to degree `65536-i`. -/
theorem C94_mul_overflow_violated (i : ℕ) (h1 : 32768 < i) (h2 : i < 65535) :
    ∃ p, mul A (basis A i) (constant (A.nat 1)) = some p ∧
      (65536 - i, A.hlf (A.add (A.nat 0) (A.mul (A.nat 1) (A.nat 1)))) ∈ p := by
  have w1 : wrap i = i := by unfold wrap; omega
  have w2 : wrap (i + 0 + 1) = i + 1 := by unfold wrap; omega
  have w3 : wrap (i + 0) = i := by unfold wrap; omega
  have w4 : absDiff i 0 = 65536 - i := by
    unfold absDiff wrap
    simp only
    split_ifs <;> omega
  have e : mul A (basis A i) (constant (A.nat 1)) =
      some (collect A (((List.replicate (i + 1) (A.nat 0)).modify (65536 - i) fun b =>
        A.add b (A.mul (A.nat 1) (A.nat 1))).modify i fun b => A.add b (A.mul (A.nat 1) (A.nat 1)))) := by
    simp only [mul, basis, constant, List.getLast?_singleton, mulLoop, List.foldlM_cons, List.foldlM_nil, mulTerm, bufAdd,
      w1, w2, w3, w4, List.length_replicate]
    rw [if_pos (by omega)]
    simp only [Option.bind_some, List.length_modify, List.length_replicate]
    rw [if_pos (by omega)]
    rfl
  refine ⟨_, e, ?_⟩
  unfold collect
  rw [List.mem_map]
  refine ⟨(A.add (A.nat 0) (A.mul (A.nat 1) (A.nat 1)), 65536 - i), ?_, rfl⟩
  rw [List.mk_mem_zipIdx_iff_getElem?, List.getElem?_modify, List.getElem?_modify, List.getElem?_replicate,
    if_pos (by omega)]
  have hne : i ≠ 65536 - i := by omega
  simp [hne]

/-- **C94** A scalar cannot be added to the coordinate: the assertion fails. -/
theorem C94_add_scalar_violated (s : X) : addScalar A (fun i => decide (i = 0)) 0 s (coordinate A) = none := rfl

/-- **C94** The zero polynomial without terms cannot be multiplied: the last term of nothing is read. -/
theorem C94_mul_empty_violated (l : Terms ℕ X) : mul A [] l = none ∧ mul A l [] = none := by
  constructor
  · rfl
  · unfold mul
    cases l.getLast? <;> rfl

/-! ## The hypotheses can be met -/

/-- `T1+1` with exact coefficients -/
noncomputable example : ∃ p, mul exact [(0, 1), (1, 1)] [(0, 1), (1, 1)] = some p ∧
    Denotes (fun a x => a = x) cheb p (fun x => (1 + x) * (1 + x)) := by
  have hd : Denotes (fun a x => a = x) cheb [(0, (1 : ℝ)), (1, 1)] (fun x => 1 + x) :=
    ⟨1, _, rfl, ⟨1, _, rfl, denotes_nil, fun _ => rfl⟩, fun x => by simp [cheb_zero, cheb_one]⟩
  have hs : Sorted [(0, (1 : ℝ)), (1, 1)] := by simp [Sorted]
  obtain ⟨p, hp, _, h⟩ := C94_mul exact_sound hs hs rfl rfl (by norm_num) (by norm_num) (by norm_num)
  exact ⟨p, hp, h _ _ hd hd⟩

end Uni

end Verif.Chebyshev
