import Verif.Chebyshev.Props
import Mathlib.Data.List.TakeWhile

/-!
# Properties of Chebyshev polynomials in several variables (C94)
-/

namespace Verif.Chebyshev.Multi

open Verif.Complex (Arith Sound exact exact_sound)
open Verif.Expansion (Terms)

variable {X M : Type*} {A : Arith X} {E E' : X → ℝ → Prop}

/-- The product of the Chebyshev polynomials with the degrees of the list, in the variables from `k` on. -/
noncomputable def chebFrom : ℕ → List ℕ → (ℕ → ℝ) → ℝ
  | _, [], _ => 1
  | k, i :: a, x => cheb i (x k) * chebFrom (k + 1) a x

/-- The basis function of a multi-index: the product of `T_{a_j}(x_j)`. -/
noncomputable def mcheb (a : List ℕ) (x : ℕ → ℝ) : ℝ := chebFrom 0 a x

/-- what is left of the basis function from the variable `k` on -/
noncomputable def rest (k : ℕ) (a : List ℕ) (x : ℕ → ℝ) : ℝ := chebFrom k (a.drop k) x

theorem rest_zero (a : List ℕ) : rest 0 a = mcheb a := by funext x; simp [rest, mcheb]

theorem rest_succ {k : ℕ} {a : List ℕ} (h : k < a.length) (x : ℕ → ℝ) :
    rest k a x = cheb (a.getD k 0) (x k) * rest (k + 1) a x := by
  unfold rest
  rw [List.drop_eq_getElem_cons h, chebFrom, List.getD_eq_getElem?_getD, List.getElem?_eq_getElem h]
  rfl

theorem rest_length {k : ℕ} {a : List ℕ} (h : a.length ≤ k) (x : ℕ → ℝ) : rest k a x = 1 := by
  unfold rest; rw [List.drop_eq_nil_of_le h, chebFrom]

theorem mcheb_abs_le {x : ℕ → ℝ} (hx : ∀ i, |x i| ≤ 1) : ∀ (a : List ℕ) (k : ℕ), |chebFrom k a x| ≤ 1
  | [], _ => by simp [chebFrom]
  | i :: a, k => by
    rw [chebFrom, abs_mul]
    exact mul_le_one₀ (cheb_abs_le i (hx k)) (abs_nonneg _) (mcheb_abs_le hx a (k + 1))

/-- **C94** On the unit box the values are bounded by `sup_norm`. -/
theorem C94_sup_norm {mag : X → M} {addM : M → M → M} {U : M → ℝ → Prop} (h0 : U (mag (A.nat 0)) 0)
    (hm : ∀ {a c}, E a c → U (mag a) |c|) (ha : ∀ {m n u v}, U m u → U n v → U (addM m n) (u + v))
    {ts : Terms (List ℕ) X} {f : (ℕ → ℝ) → ℝ} (hf : Denotes E mcheb ts f) :
    ∃ u, U (supNorm A mag addM ts) u ∧ ∀ x : ℕ → ℝ, (∀ i, |x i| ≤ 1) → |f x| ≤ u := by
  obtain ⟨u, hu, h⟩ := Verif.Chebyshev.C94_sup_norm h0 hm ha hf
  exact ⟨u, hu, fun x hx => h x fun a => mcheb_abs_le hx a 0⟩

/-! ## Groups of terms -/

/-- the terms which agree with `a` before the variable `k` -/
def agree (k : ℕ) (a : List ℕ) (s : List ℕ × X) : Bool := equalUpTo s.1 a k

theorem agree_iff {k : ℕ} {a : List ℕ} {s : List ℕ × X} : agree k a s = true ↔ s.1.take k = a.take k := by
  simp [agree, equalUpTo]

theorem agree_succ {k : ℕ} {a a' : List ℕ} {s : List ℕ × X} (h : agree (k + 1) a' s = true)
    (h' : a'.take k = a.take k) : agree k a s = true := by
  rw [agree_iff] at h ⊢
  have := congrArg (List.take k) h
  rw [List.take_take, List.take_take, Nat.min_eq_left (Nat.le_succ k)] at this
  rw [this, h']

theorem agree_getD {k : ℕ} {a : List ℕ} {s : List ℕ × X} (h : agree (k + 1) a s = true) :
    s.1.getD k 0 = a.getD k 0 := by
  rw [agree_iff] at h
  have := congrArg (fun l => l[k]?) h
  simp only [List.getElem?_take_of_lt (Nat.lt_succ_self k)] at this
  simp only [List.getD_eq_getElem?_getD, this]

/-- a first part of a group, and what follows -/
theorem split_group {q : List ℕ × X → Bool} {l g r : Terms (List ℕ) X} (h : l = g ++ r) (hg : ∀ s ∈ g, q s = true) :
    l.takeWhile q = g ++ r.takeWhile q ∧ l.dropWhile q = r.dropWhile q := by
  subst h
  exact ⟨List.takeWhile_append_of_pos hg, List.dropWhile_append_of_pos hg⟩

/-- the terms of a group with the same degree in the variable `k` have a common factor -/
theorem group_factor {k n i : ℕ} (hk : k < n) {g : Terms (List ℕ) X} (hn : ∀ s ∈ g, s.1.length = n)
    (hi : ∀ s ∈ g, s.1.getD k 0 = i) {f : (ℕ → ℝ) → ℝ} (hf : Denotes E (rest k) g f) :
    ∃ f', Denotes E (rest (k + 1)) g f' ∧ ∀ x, f x = cheb i (x k) * f' x :=
  hf.factor (w := fun x => cheb i (x k)) fun s hs x => by
    rw [rest_succ (by rw [hn s hs]; exact hk), hi s hs]

/-! ## Evaluation -/

theorem value_sound (h : Sound A E E') {x : X} {y : ℝ} (hx : E x y) : ∀ i, E (value A x i) (cheb i y) ∧
    E (value A x (i + 1)) (cheb (i + 1) y)
  | 0 => ⟨by rw [cheb_zero]; simpa [value] using h.nat 1, by rw [zero_add, cheb_one]; exact hx⟩
  | i + 1 => by
    obtain ⟨h1, h2⟩ := value_sound h hx i
    refine ⟨h2, ?_⟩
    rw [show i + 1 + 1 = i + 2 by omega, cheb_add_two]
    have := h.sub (h.mul (h.mul (h.nat 2) hx) h2) h1
    simpa [value] using this

/-- what a call of `_eval` from the variable `k` on does -/
def EvalSpec (E : X → ℝ → Prop) (n : ℕ) (ξ : ℕ → ℝ) (k : ℕ)
    (F : Terms (List ℕ) X → Option (X × Terms (List ℕ) X)) : Prop :=
  ∀ t l, (∀ s ∈ t :: l, s.1.length = n) → ∃ c, F (t :: l) = some (c, (t :: l).dropWhile (agree k t.1)) ∧
    ∀ f, Denotes E (rest k) ((t :: l).takeWhile (agree k t.1)) f → E c (f ξ)

theorem evalLoop_sound (h : Sound A E E') {n k : ℕ} (hk : k < n) {ξ : ℕ → ℝ} {v : ℕ → X} (hv : ∀ i, E (v i) (cheb i (ξ k)))
    {F : Terms (List ℕ) X → Option (X × Terms (List ℕ) X)} (hF : EvalSpec E n ξ (k + 1) F) (a0 : List ℕ) :
    ∀ (fuel : ℕ) (r : X) (l : Terms (List ℕ) X), l.length ≤ fuel → (∀ s ∈ l, s.1.length = n) →
    ∃ r', evalLoop A F v a0 k fuel r l = some (r', l.dropWhile (agree k a0)) ∧
      ∀ y f, E r y → Denotes E (rest k) (l.takeWhile (agree k a0)) f → E r' (y + f ξ)
  | 0, r, l, hl, _ => by
    have : l = [] := List.eq_nil_of_length_eq_zero (by omega)
    subst this
    exact ⟨r, rfl, fun y f hy hf => by rw [hf ξ, add_zero]; exact hy⟩
  | fuel + 1, r, [], _, _ => ⟨r, rfl, fun y f hy hf => by rw [hf ξ, add_zero]; exact hy⟩
  | fuel + 1, r, t :: l, hl, hn => by
    by_cases hq : equalUpTo a0 t.1 k = true
    · have hq' : t.1.take k = a0.take k := by
        simpa [equalUpTo] using (of_decide_eq_true hq).symm
      obtain ⟨c, hc, hcs⟩ := hF t l hn
      set g := (t :: l).takeWhile (agree (k + 1) t.1) with hg
      set l' := (t :: l).dropWhile (agree (k + 1) t.1) with hl'
      have hsplit : t :: l = g ++ l' := (List.takeWhile_append_dropWhile).symm
      have hgq : ∀ s ∈ g, agree (k + 1) t.1 s = true := fun s hs => List.mem_takeWhile_imp hs
      have hgpos : 0 < g.length := by
        rw [hg, List.takeWhile_cons_of_pos (by rw [agree_iff])]; simp
      have hlen := congrArg List.length hsplit
      rw [List.length_append] at hlen
      have hn' : ∀ s ∈ l', s.1.length = n := fun s hs => hn s (hsplit ▸ List.mem_append_right g hs)
      have hng : ∀ s ∈ g, s.1.length = n := fun s hs => hn s (hsplit ▸ List.mem_append_left l' hs)
      obtain ⟨r', hr', hrs⟩ := evalLoop_sound h hk hv hF a0 fuel (A.add r (A.mul c (v (t.1.getD k 0)))) l'
        (by simp only [List.length_cons] at hl hlen; omega) hn'
      obtain ⟨st, sd⟩ := split_group (q := agree k a0) hsplit (fun s hs => agree_succ (hgq s hs) hq')
      refine ⟨r', ?_, fun y f hy hf => ?_⟩
      · unfold evalLoop
        rw [if_pos hq, hc, sd]
        exact hr'
      · rw [st] at hf
        obtain ⟨f1, f2, h1, h2, e⟩ := denotes_append.1 hf
        obtain ⟨f', hf', e'⟩ := group_factor hk hng (fun s hs => agree_getD (hgq s hs)) h1
        have := hrs (y + f' ξ * cheb (t.1.getD k 0) (ξ k)) f2 (h.add hy (h.mul (hcs f' hf') (hv _))) h2
        rw [e ξ, e' ξ]
        rw [show y + (cheb (t.1.getD k 0) (ξ k) * f' ξ + f2 ξ) = y + f' ξ * cheb (t.1.getD k 0) (ξ k) + f2 ξ by ring]
        exact this
    · have hq' : ¬ agree k a0 t = true := by
        rw [agree_iff]
        intro h'
        exact hq (by simp [equalUpTo, h'])
      refine ⟨r, ?_, fun y f hy hf => ?_⟩
      · unfold evalLoop
        rw [if_neg hq, List.dropWhile_cons_of_neg hq']
      · rw [List.takeWhile_cons_of_neg hq'] at hf
        rw [hf ξ, add_zero]; exact hy

theorem evalLast_sound (h : Sound A E E') {n k : ℕ} (hk : k + 1 = n) {ξ : ℕ → ℝ} {v : ℕ → X}
    (hv : ∀ i, E (v i) (cheb i (ξ k))) : ∀ (g : Terms (List ℕ) X) (r : X) (y : ℝ) (f : (ℕ → ℝ) → ℝ),
    (∀ s ∈ g, s.1.length = n) → E r y → Denotes E (rest k) g f →
    E (g.foldl (fun r s => A.add r (A.mul s.2 (v (s.1.getD k 0)))) r) (y + f ξ)
  | [], r, y, f, _, hr, hf => by rw [hf ξ, add_zero]; exact hr
  | s :: g, r, y, f, hn, hr, ⟨c, f', hc, hf', e⟩ => by
    have hs := hn s List.mem_cons_self
    have hb : rest k s.1 ξ = cheb (s.1.getD k 0) (ξ k) := by
      rw [rest_succ (by omega), rest_length (by omega), mul_one]
    have := evalLast_sound h hk hv g _ (y + c * cheb (s.1.getD k 0) (ξ k)) f'
      (fun t ht => hn t (List.mem_cons_of_mem _ ht)) (h.add hr (h.mul hc (hv _))) hf'
    rw [e ξ, hb, ← add_assoc]
    exact this

theorem agree_fun (k : ℕ) (a : List ℕ) : (fun s : List ℕ × X => equalUpTo a s.1 k) = agree k a := by
  funext s
  simp only [agree, equalUpTo, eq_comm]

theorem evalFrom_sound (h : Sound A E E') {x : ℕ → X} {ξ : ℕ → ℝ} (hx : ∀ i, E (x i) (ξ i)) (n : ℕ) :
    ∀ d k, k + (d + 1) = n → EvalSpec E n ξ k (evalFrom A x (d + 1) k)
  | 0, k, hk, t, l, hn => by
    refine ⟨((t :: l).takeWhile (agree k t.1)).foldl
      (fun r s => A.add r (A.mul s.2 (value A (x k) (s.1.getD k 0)))) (A.nat 0), ?_, fun f hf => ?_⟩
    · unfold evalFrom
      simp only [agree_fun]
    · have := evalLast_sound h (k := k) (n := n) hk (v := value A (x k)) (fun i => (value_sound h (hx k) i).1)
        ((t :: l).takeWhile (agree k t.1)) (A.nat 0) 0 f (fun s hs => hn s (List.takeWhile_sublist _ |>.subset hs))
        (by simpa using h.nat 0) hf
      rwa [zero_add] at this
  | d + 1, k, hk, t, l, hn => by
    obtain ⟨r', hr', hs⟩ := evalLoop_sound h (k := k) (n := n) (by omega) (v := value A (x k))
      (fun i => (value_sound h (hx k) i).1) (evalFrom_sound h hx n d (k + 1) (by omega)) t.1 (l.length + 1) (A.nat 0)
      (t :: l) (by simp) hn
    refine ⟨r', ?_, fun f hf => ?_⟩
    · unfold evalFrom; exact hr'
    · have := hs 0 f (by simpa using h.nat 0) hf
      rwa [zero_add] at this

/-- **C94** Evaluation of a polynomial with terms in any order, but not of one without terms, gives the value of the function
denoted. -/
theorem C94_evaluate (h : Sound A E E') {x : ℕ → X} {ξ : ℕ → ℝ} (hx : ∀ i, E (x i) (ξ i)) {n : ℕ} (h0 : 0 < n)
    {ts : Terms (List ℕ) X} (hne : ts ≠ []) (hn : ∀ s ∈ ts, s.1.length = n) :
    ∃ r, evaluate A n ts x = some r ∧ ∀ f, Denotes E mcheb ts f → E r (f ξ) := by
  obtain ⟨d, rfl⟩ : ∃ d, n = d + 1 := ⟨n - 1, by omega⟩
  match ts, hne, hn with
  | t :: l, _, hn =>
    obtain ⟨c, hc, hs⟩ := evalFrom_sound h hx (d + 1) d 0 (by omega) t l hn
    refine ⟨c, by unfold evaluate; rw [hc]; rfl, fun f hf => hs f ?_⟩
    have : (t :: l).takeWhile (agree 0 t.1) = t :: l := by
      rw [List.takeWhile_eq_self_iff]; intro s _; rw [agree_iff]; simp
    rw [this, show rest 0 = mcheb from funext rest_zero]
    exact hf

/-- **C94** The value of a polynomial without terms is read beyond the end. -/
theorem C94_evaluate_empty_violated (n : ℕ) (x : ℕ → X) : evaluate A n [] x = none := by
  unfold evaluate
  cases n with
  | zero => rfl
  | succ n => cases n <;> rfl

/-! ## Products -/

/-- the first `k` degrees are zero -/
def Shape (n k : ℕ) (a : List ℕ) : Prop := a.length = n ∧ ∀ j, j < k → a.getD j 0 = 0

theorem mcheb_shape {n : ℕ} {a : List ℕ} : ∀ {k : ℕ}, k ≤ n → Shape n k a → ∀ x, mcheb a x = rest k a x
  | 0, _, _, x => by rw [rest_zero]
  | k + 1, hk, h, x => by
    rw [mcheb_shape (k := k) (by omega) ⟨h.1, fun j hj => h.2 j (by omega)⟩ x, rest_succ (by rw [h.1]; omega),
      h.2 k (by omega), cheb_zero, one_mul]

theorem mcheb_set {n k : ℕ} (hk : k < n) {a : List ℕ} (h : Shape n (k + 1) a) (i : ℕ) (x : ℕ → ℝ) :
    Shape n k (a.set k i) ∧ mcheb (a.set k i) x = cheb i (x k) * mcheb a x := by
  have hs : Shape n k (a.set k i) := by
    refine ⟨by rw [List.length_set, h.1], fun j hj => ?_⟩
    rw [List.getD_eq_getElem?_getD, List.getElem?_set_ne (by omega), ← List.getD_eq_getElem?_getD]
    exact h.2 j (by omega)
  refine ⟨hs, ?_⟩
  have hl : k < (a.set k i).length := by rw [List.length_set, h.1]; exact hk
  rw [mcheb_shape (by omega) hs, mcheb_shape (by omega) h, rest_succ hl]
  congr 1
  · rw [List.getD_eq_getElem?_getD, List.getElem?_set_self (by rw [h.1]; exact hk)]; rfl
  · unfold rest; rw [List.drop_set_of_lt (by omega)]

/-- the terms used by a call of `_mul_from` with `d` variables left, and those after -/
def used (d k : ℕ) (t : List ℕ × X) (l : Terms (List ℕ) X) : Terms (List ℕ) X :=
  match d with
  | 0 => [t]
  | _ + 1 => (t :: l).takeWhile (agree k t.1)
/-- see `used` -/
def after (d k : ℕ) (t : List ℕ × X) (l : Terms (List ℕ) X) : Terms (List ℕ) X :=
  match d with
  | 0 => l
  | _ + 1 => (t :: l).dropWhile (agree k t.1)

theorem used_facts (d k : ℕ) (t : List ℕ × X) (l : Terms (List ℕ) X) :
    t :: l = used d k t l ++ after d k t l ∧ (∀ s ∈ used d k t l, agree k t.1 s = true) ∧
    (after d k t l).length ≤ l.length := by
  cases d with
  | zero => exact ⟨rfl, fun s hs => by rw [List.mem_singleton.1 hs, agree_iff], le_rfl⟩
  | succ d =>
    refine ⟨(List.takeWhile_append_dropWhile).symm, fun s hs => List.mem_takeWhile_imp hs, ?_⟩
    unfold after
    rw [List.dropWhile_cons_of_pos (by rw [agree_iff])]
    exact (List.dropWhile_sublist _).length_le

/-- what a call of `_mul_from` from the variable `k` on does when it succeeds -/
def MulSpec (E : X → ℝ → Prop) (n d k : ℕ)
    (F : Terms (List ℕ) X → Terms (List ℕ) X → Option (Terms (List ℕ) X × Terms (List ℕ) X × Terms (List ℕ) X)) : Prop :=
  ∀ t1 l1 t2 l2 p r1 r2, (∀ s ∈ t1 :: l1, s.1.length = n) → (∀ s ∈ t2 :: l2, s.1.length = n) →
    F (t1 :: l1) (t2 :: l2) = some (p, r1, r2) →
    r1 = after d k t1 l1 ∧ r2 = after d k t2 l2 ∧
    ∀ f1 f2, Denotes E (rest k) (used d k t1 l1) f1 → Denotes E (rest k) (used d k t2 l2) f2 →
      Denotes E mcheb p (fun x => f1 x * f2 x) ∧ ∀ s ∈ p, Shape n k s.1

/-- what a place of the buffer denotes -/
def Place (E : X → ℝ → Prop) (n k : ℕ) (β : Terms (List ℕ) X) (f : (ℕ → ℝ) → ℝ) : Prop :=
  Denotes E mcheb β f ∧ ∀ s ∈ β, Shape n (k + 1) s.1

theorem place_add (h : Sound A E E') {n k : ℕ} {p : Terms (List ℕ) X} {f : (ℕ → ℝ) → ℝ} (hp : Place E n k p f)
    (β : Terms (List ℕ) X) (g : (ℕ → ℝ) → ℝ) (hβ : Place E n k β g) :
    Place E n k (add A less β p) (fun x => g x + f x) :=
  ⟨add_denotes h less β p g f hβ.1 hp.1, add_indices hβ.2 hp.2⟩

theorem agree_neg_drop {k : ℕ} {a : List ℕ} {t : List ℕ × X} {l : Terms (List ℕ) X} (h : ¬ equalUpTo t.1 a k = true) :
    (t :: l).dropWhile (agree k a) = t :: l ∧ (t :: l).takeWhile (agree k a) = [] :=
  ⟨List.dropWhile_cons_of_neg h, List.takeWhile_cons_of_neg h⟩

section
variable {n d k : ℕ}
  {F : Terms (List ℕ) X → Terms (List ℕ) X → Option (Terms (List ℕ) X × Terms (List ℕ) X × Terms (List ℕ) X)}

theorem mulInner_sound (h : Sound A E E') (hk : k < n) (hF : MulSpec E n d (k + 1) F) (t1 : List ℕ × X)
    (l1 : Terms (List ℕ) X) (hn1 : ∀ s ∈ t1 :: l1, s.1.length = n) (a2 : List ℕ) :
    ∀ (fuel : ℕ) (curr1 curr2 : Terms (List ℕ) X) (buf : List (Terms (List ℕ) X)) (c1 c2 : Terms (List ℕ) X)
      (buf' : List (Terms (List ℕ) X)), curr2.length ≤ fuel → (∀ s ∈ curr2, s.1.length = n) →
    mulInner A F k (t1 :: l1) a2 fuel curr1 curr2 buf = some (c1, c2, buf') →
    c2 = curr2.dropWhile (agree k a2) ∧
    ((curr1 = after d (k + 1) t1 l1 ∨ ∃ s l, curr2 = s :: l ∧ agree k a2 s = true) → c1 = after d (k + 1) t1 l1) ∧
    ∀ S f1 g2, Denotes E (rest (k + 1)) (used d (k + 1) t1 l1) f1 → DenBuf (Place E n k) (fun i x => cheb i (x k)) 0 buf S →
      Denotes E (rest k) (curr2.takeWhile (agree k a2)) g2 →
      DenBuf (Place E n k) (fun i x => cheb i (x k)) 0 buf'
        (fun x => S x + 2 * (cheb (t1.1.getD k 0) (x k) * f1 x) * g2 x) := by
  intro fuel
  induction fuel with
  | zero =>
    intro curr1 curr2 buf c1 c2 buf' hl _ he
    have : curr2 = [] := List.eq_nil_of_length_eq_zero (by omega)
    subst this
    simp only [mulInner, Option.some.injEq, Prod.mk.injEq] at he
    obtain ⟨rfl, rfl, rfl⟩ := he
    refine ⟨rfl, ?_, fun S f1 g2 _ hS hg => hS.congr fun x => by rw [hg x]; ring⟩
    rintro (h | ⟨s, l, h, _⟩)
    · exact h
    · cases h
  | succ fuel ih =>
    intro curr1 curr2 buf c1 c2 buf' hl hn2 he
    cases curr2 with
    | nil =>
      simp only [mulInner, Option.some.injEq, Prod.mk.injEq] at he
      obtain ⟨rfl, rfl, rfl⟩ := he
      refine ⟨rfl, ?_, fun S f1 g2 _ hS hg => hS.congr fun x => by rw [hg x]; ring⟩
      rintro (h | ⟨s, l, h, _⟩)
      · exact h
      · cases h
    | cons t2 l2 =>
      by_cases hq : equalUpTo t2.1 a2 k = true
      · have hq' : t2.1.take k = a2.take k := agree_iff (s := t2).1 hq
        unfold mulInner at he
        rw [if_pos hq] at he
        simp only at he
        cases hc : F (t1 :: l1) (t2 :: l2) with
        | none => rw [hc] at he; cases he
        | some pr =>
          obtain ⟨p, r1, r2⟩ := pr
          rw [hc] at he
          simp only at he
          obtain ⟨e1, e2, hden⟩ := hF t1 l1 t2 l2 p r1 r2 hn1 hn2 hc
          cases hb : (bufAdd (add A less) buf (absDiff (t1.1.getD k 0) (t2.1.getD k 0)) p).bind fun b =>
              bufAdd (add A less) b (t1.1.getD k 0 + t2.1.getD k 0) p with
          | none => rw [hb] at he; cases he
          | some bufm =>
            rw [hb] at he
            simp only at he
            obtain ⟨us, ua, ul⟩ := used_facts d (k + 1) t2 l2
            have hng : ∀ s ∈ used d (k + 1) t2 l2, s.1.length = n := fun s hs =>
              hn2 s (us ▸ List.mem_append_left _ hs)
            have hnr : ∀ s ∈ r2, s.1.length = n := fun s hs => hn2 s (us ▸ List.mem_append_right _ (e2 ▸ hs))
            obtain ⟨i1, i2, i3⟩ := ih r1 r2 bufm c1 c2 buf' (by rw [e2]; simp only [List.length_cons] at hl; omega) hnr he
            obtain ⟨st, sd⟩ := split_group (q := agree k a2) us (fun s hs => agree_succ (ua s hs) hq')
            refine ⟨by rw [i1, sd, e2], fun _ => i2 (Or.inl e1), fun S f1 g2 h1 hS hg => ?_⟩
            rw [st] at hg
            obtain ⟨g, g', hg1, hg2, eg⟩ := denotes_append.1 hg
            obtain ⟨f', hf', ef⟩ := group_factor hk hng (fun s hs => agree_getD (ua s hs)) hg1
            have hp : Place E n k p (fun x => f1 x * f' x) := hden f1 f' h1 hf'
            obtain ⟨b1, hb1, hb2⟩ := Option.bind_eq_some_iff.1 hb
            have hd := denBuf_add (place_add h hp) hb2 (denBuf_add (place_add h hp) hb1 hS)
            have := i3 _ f1 g' h1 hd (by rw [e2]; exact hg2)
            refine this.congr fun x => ?_
            simp only [Nat.zero_add]
            rw [eg x, ef x]
            have := cheb_mul (t1.1.getD k 0) (t2.1.getD k 0) (x k)
            unfold absDiff
            linear_combination (f1 x * f' x) * this
      · unfold mulInner at he
        rw [if_neg hq] at he
        simp only [Option.some.injEq, Prod.mk.injEq] at he
        obtain ⟨rfl, rfl, rfl⟩ := he
        have hd := agree_neg_drop (X := X) (l := l2) hq
        refine ⟨hd.1.symm, ?_, fun S f1 g2 _ hS hg => ?_⟩
        · rintro (h | ⟨s, l, h, h'⟩)
          · exact h
          · cases h; exact absurd h' hq
        · rw [hd.2] at hg
          exact hS.congr fun x => by rw [hg x]; ring

theorem mulOuter_sound (h : Sound A E E') (hk : k < n) (hF : MulSpec E n d (k + 1) F) (a1 : List ℕ) (t2 : List ℕ × X)
    (l2 : Terms (List ℕ) X) (hn2 : ∀ s ∈ t2 :: l2, s.1.length = n) :
    ∀ (fuel : ℕ) (from1 curr2 : Terms (List ℕ) X) (buf : List (Terms (List ℕ) X)) (r1 c2 : Terms (List ℕ) X)
      (buf' : List (Terms (List ℕ) X)), from1.length ≤ fuel → (∀ s ∈ from1, s.1.length = n) →
    mulOuter A F k a1 (t2 :: l2) t2.1 fuel from1 curr2 buf = some (r1, c2, buf') →
    r1 = from1.dropWhile (agree k a1) ∧
    ((curr2 = (t2 :: l2).dropWhile (agree k t2.1) ∨ ∃ s l, from1 = s :: l ∧ agree k a1 s = true) →
      c2 = (t2 :: l2).dropWhile (agree k t2.1)) ∧
    ∀ S g1 g2, Denotes E (rest k) (from1.takeWhile (agree k a1)) g1 →
      Denotes E (rest k) ((t2 :: l2).takeWhile (agree k t2.1)) g2 →
      DenBuf (Place E n k) (fun i x => cheb i (x k)) 0 buf S →
      DenBuf (Place E n k) (fun i x => cheb i (x k)) 0 buf' (fun x => S x + 2 * g1 x * g2 x) := by
  intro fuel
  induction fuel with
  | zero =>
    intro from1 curr2 buf r1 c2 buf' hl _ he
    have : from1 = [] := List.eq_nil_of_length_eq_zero (by omega)
    subst this
    simp only [mulOuter, Option.some.injEq, Prod.mk.injEq] at he
    obtain ⟨rfl, rfl, rfl⟩ := he
    refine ⟨rfl, ?_, fun S g1 g2 hg _ hS => hS.congr fun x => by rw [hg x]; ring⟩
    rintro (h | ⟨s, l, h, _⟩)
    · exact h
    · cases h
  | succ fuel ih =>
    intro from1 curr2 buf r1 c2 buf' hl hn1 he
    cases from1 with
    | nil =>
      simp only [mulOuter, Option.some.injEq, Prod.mk.injEq] at he
      obtain ⟨rfl, rfl, rfl⟩ := he
      refine ⟨rfl, ?_, fun S g1 g2 hg _ hS => hS.congr fun x => by rw [hg x]; ring⟩
      rintro (h | ⟨s, l, h, _⟩)
      · exact h
      · cases h
    | cons t1 l1 =>
      by_cases hq : equalUpTo t1.1 a1 k = true
      · have hq' : t1.1.take k = a1.take k := agree_iff (s := t1).1 hq
        unfold mulOuter at he
        rw [if_pos hq] at he
        cases hc : mulInner A F k (t1 :: l1) t2.1 (t2 :: l2).length (t1 :: l1) (t2 :: l2) buf with
        | none => rw [hc] at he; cases he
        | some pr =>
          obtain ⟨c1, c2', bufm⟩ := pr
          rw [hc] at he
          simp only at he
          obtain ⟨k1, k2, k3⟩ := mulInner_sound h hk hF t1 l1 hn1 t2.1 _ _ _ _ _ _ _ le_rfl hn2 hc
          have k2' := k2 (Or.inr ⟨t2, l2, rfl, by rw [agree_iff]⟩)
          obtain ⟨us, ua, ul⟩ := used_facts d (k + 1) t1 l1
          have hng : ∀ s ∈ used d (k + 1) t1 l1, s.1.length = n := fun s hs =>
            hn1 s (us ▸ List.mem_append_left _ hs)
          have hnr : ∀ s ∈ c1, s.1.length = n := fun s hs => hn1 s (us ▸ List.mem_append_right _ (k2' ▸ hs))
          obtain ⟨i1, i2, i3⟩ := ih c1 c2' bufm r1 c2 buf' (by rw [k2']; simp only [List.length_cons] at hl; omega) hnr he
          obtain ⟨st, sd⟩ := split_group (q := agree k a1) us (fun s hs => agree_succ (ua s hs) hq')
          refine ⟨by rw [i1, sd, k2'], fun _ => i2 (Or.inl k1), fun S g1 g2 h1 h2 hS => ?_⟩
          rw [st] at h1
          obtain ⟨g, g', hg1, hg2, eg⟩ := denotes_append.1 h1
          obtain ⟨f', hf', ef⟩ := group_factor hk hng (fun s hs => agree_getD (ua s hs)) hg1
          have := i3 _ g' g2 (by rw [k2']; exact hg2) h2 (k3 S f' g2 hf' hS h2)
          refine this.congr fun x => ?_
          rw [eg x, ef x]; ring
      · unfold mulOuter at he
        rw [if_neg hq] at he
        simp only [Option.some.injEq, Prod.mk.injEq] at he
        obtain ⟨rfl, rfl, rfl⟩ := he
        have hd := agree_neg_drop (X := X) (l := l1) hq
        refine ⟨hd.1.symm, ?_, fun S g1 g2 hg _ hS => ?_⟩
        · rintro (h | ⟨s, l, h, h'⟩)
          · exact h
          · cases h; exact absurd h' hq
        · rw [hd.2] at hg
          exact hS.congr fun x => by rw [hg x]; ring

theorem collect_sound (h : Sound A E E') (hk : k < n) : ∀ (buf : List (Terms (List ℕ) X)) (i : ℕ) (S : (ℕ → ℝ) → ℝ),
    DenBuf (Place E n k) (fun i x => cheb i (x k)) i buf S →
    Denotes E mcheb (collect A k i buf) (fun x => S x / 2)
  | [], _, S, hS => fun x => by simp only []; rw [hS x]; simp
  | β :: buf, i, S, ⟨f, g, hf, hg, e⟩ => by
    have h1 := hf.1.map (φ := fun t => (t.1.set k i, A.hlf t.2)) (b' := mcheb) (s := 1 / 2)
      (w := fun x => cheb i (x k))
      (fun t c hc => by have := h.hlf hc; rwa [show (1 : ℝ) / 2 * c = c / 2 by ring])
      (fun t ht x => (mcheb_set hk (hf.2 t ht) i x).2)
    exact denotes_append.2 ⟨_, _, h1, collect_sound h hk buf (i + 1) g hg, fun x => by rw [e x]; ring⟩

theorem collect_shape (hk : k < n) : ∀ (buf : List (Terms (List ℕ) X)) (i : ℕ) (S : (ℕ → ℝ) → ℝ),
    DenBuf (Place E n k) (fun i x => cheb i (x k)) i buf S → ∀ s ∈ collect A k i buf, Shape n k s.1
  | [], _, _, _, s, hs => by cases hs
  | β :: buf, i, _, ⟨f, g, hf, hg, _⟩, s, hs => by
    rcases List.mem_append.1 hs with hs | hs
    · obtain ⟨t, ht, rfl⟩ := List.mem_map.1 hs
      exact (mcheb_set hk (hf.2 t ht) i (fun _ => 0)).1
    · exact collect_shape hk buf (i + 1) g hg s hs

end

theorem mulFrom_sound (h : Sound A E E') {same : X → X → Bool}
    (hs : ∀ {c v}, same c (A.nat 0) = true → E c v → v = 0) (n : ℕ) :
    ∀ d k, k + d = n → MulSpec E n d k (mulFrom A same d k)
  | 0, k, hk, t1, l1, t2, l2, p, r1, r2, hn1, hn2, he => by
    simp only [mulFrom, Option.some.injEq, Prod.mk.injEq] at he
    obtain ⟨rfl, rfl, rfl⟩ := he
    have m1 := hn1 t1 List.mem_cons_self
    have m2 := hn2 t2 List.mem_cons_self
    refine ⟨rfl, rfl, fun f1 f2 h1 h2 => ?_⟩
    obtain ⟨c1, g1, hc1, hg1, e1⟩ := h1
    obtain ⟨c2, g2, hc2, hg2, e2⟩ := h2
    have hval : ∀ x, f1 x * f2 x = c1 * c2 := fun x => by
      rw [e1 x, e2 x, hg1 x, hg2 x, rest_length (by omega), rest_length (by omega)]; ring
    have hc := h.mul hc1 hc2
    by_cases hz : same (A.mul t1.2 t2.2) (A.nat 0) = true
    · rw [if_pos hz]
      exact ⟨fun x => (hval x).trans (hs hz hc), fun s hs => by cases hs⟩
    · rw [if_neg hz]
      have hsh : Shape n n (List.replicate t1.1.length 0) :=
        ⟨by rw [List.length_replicate, m1], fun j hj => by
          rw [List.getD_eq_getElem?_getD, List.getElem?_replicate, if_pos (by omega)]; rfl⟩
      refine ⟨⟨c1 * c2, _, hc, denotes_nil, fun x => ?_⟩, fun s hs => ?_⟩
      · refine (hval x).trans ?_
        rw [mcheb_shape le_rfl hsh x, rest_length (by rw [List.length_replicate, m1])]; ring
      · rw [List.mem_singleton.1 hs, show k = n by omega]; exact hsh
  | d + 1, k, hk, t1, l1, t2, l2, p, r1, r2, hn1, hn2, he => by
    unfold mulFrom at he
    simp only at he
    by_cases hi : 65535 ≤ lastDegree k t1.1 (t1 :: l1) + lastDegree k t2.1 (t2 :: l2)
    · rw [if_pos hi] at he; cases he
    · rw [if_neg hi] at he
      cases ho : mulOuter A (mulFrom A same d (k + 1)) k t1.1 (t2 :: l2) t2.1 (l1.length + 1) (t1 :: l1) (t2 :: l2)
          (List.replicate (lastDegree k t1.1 (t1 :: l1) + lastDegree k t2.1 (t2 :: l2) + 1) []) with
      | none => rw [ho] at he; cases he
      | some pr =>
        obtain ⟨q1, q2, buf⟩ := pr
        rw [ho] at he
        simp only [Option.some.injEq, Prod.mk.injEq] at he
        obtain ⟨rfl, rfl, rfl⟩ := he
        have hkn : k < n := by omega
        obtain ⟨k1, k2, k3⟩ := mulOuter_sound h hkn (mulFrom_sound h hs n d (k + 1) (by omega)) t1.1 t2 l2 hn2
          (l1.length + 1) _ _ _ _ _ _ (by simp) hn1 ho
        refine ⟨k1, k2 (Or.inr ⟨t1, l1, rfl, by rw [agree_iff]⟩), fun f1 f2 h1 h2 => ?_⟩
        have hz : Place E n k ([] : Terms (List ℕ) X) (fun _ => 0) := ⟨denotes_nil, fun s hs => by cases hs⟩
        have hb := k3 _ f1 f2 h1 h2 (denBuf_replicate hz _ 0)
        exact ⟨(collect_sound h hkn buf 0 _ hb).congr fun x => by ring, collect_shape hkn buf 0 _ hb⟩

/-- **C94** The product, when it is defined, denotes the product of the functions, whatever the order of the terms. -/
theorem C94_mul (h : Sound A E E') {same : X → X → Bool} (hs : ∀ {c v}, same c (A.nat 0) = true → E c v → v = 0) {n : ℕ}
    (hn : 0 < n) {l1 l2 p : Terms (List ℕ) X} (hn1 : ∀ s ∈ l1, s.1.length = n) (hn2 : ∀ s ∈ l2, s.1.length = n)
    (hp : mul A same n l1 l2 = some p) {f1 f2 : (ℕ → ℝ) → ℝ} (h1 : Denotes E mcheb l1 f1) (h2 : Denotes E mcheb l2 f2) :
    Denotes E mcheb p (fun x => f1 x * f2 x) ∧ ∀ s ∈ p, s.1.length = n := by
  obtain ⟨⟨p', r1, r2⟩, hp', rfl⟩ := Option.map_eq_some_iff.1 hp
  match l1, l2, hn1, hn2, h1, h2 with
  | [], _, _, _, _, _ => cases n <;> cases hp'
  | _ :: _, [], _, _, _, _ => cases n <;> cases hp'
  | t1 :: l1, t2 :: l2, hn1, hn2, h1, h2 =>
    obtain ⟨_, _, hd⟩ := mulFrom_sound h hs n n 0 (by omega) t1 l1 t2 l2 p' r1 r2 hn1 hn2 hp'
    have hu : ∀ (t : List ℕ × X) (l : Terms (List ℕ) X), used n 0 t l = t :: l := fun t l => by
      obtain ⟨m, rfl⟩ : ∃ m, n = m + 1 := ⟨n - 1, by omega⟩
      unfold used
      rw [List.takeWhile_eq_self_iff]; intro s _; rw [agree_iff]; simp
    rw [show rest 0 = mcheb from funext rest_zero, hu t1 l1, hu t2 l2] at hd
    obtain ⟨a, b⟩ := hd f1 f2 h1 h2
    exact ⟨a, fun s hs => (b s hs).1⟩

/-! ## When products are defined -/

/-- Lexicographic order of indices: where they first differ the degree of the first is less. -/
def LexLe (a c : List ℕ) : Prop := ∀ k, a.take k = c.take k → a.getD k 0 ≤ c.getD k 0

/-- terms in `n` variables in lexicographic order, with degrees below 32768 -/
def Lex (n : ℕ) (l : Terms (List ℕ) X) : Prop :=
  (∀ s ∈ l, s.1.length = n ∧ ∀ j, s.1.getD j 0 < 32768) ∧ l.Pairwise fun s t => LexLe s.1 t.1

theorem Lex.suffix {n : ℕ} {l g r : Terms (List ℕ) X} (h : Lex n l) (e : l = g ++ r) : Lex n r := by
  subst e
  exact ⟨fun s hs => h.1 s (List.mem_append_right _ hs), (List.pairwise_append.1 h.2).2.1⟩

theorem foldl_last {k : ℕ} : ∀ (g : Terms (List ℕ) X) (m : ℕ), (g.Pairwise fun s t => s.1.getD k 0 ≤ t.1.getD k 0) →
    (∀ s ∈ g, s.1.getD k 0 ≤ g.foldl (fun _ t => t.1.getD k 0) m) ∧
    ((∀ s ∈ g, m ≤ s.1.getD k 0) → m ≤ g.foldl (fun _ t => t.1.getD k 0) m)
  | [], m, _ => ⟨fun s hs => (by cases hs), fun _ => le_rfl⟩
  | t :: g, m, h => by
    have h' := List.pairwise_cons.1 h
    obtain ⟨i1, i2⟩ := foldl_last g (t.1.getD k 0) h'.2
    have i3 := i2 h'.1
    refine ⟨fun s hs => ?_, fun hm => (hm t List.mem_cons_self).trans i3⟩
    rcases List.mem_cons.1 hs with rfl | hs
    · exact i3
    · exact i1 s hs

theorem lastDegree_le {n k : ℕ} {a : List ℕ} {l : Terms (List ℕ) X} (h : Lex n l) :
    (∀ s ∈ l.takeWhile (agree k a), s.1.getD k 0 ≤ lastDegree k a l) ∧ lastDegree k a l < 32768 := by
  have hp : (l.takeWhile (agree k a)).Pairwise fun s t => s.1.getD k 0 ≤ t.1.getD k 0 := by
    refine ((h.2.sublist (List.takeWhile_sublist (agree k a))).and
      (List.Pairwise.and (List.pairwise_of_forall_mem_list (r := fun s _ => agree k a s = true)
        fun s hs _ _ => List.mem_takeWhile_imp hs) (List.pairwise_of_forall_mem_list (r := fun _ t => agree k a t = true)
        fun _ _ t ht => List.mem_takeWhile_imp ht))).imp ?_
    rintro s t ⟨h1, h2, h3⟩
    exact h1 k ((agree_iff.1 h2).trans (agree_iff.1 h3).symm)
  have e : lastDegree k a l = (l.takeWhile (agree k a)).foldl (fun _ t => t.1.getD k 0) 0 := rfl
  refine ⟨fun s hs => ?_, ?_⟩
  · rw [e]; exact (foldl_last _ 0 hp).1 s hs
  · rw [e]
    have : ∀ (g : Terms (List ℕ) X) (m : ℕ), m < 32768 → (∀ s ∈ g, s.1.getD k 0 < 32768) →
        g.foldl (fun _ t => t.1.getD k 0) m < 32768 := by
      intro g
      induction g with
      | nil => intro m hm _; exact hm
      | cons t g ih =>
        intro m _ hg
        exact ih _ (hg t List.mem_cons_self) fun s hs => hg s (List.mem_cons_of_mem _ hs)
    exact this _ 0 (by norm_num) fun s hs => (h.1 s ((List.takeWhile_sublist _).subset hs)).2 k

section
variable {n d k : ℕ}
  {F : Terms (List ℕ) X → Terms (List ℕ) X → Option (Terms (List ℕ) X × Terms (List ℕ) X × Terms (List ℕ) X)}

theorem mulInner_total (hF : MulSpec E n d (k + 1) F)
    (hT : ∀ t1 l1 t2 l2, Lex n (t1 :: l1) → Lex n (t2 :: l2) → ∃ r, F (t1 :: l1) (t2 :: l2) = some r)
    {t1 : List ℕ × X} {l1 : Terms (List ℕ) X} (h1 : Lex n (t1 :: l1)) {m1 m2 : ℕ} (hm1 : t1.1.getD k 0 ≤ m1)
    (a2 : List ℕ) :
    ∀ (fuel : ℕ) (curr1 curr2 : Terms (List ℕ) X) (buf : List (Terms (List ℕ) X)), Lex n curr2 →
    (∀ s ∈ curr2.takeWhile (agree k a2), s.1.getD k 0 ≤ m2) → buf.length = m1 + m2 + 1 →
    ∃ r, mulInner A F k (t1 :: l1) a2 fuel curr1 curr2 buf = some r ∧ r.2.2.length = m1 + m2 + 1 := by
  intro fuel
  induction fuel with
  | zero => intro curr1 curr2 buf _ _ hb; exact ⟨_, rfl, hb⟩
  | succ fuel ih =>
    intro curr1 curr2 buf h2 hm2 hb
    cases curr2 with
    | nil => exact ⟨_, rfl, hb⟩
    | cons t2 l2 =>
      by_cases hq : equalUpTo t2.1 a2 k = true
      · have hq' : t2.1.take k = a2.take k := agree_iff (s := t2).1 hq
        obtain ⟨⟨p, r1, r2⟩, hc⟩ := hT t1 l1 t2 l2 h1 h2
        obtain ⟨e1, e2, _⟩ := hF t1 l1 t2 l2 p r1 r2 (fun s hs => (h1.1 s hs).1) (fun s hs => (h2.1 s hs).1) hc
        obtain ⟨us, ua, _⟩ := used_facts d (k + 1) t2 l2
        obtain ⟨st, _⟩ := split_group (q := agree k a2) us (fun s hs => agree_succ (ua s hs) hq')
        have hk2 : t2.1.getD k 0 ≤ m2 := hm2 t2 (by
          rw [List.takeWhile_cons_of_pos (by exact hq)]; exact List.mem_cons_self)
        obtain ⟨b1, eb1, lb1⟩ := bufAdd_isSome (add A less) (buf := buf)
          (j := absDiff (t1.1.getD k 0) (t2.1.getD k 0)) p (by unfold absDiff; omega)
        obtain ⟨b2, eb2, lb2⟩ := bufAdd_isSome (add A less) (buf := b1)
          (j := t1.1.getD k 0 + t2.1.getD k 0) p (by omega)
        obtain ⟨r, er, lr⟩ := ih r1 r2 b2 (h2.suffix (by rw [e2]; exact us))
          (fun s hs => hm2 s (by rw [st]; exact List.mem_append_right _ (e2 ▸ hs))) (by omega)
        refine ⟨r, ?_, lr⟩
        unfold mulInner
        rw [if_pos hq]
        simp only [hc, eb1, Option.bind_some, eb2]
        exact er
      · refine ⟨(curr1, t2 :: l2, buf), ?_, hb⟩
        unfold mulInner
        rw [if_neg hq]

theorem mulOuter_total (h : Sound A E E') (hk : k < n) (hF : MulSpec E n d (k + 1) F)
    (hT : ∀ t1 l1 t2 l2, Lex n (t1 :: l1) → Lex n (t2 :: l2) → ∃ r, F (t1 :: l1) (t2 :: l2) = some r) (a1 : List ℕ)
    {t2 : List ℕ × X} {l2 : Terms (List ℕ) X} (h2 : Lex n (t2 :: l2)) {m1 m2 : ℕ}
    (hm2 : ∀ s ∈ (t2 :: l2).takeWhile (agree k t2.1), s.1.getD k 0 ≤ m2) :
    ∀ (fuel : ℕ) (from1 curr2 : Terms (List ℕ) X) (buf : List (Terms (List ℕ) X)), Lex n from1 →
    (∀ s ∈ from1.takeWhile (agree k a1), s.1.getD k 0 ≤ m1) → buf.length = m1 + m2 + 1 →
    ∃ r, mulOuter A F k a1 (t2 :: l2) t2.1 fuel from1 curr2 buf = some r := by
  intro fuel
  induction fuel with
  | zero => intro from1 curr2 buf _ _ hb; exact ⟨_, rfl⟩
  | succ fuel ih =>
    intro from1 curr2 buf h1 hm1 hb
    cases from1 with
    | nil => exact ⟨_, rfl⟩
    | cons t1 l1 =>
      by_cases hq : equalUpTo t1.1 a1 k = true
      · have hq' : t1.1.take k = a1.take k := agree_iff (s := t1).1 hq
        have hk1 : t1.1.getD k 0 ≤ m1 := hm1 t1 (by
          rw [List.takeWhile_cons_of_pos (by exact hq)]; exact List.mem_cons_self)
        obtain ⟨⟨c1, c2, bufm⟩, er, lr⟩ := mulInner_total (A := A) hF hT h1 hk1 t2.1 (t2 :: l2).length (t1 :: l1)
          (t2 :: l2) buf h2 hm2 hb
        obtain ⟨_, k2, _⟩ := mulInner_sound h hk hF t1 l1 (fun s hs => (h1.1 s hs).1) t2.1 _ _ _ _ _ _ _ le_rfl
          (fun s hs => (h2.1 s hs).1) er
        have k2' := k2 (Or.inr ⟨t2, l2, rfl, by rw [agree_iff]⟩)
        obtain ⟨us, ua, _⟩ := used_facts d (k + 1) t1 l1
        obtain ⟨st, _⟩ := split_group (q := agree k a1) us (fun s hs => agree_succ (ua s hs) hq')
        obtain ⟨r, e⟩ := ih c1 c2 bufm (h1.suffix (by rw [k2']; exact us))
          (fun s hs => hm1 s (by rw [st]; exact List.mem_append_right _ (k2' ▸ hs))) lr
        refine ⟨r, ?_⟩
        unfold mulOuter
        rw [if_pos hq, er]
        exact e
      · refine ⟨(t1 :: l1, curr2, buf), ?_⟩
        unfold mulOuter
        rw [if_neg hq]

end

theorem mulFrom_total (h : Sound A E E') {same : X → X → Bool}
    (hs : ∀ {c v}, same c (A.nat 0) = true → E c v → v = 0) (n : ℕ) :
    ∀ d k, k + d = n → ∀ t1 l1 t2 l2, Lex n (t1 :: l1) → Lex n (t2 :: l2) →
      ∃ r, mulFrom A same d k (t1 :: l1) (t2 :: l2) = some r
  | 0, _, _, t1, l1, t2, l2, _, _ => ⟨_, rfl⟩
  | d + 1, k, hk, t1, l1, t2, l2, h1, h2 => by
    have d1 := lastDegree_le (k := k) (a := t1.1) h1
    have d2 := lastDegree_le (k := k) (a := t2.1) h2
    obtain ⟨⟨q1, q2, buf⟩, er⟩ := mulOuter_total (A := A) (F := mulFrom A same d (k + 1)) (n := n) (d := d) (k := k) h
      (by omega)
      (mulFrom_sound h hs n d (k + 1) (by omega)) (mulFrom_total h hs n d (k + 1) (by omega)) t1.1 h2 d2.1
      (l1.length + 1) (t1 :: l1) (t2 :: l2)
      (List.replicate (lastDegree k t1.1 (t1 :: l1) + lastDegree k t2.1 (t2 :: l2) + 1) []) h1 d1.1
      (List.length_replicate)
    refine ⟨(collect A k 0 buf, q1, q2), ?_⟩
    unfold mulFrom
    simp only
    rw [if_neg (by omega), er]

/-- **C94** The product of polynomials with terms in lexicographic order is defined. -/
theorem C94_mul_defined_partial (h : Sound A E E') {same : X → X → Bool}
    (hs : ∀ {c v}, same c (A.nat 0) = true → E c v → v = 0) {n : ℕ} {l1 l2 : Terms (List ℕ) X} (hne1 : l1 ≠ [])
    (hne2 : l2 ≠ []) (h1 : Lex n l1) (h2 : Lex n l2) : ∃ p, mul A same n l1 l2 = some p := by
  match l1, l2, hne1, hne2, h1, h2 with
  | t1 :: l1, t2 :: l2, _, _, h1, h2 =>
    obtain ⟨r, hr⟩ := mulFrom_total h hs n n 0 (by omega) t1 l1 t2 l2 h1 h2
    exact ⟨r.1, by unfold mul; rw [hr]; rfl⟩

theorem shape_replicate (n k : ℕ) : Shape n k (List.replicate n 0) :=
  ⟨List.length_replicate, fun j _ => by
    rw [List.getD_eq_getElem?_getD, List.getElem?_replicate]; split_ifs <;> rfl⟩

theorem mcheb_replicate (n : ℕ) (x : ℕ → ℝ) : mcheb (List.replicate n 0) x = 1 := by
  rw [mcheb_shape le_rfl (shape_replicate n n) x, rest_length (by rw [List.length_replicate])]

/-- **C94** The constant and the basis function of degree `k` in the variable `i`, for `k = 1` the coordinate. -/
theorem C94_constructors (h : Sound A E E') {a : X} {c : ℝ} (ha : E a c) {n i : ℕ} (hi : i < n) (k : ℕ) :
    Denotes E mcheb (constant n a) (fun _ => c) ∧ Denotes E mcheb (basis A n i k) (fun x => cheb k (x i)) := by
  refine ⟨⟨c, _, ha, denotes_nil, fun x => ?_⟩, ⟨1, _, by simpa using h.nat 1, denotes_nil, fun x => ?_⟩⟩
  · rw [mcheb_replicate]; ring
  · rw [(mcheb_set hi (shape_replicate n (i + 1)) k x).2, mcheb_replicate]; ring

/-! ## Counterexamples -/

/-- **C94** The sum of the coordinate and the constant one has its terms in the other order, and its square writes beyond the
end of a buffer. -/
theorem C94_mul_violated (same : X → X → Bool) :
    add A less (basis A 1 0 1) (constant 1 (A.nat 1)) = [([1], A.nat 1), ([0], A.nat 1)] ∧
    add A less (constant 1 (A.nat 1)) (basis A 1 0 1) = [([1], A.nat 1), ([0], A.nat 1)] ∧
    mul A same 1 [([1], A.nat 1), ([0], A.nat 1)] [([1], A.nat 1), ([0], A.nat 1)] = none := by
  exact ⟨rfl, rfl, rfl⟩

/-- **C94** A scalar cannot be added to this sum either. -/
theorem C94_add_scalar_violated (s : X) :
    addScalar A (fun a => decide (a.sum = 0)) [0] s (add A less (basis A 1 0 1) (constant 1 (A.nat 1))) = none := rfl

/-! ## The hypotheses can be met -/

open Classical in
/-- The square of the second coordinate of two, with exact coefficients -/
noncomputable example : ∃ p, mul exact (fun a c => decide (a = c)) 2 (basis exact 2 1 1) (basis exact 2 1 1) = some p ∧
    Denotes (fun a x => a = x) mcheb p (fun x => cheb 1 (x 1) * cheb 1 (x 1)) := by
  have hs : ∀ {c v : ℝ}, (fun a c => decide (a = c)) c (exact.nat 0) = true → c = v → v = 0 := fun h e => by
    have := of_decide_eq_true h; simp [exact] at this; rw [← e, this]
  have hd := (C94_constructors exact_sound (a := (0 : ℝ)) rfl (show 1 < 2 by norm_num) 1).2
  have hl : Lex 2 (basis exact 2 1 1) := by
    refine ⟨?_, List.pairwise_singleton _ _⟩
    intro s hs'
    rw [List.mem_singleton.1 hs']
    refine ⟨rfl, fun j => ?_⟩
    rcases j with _ | _ | j <;> simp
  obtain ⟨p, hp⟩ := C94_mul_defined_partial exact_sound (same := fun a c => decide (a = c)) hs (by simp [basis]) (by simp [basis]) hl hl
  exact ⟨p, hp, (C94_mul exact_sound (same := fun a c => decide (a = c)) hs (by norm_num) (fun s hs => (hl.1 s hs).1) (fun s hs => (hl.1 s hs).1) hp hd hd).1⟩

/-- `1 + T1(x0) + T1(x0) T2(x1)` -/
example : Lex 2 [([0, 0], (1 : ℝ)), ([1, 0], 1), ([1, 2], 1)] := by
  refine ⟨?_, ?_⟩
  · intro s hs
    simp only [List.mem_cons, List.not_mem_nil, or_false] at hs
    rcases hs with rfl | rfl | rfl <;> refine ⟨rfl, fun j => ?_⟩ <;> rcases j with _ | _ | j <;> simp
  · simp only [List.pairwise_cons, List.mem_cons, List.not_mem_nil, or_false, List.Pairwise.nil, and_true, forall_eq_or_imp,
      forall_eq, false_imp_iff, implies_true]
    refine ⟨⟨fun k => ?_, fun k => ?_⟩, fun k => ?_⟩ <;> rcases k with _ | _ | k <;> simp

end Verif.Chebyshev.Multi
