import Verif.TaylorModel.Range
import Verif.Numeric.Int
import Mathlib.Algebra.BigOperators.Intervals
import Mathlib.Data.Nat.Choose.Sum
import Mathlib.Analysis.Calculus.MeanValue
import Mathlib.Analysis.Calculus.Deriv.Pow

/-!
# Property C29: structural operations on Taylor models

Embedding, discarding variables, splitting the domain, differentiation and integration.
-/

namespace Verif.TaylorModel

open Ariadne (Rounding)
open Ariadne.Rounding
open Verif.Expansion
open Verif.Numeric (bin16)

variable {K : Type*} [Field K] [LinearOrder K] [IsStrictOrderedRing K]

/-! ## Model -/

/-- `cleanup`, tm lines 1278-1283: sort, combine equal indices, sweep.  `std::sort` may return the
terms in any order compatible with the comparison, so the sorted terms `q` are an argument. -/
def cleanup (R : Rounding K) (s : Sweeper K) (q : Terms (List Nat) K) (err : K) : TM K :=
  sweep R s (unique R ⟨q, err⟩)

/-- The halves selected by `SplitPart`. -/
inductive Part
  | lower
  | middle
  | upper
deriving DecidableEq

/-- The scaling loop of `_split`, tm lines 1846-1850; division by a power of two is exact. -/
def splitScale (k : Nat) (p : Terms (List Nat) K) : Terms (List Nat) K :=
  p.map (fun u => (u.1, u.2 / 2 ^ u.1.getD k 0))

/-- `TaylorModel::degree`, tm lines 534-540. -/
def modelDegree (p : Terms (List Nat) K) : Nat := p.foldl (fun d u => max d (degree u.1)) 0

/-- The array of models by degree in variable `k`, tm lines 1858-1865. -/
def splitArray (k : Nat) (p : Terms (List Nat) K) (j : Nat) : Terms (List Nat) K :=
  (p.filter (fun u => u.1.getD k 0 = j)).map (fun u => (u.1.set k 0, u.2))

/-- `for(iter...) ++iter->index()[k]`, tm lines 1876-1878. -/
def incrIndex (k : Nat) (p : Terms (List Nat) K) : Terms (List Nat) K :=
  p.map (fun u => (u.1.set k (wrap (u.1.getD k 0 + 1)), u.2))

/-- The scalar of tm lines 1873-1874. -/
def splitCoef (up : Bool) (i j : Nat) : Option Int :=
  (bin16 j i).map (fun b : Nat => if up = false ∧ (j - i) % 2 = 1 then -(b : Int) else (b : Int))

/-- The inner loop of `_split`, tm lines 1872-1879: `m` iterations starting with `j`; `none` is the
failed assertion in `bin`.  The integer is converted to a number exactly. -/
def splitInner (R : Rounding K) (s : Sweeper K) (up : Bool) (k i : Nat) :
    Nat → Nat → TM K × (Nat → Terms (List Nat) K) → Option (TM K × (Nat → Terms (List Nat) K))
  | 0, _, st => some st
  | m + 1, j, st =>
    match splitCoef up i j with
    | none => none
    | some c =>
      splitInner R s up k i m (j + 1)
        (add R s st.1 (scal R ⟨st.2 j, 0⟩ (Num.exact (c : K))),
          Function.update st.2 j (incrIndex k (st.2 j)))

/-- The outer loop of `_split`, tm lines 1871-1880: `m` iterations starting with `i`. -/
def splitOuter (R : Rounding K) (s : Sweeper K) (up : Bool) (k deg : Nat) :
    Nat → Nat → TM K × (Nat → Terms (List Nat) K) → Option (TM K × (Nat → Terms (List Nat) K))
  | 0, _, st => some st
  | m + 1, i, st =>
    match splitInner R s up k i (deg + 1 - i) i st with
    | none => none
    | some st => splitOuter R s up k deg m (i + 1) st

/-- `_split`, tm lines 1837-1883. -/
def split (R : Rounding K) (s : Sweeper K) (k : Nat) (h : Part) (t : TM K) : Option (TM K) :=
  let p := splitScale k t.terms
  match h with
  | .middle => some ⟨p, t.err⟩
  | _ =>
    let deg := modelDegree p
    (splitOuter R s (h == .upper) k deg (deg + 1) 0 (⟨[], t.err⟩, splitArray k p)).map Prod.fst

/-! ## Monomials -/

theorem monomial_set_set (z : List K) (a : List Nat) (k : Nat) (hz : k < z.length)
    (ha : k < a.length) (y : K) (i : Nat) :
    monomial (z.set k y) (a.set k i) = monomial z (a.set k 0) * y ^ i := by
  induction k generalizing z a with
  | zero =>
    match z, a, hz, ha with
    | w :: z, b :: a, _, _ => simp [monomial_cons]; ring
  | succ k ih =>
    match z, a, hz, ha with
    | w :: z, b :: a, hz, ha =>
      simp only [List.set_cons_succ, monomial_cons]
      rw [ih z a (by simpa using hz) (by simpa using ha)]
      ring

theorem set_getD_self {α : Type*} (l : List α) (k : Nat) (d : α) : l.set k (l.getD k d) = l := by
  induction l generalizing k with
  | nil => simp
  | cons x l ih =>
    cases k with
    | zero => simp
    | succ k =>
      have := ih k
      simp only [List.set_cons_succ, List.getD_cons_succ]
      rw [this]

theorem monomial_set_left (z : List K) (a : List Nat) (k : Nat) (hz : k < z.length)
    (ha : k < a.length) (y : K) :
    monomial (z.set k y) a = monomial z (a.set k 0) * y ^ a.getD k 0 := by
  have := monomial_set_set z a k hz ha y (a.getD k 0)
  rwa [set_getD_self] at this

theorem monomial_set_right (z : List K) (a : List Nat) (k : Nat) (hz : k < z.length)
    (ha : k < a.length) (i : Nat) :
    monomial z (a.set k i) = monomial z (a.set k 0) * z.getD k 0 ^ i := by
  have := monomial_set_set z a k hz ha (z.getD k 0) i
  rwa [set_getD_self] at this

theorem inBox_set {n : Nat} {z : List K} (hz : InBox n z) (k : Nat) {y : K} (hy : |y| ≤ 1) :
    InBox n (z.set k y) := by
  refine ⟨by simpa using hz.1, ?_⟩
  intro w hw
  rcases List.mem_or_eq_of_mem_set hw with h | h
  · exact hz.2 w h
  · rw [h]; exact hy

theorem inBox_getD {n : Nat} {z : List K} (hz : InBox n z) (k : Nat) : |z.getD k 0| ≤ 1 := by
  rw [List.getD_eq_getElem?_getD]
  cases h : z[k]? with
  | none => simp
  | some y => simpa using hz.2 y (List.mem_of_getElem? h)

theorem value_congr {m m' : List Nat → K} {p : Terms (List Nat) K}
    (h : ∀ u ∈ p, m u.1 = m' u.1) : value m p = value m' p := by
  unfold value
  congr 1
  apply List.map_congr_left
  intro u hu
  rw [h u hu]

theorem value_map_index (m : List Nat → K) (g : List Nat → List Nat) (p : Terms (List Nat) K) :
    value m (p.map (fun u => (g u.1, u.2))) = value (fun a => m (g a)) p := by
  unfold value
  rw [List.map_map]
  rfl

theorem value_mul_right (m : List Nat → K) (c : K) (p : Terms (List Nat) K) :
    value (fun a => m a * c) p = value m p * c := by
  induction p with
  | nil => simp
  | cons u p ih => rw [value_cons, value_cons, ih]; ring

section
variable (R : Rounding K)

/-! ## Embedding -/

theorem uniqueAbsorb_ok (m : List Nat → K) (hm : ∀ a, |m a| ≤ 1) (a : List Nat) (v : K)
    (p : Terms (List Nat) K) (e : K) :
    |v * m a + value m p - ((uniqueAbsorb R a v p e).1 * m a +
      value m (uniqueAbsorb R a v p e).2.1)| ≤ (uniqueAbsorb R a v p e).2.2 - e := by
  induction p generalizing v e with
  | nil => simp [uniqueAbsorb]
  | cons u p ih =>
    obtain ⟨b, c⟩ := u
    unfold uniqueAbsorb
    by_cases h : b = a
    · rw [if_pos h, h]
      have h1 := ih (addErr R v c e).1 (addErr R v c e).2
      have h2 := addErr_ok R v c e
      have h3 : |((addErr R v c e).1 - (v + c)) * m a| ≤ (addErr R v c e).2 - e := by
        rw [abs_mul]
        exact (mul_le_of_le_one_right (abs_nonneg _) (hm a)).trans h2
      rw [value_cons]
      rw [abs_le] at h1 h3 ⊢
      constructor <;> nlinarith [h1.1, h1.2, h3.1, h3.2]
    · rw [if_neg h]
      simp

theorem uniqueAbsorb_length (a : List Nat) (v : K) (p : Terms (List Nat) K) (e : K) :
    (uniqueAbsorb R a v p e).2.1.length ≤ p.length := by
  induction p generalizing v e with
  | nil => simp [uniqueAbsorb]
  | cons u p ih =>
    obtain ⟨b, c⟩ := u
    unfold uniqueAbsorb
    by_cases h : b = a
    · rw [if_pos h]
      exact (ih _ _).trans (by simp)
    · rw [if_neg h]

theorem uniqueF_ok (m : List Nat → K) (hm : ∀ a, |m a| ≤ 1) (N : Nat) (p : Terms (List Nat) K)
    (hN : p.length ≤ N) (e : K) :
    |value m p - value m (uniqueF R N p e).1| ≤ (uniqueF R N p e).2 - e := by
  induction N generalizing p e with
  | zero =>
    have : p = [] := List.length_eq_zero_iff.1 (by omega)
    subst this
    simp [uniqueF]
  | succ N ih =>
    match p with
    | [] => simp [uniqueF]
    | (a, c) :: p =>
      unfold uniqueF
      simp only
      have h1 := uniqueAbsorb_ok R m hm a c p e
      have h2 := ih (uniqueAbsorb R a c p e).2.1
        ((uniqueAbsorb_length R a c p e).trans (by simpa using hN)) (uniqueAbsorb R a c p e).2.2
      rw [value_cons, value_cons]
      rw [abs_le] at h1 h2 ⊢
      constructor <;> linarith [h1.1, h1.2, h2.1, h2.2]

/-- Sorting, combining equal indices and sweeping keep every enclosed function. -/
theorem cleanup_ok (n : Nat) (s : Sweeper K) (t : TM K) (q : Terms (List Nat) K)
    (hq : q.Perm t.terms) (f : List K → K) (h : Encloses n t f) :
    Encloses n (cleanup R s q t.err) f := by
  apply C26_sweep
  intro x hx
  have h1 := h x hx
  have h2 := uniqueF_ok R (monomial x) (abs_monomial_le x hx.2) q.length q le_rfl 0
  have h3 := R.le_up (t.err + (uniqueF R q.length q 0).2)
  rw [← value_perm _ hq] at h1
  unfold unique
  simp only
  rw [abs_le] at h1 h2 ⊢
  constructor <;> linarith [h1.1, h1.2, h2.1, h2.2]

/-- **C29** (embed): embedding in a space with `as1` variables before and `as3` after encloses the
function of the middle variables, whatever order the sort leaves equal indices in. -/
theorem C29_embed (n as1 as3 : Nat) (s : Sweeper K) (t : TM K) (ht : WF n t)
    (q : Terms (List Nat) K) (hq : q.Perm (embed as1 as3 t.terms)) (f : List K → K)
    (h : Encloses n t f) :
    Encloses (as1 + n + as3) (cleanup R s q t.err) (fun x => f ((x.drop as1).take n)) := by
  apply cleanup_ok R _ s ⟨embed as1 as3 t.terms, t.err⟩ q hq
  intro x hx
  have e : x = x.take as1 ++ (x.drop as1).take n ++ (x.drop as1).drop n := by
    rw [List.append_assoc, List.take_append_drop, List.take_append_drop]
  have hl := hx.1
  have hy : ((x.drop as1).take n).length = n := by simp; omega
  have hv := C23_embed n t.terms ht (x.take as1) ((x.drop as1).take n) ((x.drop as1).drop n) hy
  rw [← e] at hv
  have l1 : (x.take as1).length = as1 := by simp; omega
  have l2 : ((x.drop as1).drop n).length = as3 := by simp; omega
  rw [l1, l2] at hv
  simp only
  rw [hv]
  exact h _ ⟨hy, fun y hy => hx.2 y (List.mem_of_mem_drop (List.mem_of_mem_take hy))⟩

/-- **C29** (embedding the error): the model with the error as a further variable has no error, and
represents exactly the functions that the original encloses. -/
theorem C29_embed_error (n : Nat) (t : TM K) (ht : WF n t) (f : List K → K) :
    (embedError n t).err = 0 ∧
    (0 ≤ t.err → (Encloses n t f ↔ ∃ g : List K → K, (∀ x, |g x| ≤ 1) ∧
      ∀ x, InBox n x → f x = value (monomial (x ++ [g x])) (embedError n t).terms)) := by
  refine ⟨rfl, fun he => ?_⟩
  have hval : ∀ x : List K, InBox n x → ∀ y, value (monomial (x ++ [y])) (embedError n t).terms =
      t.err * y + value (monomial x) t.terms := by
    intro x hx y
    unfold embedError
    rw [value_cons, value_map_index _ (fun a => a ++ [0])]
    congr 1
    · simp only
      rw [monomial_append _ _ _ _ (by simp [hx.1]), monomial_zero]
      simp [monomial]
    · apply value_congr
      intro u hu
      rw [monomial_append _ _ _ _ (by rw [hx.1, ht u hu])]
      simp [monomial]
  constructor
  · intro h
    refine ⟨fun x => if |(f x - value (monomial x) t.terms) / t.err| ≤ 1 then
      (f x - value (monomial x) t.terms) / t.err else 0, ?_, ?_⟩
    · intro x
      simp only
      split_ifs with h1
      · exact h1
      · simp
    · intro x hx
      have h1 := h x hx
      rw [hval x hx]
      rcases he.eq_or_lt with h0 | h0
      · rw [← h0] at h1 ⊢
        have := abs_nonpos_iff.1 h1
        simp
        linarith
      · have h2 : |(f x - value (monomial x) t.terms) / t.err| ≤ 1 := by
          rw [abs_div, abs_of_pos h0, div_le_one h0]
          exact h1
        simp only
        rw [if_pos h2, mul_div_cancel₀ _ h0.ne']
        ring
  · rintro ⟨g, hg, hf⟩ x hx
    rw [hf x hx, hval x hx, add_sub_cancel_right, abs_mul, abs_of_nonneg he]
    exact mul_le_of_le_one_right he (hg x)

/-! ## Discarding variables -/

theorem complementF_eq (m j : Nat) (vs : List Nat) (hs : vs.Pairwise (· < ·))
    (hj : ∀ v ∈ vs, j ≤ v) :
    complementF m j vs = (List.range' j m).filter (fun i => decide (i ∉ vs)) := by
  induction m generalizing j vs with
  | zero => cases vs <;> simp [complementF]
  | succ m ih =>
    cases vs with
    | nil =>
      rw [complementF, ih (j + 1) [] List.Pairwise.nil (by simp)]
      simp [List.range'_succ]
    | cons v vs =>
      obtain ⟨h1, h2⟩ := List.pairwise_cons.1 hs
      have hv := hj v (by simp)
      rw [complementF, List.range'_succ, List.filter_cons]
      by_cases h : j ≠ v
      · have hmem : j ∉ v :: vs := by
          intro hm
          rcases List.mem_cons.1 hm with e | e
          · exact h e
          · have := h1 j e; omega
        rw [if_pos h, ih (j + 1) (v :: vs) hs]
        · simp [hmem]
        · intro w hw
          rcases List.mem_cons.1 hw with rfl | hw
          · omega
          · have := h1 w hw; omega
      · have h := not_not.1 h
        subst h
        rw [if_neg (by simp), ih (j + 1) vs h2 (fun w hw => h1 w hw)]
        simp only [List.mem_cons, true_or, not_true_eq_false, decide_false, Bool.false_eq_true,
          if_false]
        apply List.filter_congr
        intro i hi
        have : i ≠ j := by simp [List.mem_range'_1] at hi; omega
        simp [this]

/-- The kept variables are the others, in increasing order. -/
theorem complement_eq (n : Nat) (vs : List Nat) (hs : vs.Pairwise (· < ·)) :
    complement n vs = (List.range n).filter (fun i => decide (i ∉ vs)) := by
  unfold complement
  rw [complementF_eq n 0 vs hs (by simp), List.range_eq_range']

theorem monomial_range (n : Nat) (x : List K) (a : List Nat) (hx : x.length = n)
    (ha : a.length = n) :
    monomial x a = ((List.range n).map (fun i => x.getD i 0 ^ a.getD i 0)).prod := by
  induction x generalizing n a with
  | nil => subst hx; simp [monomial]
  | cons y x ih =>
    cases a with
    | nil => simp at hx ha; omega
    | cons k a =>
      subst hx
      rw [monomial_cons, ih x.length a rfl (by simpa using ha), List.length_cons,
        List.range_succ_eq_map, List.map_cons, List.prod_cons, List.map_map]
      rfl

theorem prod_filter_of_one (l : List Nat) (g : Nat → K) (c : Nat → Bool)
    (h : ∀ i ∈ l, c i = false → g i = 1) : ((l.filter c).map g).prod = (l.map g).prod := by
  induction l with
  | nil => simp
  | cons i l ih =>
    have := ih (fun j hj => h j (by simp [hj]))
    by_cases hc : c i = true
    · simp [List.filter_cons, hc, this]
    · rw [Bool.not_eq_true] at hc
      simp [List.filter_cons, hc, this, h i (by simp) hc]

theorem discard_sum_ok (m : List Nat → K) (hm : ∀ a, |m a| ≤ 1) (keep : List Nat → Bool)
    (p : Terms (List Nat) K) (e : K) :
    |value m p - value m (p.filter (fun u => keep u.1))| ≤
      p.foldl (fun e u => if keep u.1 then e else R.up (e + |u.2|)) e - e := by
  induction p generalizing e with
  | nil => simp
  | cons u p ih =>
    obtain ⟨a, c⟩ := u
    rw [List.foldl_cons, List.filter_cons]
    by_cases h : keep a = true
    · simp only [h, if_true, value_cons, add_sub_add_left_eq_sub]
      exact ih e
    · simp only [h, Bool.false_eq_true, if_false, value_cons]
      have h1 := ih (R.up (e + |c|))
      have h2 := R.le_up (e + |c|)
      have h3 : |c * m a| ≤ |c| := by
        rw [abs_mul]; exact mul_le_of_le_one_right (abs_nonneg _) (hm a)
      rw [abs_le] at h1 h3 ⊢
      constructor <;> linarith [h1.1, h1.2, h3.1, h3.2]

/-- **C29** (discarding variables): at every point of the box, the function is within the error of
the new model evaluated at the remaining coordinates. -/
theorem C29_discard_variables (n : Nat) (dvs : List Nat) (hs : dvs.Pairwise (· < ·))
    (hd : ∀ v ∈ dvs, v < n) (t : TM K) (ht : WF n t) (f : List K → K) (h : Encloses n t f)
    (x : List K) (hx : InBox n x) :
    |f x - value (monomial (((List.range n).filter (fun i => decide (i ∉ dvs))).map
        (fun i => x.getD i 0))) (discardVariables R n dvs t).terms| ≤
      (discardVariables R n dvs t).err := by
  have _ := hd
  have h1 := h x hx
  have he := h.err_nonneg
  set keep : List Nat → Bool := fun a => dvs.all (fun k => a.getD k 0 = 0) with hkeep
  have h2 := discard_sum_ok R (monomial x) (abs_monomial_le x hx.2) keep t.terms |t.err|
  have hval : value (monomial (((List.range n).filter (fun i => decide (i ∉ dvs))).map
        (fun i => x.getD i 0))) (discardVariables R n dvs t).terms =
      value (monomial x) (t.terms.filter (fun u => keep u.1)) := by
    unfold discardVariables
    simp only
    rw [complement_eq n dvs hs, value_map_index _ (fun a => ((List.range n).filter
      (fun i => decide (i ∉ dvs))).map (fun k => a.getD k 0))]
    apply value_congr
    intro u hu
    obtain ⟨hu1, hu2⟩ := List.mem_filter.1 hu
    rw [monomial_range n x u.1 hx.1 (ht u hu1)]
    rw [← prod_filter_of_one (List.range n) _ (fun i => decide (i ∉ dvs))]
    · unfold monomial
      rw [List.zipWith_map]
      congr 1
      generalize ((List.range n).filter (fun i => decide (i ∉ dvs))) = l
      induction l with
      | nil => rfl
      | cons i l ih => simp [List.zipWith_cons_cons, ih]
    · intro i _ hi
      have hi : i ∈ dvs := by simpa using hi
      have := List.all_eq_true.1 hu2 i hi
      simp only [decide_eq_true_eq] at this
      rw [this, pow_zero]
  rw [hval]
  have h3 : (discardVariables R n dvs t).err = R.up (0 + t.terms.foldl
      (fun e u => if keep u.1 then e else R.up (e + |u.2|)) |t.err|) := rfl
  rw [h3]
  have h4 := R.le_up (0 + t.terms.foldl
      (fun e u => if keep u.1 then e else R.up (e + |u.2|)) |t.err|)
  rw [abs_of_nonneg he] at h2 h4 ⊢
  rw [abs_le] at h1 h2 ⊢
  constructor <;> linarith [h1.1, h1.2, h2.1, h2.2]

/-! ## Splitting -/

theorem value_splitScale (k : Nat) (p : Terms (List Nat) K) (m : List Nat → K) :
    value m (splitScale k p) = value (fun a => m a / 2 ^ a.getD k 0) p := by
  unfold value splitScale
  rw [List.map_map]
  congr 1
  apply List.map_congr_left
  intro u _
  simp only [Function.comp_apply]
  ring

/-- Scaled terms evaluated at `y` in variable `k` are the original ones evaluated at `y/2`. -/
theorem splitScale_ok (n k : Nat) (hk : k < n) (p : Terms (List Nat) K)
    (hp : ∀ u ∈ p, u.1.length = n) (z : List K) (hz : z.length = n) (y : K) :
    value (monomial (z.set k y)) (splitScale k p) = value (monomial (z.set k (y / 2))) p := by
  rw [value_splitScale]
  apply value_congr
  intro u hu
  rw [monomial_set_left z u.1 k (by omega) (by rw [hp u hu]; exact hk),
    monomial_set_left z u.1 k (by omega) (by rw [hp u hu]; exact hk), div_pow]
  ring

theorem value_incrIndex (n k : Nat) (hk : k < n) (p : Terms (List Nat) K) (i : Nat) (hi : i < 65535)
    (hp : ∀ u ∈ p, u.1.length = n ∧ u.1.getD k 0 = i) (z : List K) (hz : z.length = n) :
    value (monomial z) (incrIndex k p) = value (monomial z) p * z.getD k 0 := by
  unfold incrIndex
  rw [value_map_index _ (fun a => a.set k (wrap (a.getD k 0 + 1))), ← value_mul_right]
  apply value_congr
  intro u hu
  obtain ⟨h1, h2⟩ := hp u hu
  rw [monomial_set_right z u.1 k (by omega) (by omega)]
  have h3 := monomial_set_right z u.1 k (by omega) (by omega) (u.1.getD k 0)
  rw [set_getD_self] at h3
  rw [h3, h2]
  have : wrap (i + 1) = i + 1 := by unfold wrap; omega
  rw [this, pow_succ]
  ring

theorem getD_set_self {α : Type*} (l : List α) (k : Nat) (hk : k < l.length) (x d : α) :
    (l.set k x).getD k d = x := by
  rw [List.getD_eq_getElem?_getD, List.getElem?_set_self hk]
  rfl

theorem mem_incrIndex {n k : Nat} (hk : k < n) {p : Terms (List Nat) K} {i : Nat} (hi : i < 65535)
    (hp : ∀ u ∈ p, u.1.length = n ∧ u.1.getD k 0 = i) :
    ∀ u ∈ incrIndex k p, u.1.length = n ∧ u.1.getD k 0 = i + 1 := by
  intro u hu
  obtain ⟨v, hv, rfl⟩ := List.mem_map.1 hu
  obtain ⟨h1, h2⟩ := hp v hv
  refine ⟨by simpa using h1, ?_⟩
  rw [getD_set_self _ _ (by omega), h2]
  unfold wrap; omega

theorem scal_wf {n : Nat} {t : TM K} (ht : WF n t) (c : Num K) : WF n (scal R t c) := by
  intro u hu
  obtain ⟨v, hv, e⟩ := mem_apply1 hu
  rw [← e]
  exact ht v hv

/-- The invariant of the two loops of `_split`: `A j` is the value of the terms of degree `j` in
variable `k`, without that variable; entry `j` of the array has exponent `w j`. -/
structure SplitInv (n k : Nat) (A : Nat → List K → K) (w : Nat → Nat) (f : List K → K)
    (st : TM K × (Nat → Terms (List Nat) K)) : Prop where
  wf : WF n st.1
  enc : Encloses n st.1 f
  idx : ∀ j, ∀ u ∈ st.2 j, u.1.length = n ∧ u.1.getD k 0 = w j
  val : ∀ j z, z.length = n → value (monomial z) (st.2 j) = A j z * z.getD k 0 ^ w j

/-- The sign and size of the scalar. -/
def shiftSign (up : Bool) : K := if up then 1 else -1

theorem splitCoef_ok (up : Bool) (i j : Nat) (hij : i ≤ j) (hj : j < 16) :
    ∃ c : Int, splitCoef up i j = some c ∧
      ((c : K) = shiftSign up ^ (j - i) * (j.choose i : K)) ∧ |c| = (j.choose i : Int) := by
  have hb : bin16 j i = some (j.choose i) := by
    have := Verif.Numeric.C54_bin.1 j i
    rw [this, if_pos ⟨hj, by omega⟩]
  unfold splitCoef
  rw [hb, Option.map_some]
  refine ⟨_, rfl, ?_, ?_⟩
  · cases up with
    | true => simp [shiftSign]
    | false =>
      by_cases h : (j - i) % 2 = 1
      · have : Odd (j - i) := Nat.odd_iff.2 h
        simp [shiftSign, h, this.neg_one_pow]
      · have : Even (j - i) := Nat.even_iff.2 (by omega)
        simp [shiftSign, h, this.neg_one_pow]
  · split_ifs <;> simp

theorem choose_lt (i j : Nat) (hj : j < 16) : j.choose i < 65536 := by
  by_cases hij : i ≤ j
  · have h1 : j.choose i ≤ 2 ^ j := by
      rw [← Nat.sum_range_choose j]
      exact Finset.single_le_sum (f := fun m => j.choose m) (fun _ _ => Nat.zero_le _)
        (Finset.mem_range.2 (by omega))
    have h2 : 2 ^ j < 2 ^ 16 := Nat.pow_lt_pow_right (by norm_num) hj
    omega
  · rw [Nat.choose_eq_zero_of_lt (by omega)]; norm_num

theorem splitInner_ok (hrep : ∀ c : Int, |c| < 65536 → R.Rep (c : K)) (s : Sweeper K) (up : Bool)
    (n k : Nat) (hk : k < n) (A : Nat → List K → K) (i d : Nat) (hd : d < 16) :
    ∀ (m j : Nat) (f : List K → K) (w : Nat → Nat) (st : TM K × (Nat → Terms (List Nat) K)),
    j + m = d + 1 → i ≤ j → (∀ l, j ≤ l → l ≤ d → w l = i) → SplitInv n k A w f st →
    ∃ st', splitInner R s up k i m j st = some st' ∧
      SplitInv n k A (fun l => if j ≤ l ∧ l ≤ d then i + 1 else w l)
        (fun z => f z + ∑ l ∈ Finset.Ico j (d + 1),
          shiftSign up ^ (l - i) * (l.choose i : K) * (A l z * z.getD k 0 ^ i)) st' := by
  intro m
  induction m with
  | zero =>
    intro j f w st hjm hij hw hinv
    refine ⟨st, rfl, ?_⟩
    have h1 : (fun l => if j ≤ l ∧ l ≤ d then i + 1 else w l) = w := by
      funext l
      rw [if_neg (by omega)]
    have h2 : Finset.Ico j (d + 1) = ∅ := Finset.Ico_eq_empty (by omega)
    rw [h1, h2]
    simpa using hinv
  | succ m ih =>
    intro j f w st hjm hij hw hinv
    obtain ⟨c, hc, hcv, hca⟩ := splitCoef_ok (K := K) up i j hij (by omega)
    have hwj := hw j le_rfl (by omega)
    have hidx := hinv.idx j
    rw [hwj] at hidx
    have henc : Encloses n (⟨st.2 j, 0⟩ : TM K) (fun z => A j z * z.getD k 0 ^ i) := by
      intro z hz
      have := hinv.val j z hz.1
      rw [hwj] at this
      simp only
      rw [this, sub_self, abs_zero]
    have hrc : R.Rep (c : K) := hrep c (by rw [hca]; exact_mod_cast choose_lt i j (by omega))
    have hsc := C24_scal_exact R n _ _ henc (c : K) hrc
    have hwf : WF n (⟨st.2 j, 0⟩ : TM K) := fun u hu => (hidx u hu).1
    have hadd := C24_add R n s st.1 _ hinv.wf (scal_wf R hwf _) _ _ hinv.enc hsc
    have hnew : SplitInv n k A (Function.update w j (i + 1))
        (fun z => f z + (c : K) * (A j z * z.getD k 0 ^ i))
        (add R s st.1 (scal R ⟨st.2 j, 0⟩ (Num.exact (c : K))),
          Function.update st.2 j (incrIndex k (st.2 j))) := by
      refine ⟨C24_wf R n s _ _ _ hinv.wf (scal_wf R hwf _), hadd, ?_, ?_⟩
      · intro l u hu
        by_cases hl : l = j
        · subst hl
          simp only [Function.update_self] at hu ⊢
          exact mem_incrIndex hk (by omega) hidx u hu
        · simp only [Function.update_of_ne hl] at hu ⊢
          exact hinv.idx l u hu
      · intro l z hz
        by_cases hl : l = j
        · subst hl
          simp only [Function.update_self]
          rw [value_incrIndex n k hk _ i (by omega) hidx z hz, hinv.val l z hz, hwj, pow_succ]
          ring
        · simp only [Function.update_of_ne hl]
          exact hinv.val l z hz
    obtain ⟨st', h1, h2⟩ := ih (j + 1) _ _ _ (by omega) (by omega)
      (fun l hl hl2 => by rw [Function.update_of_ne (by omega)]; exact hw l (by omega) hl2) hnew
    refine ⟨st', ?_, ?_⟩
    · unfold splitInner
      rw [hc]
      exact h1
    · have e1 : (fun l => if j + 1 ≤ l ∧ l ≤ d then i + 1 else Function.update w j (i + 1) l) =
          (fun l => if j ≤ l ∧ l ≤ d then i + 1 else w l) := by
        funext l
        by_cases hl : l = j
        · subst hl
          rw [if_neg (by omega), Function.update_self, if_pos (by omega)]
        · rw [Function.update_of_ne hl]
          by_cases h3 : j + 1 ≤ l ∧ l ≤ d
          · rw [if_pos h3, if_pos (by omega)]
          · rw [if_neg h3, if_neg (by omega)]
      rw [e1] at h2
      have e2 : (fun z : List K => f z + (c : K) * (A j z * z.getD k 0 ^ i) +
          ∑ l ∈ Finset.Ico (j + 1) (d + 1),
            shiftSign up ^ (l - i) * (l.choose i : K) * (A l z * z.getD k 0 ^ i)) =
          (fun z => f z + ∑ l ∈ Finset.Ico j (d + 1),
            shiftSign up ^ (l - i) * (l.choose i : K) * (A l z * z.getD k 0 ^ i)) := by
        funext z
        rw [Finset.sum_eq_sum_Ico_succ_bot (by omega : j < d + 1), hcv]
        ring
      rw [e2] at h2
      exact h2

theorem splitOuter_ok (hrep : ∀ c : Int, |c| < 65536 → R.Rep (c : K)) (s : Sweeper K) (up : Bool)
    (n k : Nat) (hk : k < n) (A : Nat → List K → K) (d : Nat) (hd : d < 16) :
    ∀ (m i : Nat) (f : List K → K) (w : Nat → Nat) (st : TM K × (Nat → Terms (List Nat) K)),
    i + m = d + 1 → (∀ l, i ≤ l → l ≤ d → w l = i) → SplitInv n k A w f st →
    ∃ st', splitOuter R s up k d m i st = some st' ∧ WF n st'.1 ∧
      Encloses n st'.1 (fun z => f z + ∑ i' ∈ Finset.Ico i (d + 1), ∑ l ∈ Finset.Ico i' (d + 1),
          shiftSign up ^ (l - i') * (l.choose i' : K) * (A l z * z.getD k 0 ^ i')) := by
  intro m
  induction m with
  | zero =>
    intro i f w st him hw hinv
    refine ⟨st, rfl, hinv.wf, ?_⟩
    have h2 : Finset.Ico i (d + 1) = ∅ := Finset.Ico_eq_empty (by omega)
    rw [h2]
    simpa using hinv.enc
  | succ m ih =>
    intro i f w st him hw hinv
    obtain ⟨st1, h1, h2⟩ := splitInner_ok R hrep s up n k hk A i d hd (d + 1 - i) i f w st
      (by omega) le_rfl hw hinv
    obtain ⟨st2, h3, h4, h5⟩ := ih (i + 1) _ _ st1 (by omega)
      (fun l hl hl2 => by rw [if_pos (by omega)]) h2
    refine ⟨st2, ?_, h4, ?_⟩
    · unfold splitOuter
      rw [h1]
      exact h3
    · intro z hz
      have := h5 z hz
      beta_reduce at this ⊢
      rw [Finset.sum_eq_sum_Ico_succ_bot (by omega : i < d + 1), ← add_assoc]
      exact this

theorem modelDegree_le (p : Terms (List Nat) K) : ∀ u ∈ p, degree u.1 ≤ modelDegree p := by
  have key : ∀ (p : Terms (List Nat) K) (d : Nat),
      d ≤ p.foldl (fun d u => max d (degree u.1)) d ∧
      ∀ u ∈ p, degree u.1 ≤ p.foldl (fun d u => max d (degree u.1)) d := by
    intro p
    induction p with
    | nil => intro d; simp
    | cons v p ih =>
      intro d
      obtain ⟨h1, h2⟩ := ih (max d (degree v.1))
      rw [List.foldl_cons]
      refine ⟨(le_max_left _ _).trans h1, ?_⟩
      intro u hu
      rcases List.mem_cons.1 hu with rfl | hu
      · exact (le_max_right _ _).trans h1
      · exact h2 u hu
  exact (key p 0).2

theorem getD_le_sum (a : List Nat) (k : Nat) : a.getD k 0 ≤ a.sum := by
  induction a generalizing k with
  | nil => simp
  | cons x a ih =>
    cases k with
    | zero => simp
    | succ k => have := ih k; simp only [List.getD_cons_succ, List.sum_cons]; omega

/-- Terms grouped by their exponent in variable `k`. -/
theorem value_group (n k : Nat) (hk : k < n) (p : Terms (List Nat) K) (d : Nat)
    (hp : ∀ u ∈ p, u.1.length = n ∧ u.1.getD k 0 ≤ d) (z : List K) (hz : z.length = n) (y : K) :
    value (monomial (z.set k y)) p =
      ∑ j ∈ Finset.range (d + 1), value (monomial z) (splitArray k p j) * y ^ j := by
  induction p with
  | nil => simp [splitArray]
  | cons u p ih =>
    obtain ⟨hu1, hu2⟩ := hp u (by simp)
    rw [value_cons, ih (fun v hv => hp v (by simp [hv])),
      monomial_set_left z u.1 k (by omega) (by omega)]
    have h1 : ∀ j, value (monomial z) (splitArray k (u :: p) j) =
        (if u.1.getD k 0 = j then u.2 * monomial z (u.1.set k 0) else 0) +
          value (monomial z) (splitArray k p j) := by
      intro j
      unfold splitArray
      rw [List.filter_cons]
      by_cases h : u.1.getD k 0 = j
      · simp only [h, decide_true, if_true, List.map_cons, value_cons]
      · simp only [h, decide_false, Bool.false_eq_true, if_false, zero_add]
    have h2 : ∑ j ∈ Finset.range (d + 1), value (monomial z) (splitArray k (u :: p) j) * y ^ j =
        ∑ j ∈ Finset.range (d + 1),
          ((if u.1.getD k 0 = j then u.2 * monomial z (u.1.set k 0) * y ^ j else 0) +
          value (monomial z) (splitArray k p j) * y ^ j) := by
      apply Finset.sum_congr rfl
      intro j _
      rw [h1, add_mul]
      split_ifs <;> simp
    rw [h2, Finset.sum_add_distrib, Finset.sum_ite_eq, if_pos (Finset.mem_range.2 (by omega))]
    ring

/-- The point of the original box corresponding to a point of the box of a part. -/
def partPoint (h : Part) (y : K) : K :=
  match h with
  | .lower => (y - 1) / 2
  | .middle => y / 2
  | .upper => (y + 1) / 2

theorem partPoint_abs (h : Part) (y : K) (hy : |y| ≤ 1) : |partPoint h y| ≤ 1 := by
  obtain ⟨h1, h2⟩ := abs_le.1 hy
  rw [abs_le]
  cases h <;> simp only [partPoint] <;> constructor <;> linarith

/-- **C29** (split): each part of a model of degree less than 16 is computed without failure, and
encloses the function on the corresponding part of the domain.  Beyond that degree the lower and
upper parts fail, see `C29_split_fails`. -/
theorem C29_split (hrep : ∀ c : Int, |c| < 65536 → R.Rep (c : K)) (s : Sweeper K) (n k : Nat)
    (hk : k < n) (h : Part) (t : TM K) (ht : WF n t) (hdeg : ∀ u ∈ t.terms, u.1.sum < 16)
    (f : List K → K) (hf : Encloses n t f) :
    ∃ r, split R s k h t = some r ∧ WF n r ∧
      Encloses n r (fun z => f (z.set k (partPoint h (z.getD k 0)))) := by
  have hp : ∀ u ∈ splitScale k t.terms, u.1.length = n ∧ u.1.sum < 16 := by
    intro u hu
    obtain ⟨v, hv, rfl⟩ := List.mem_map.1 hu
    exact ⟨ht v hv, hdeg v hv⟩
  -- the error of the original model at the corresponding point
  have herr : ∀ z, InBox n z → |f (z.set k (partPoint h (z.getD k 0))) -
      value (monomial (z.set k (partPoint h (z.getD k 0)))) t.terms| ≤ t.err := fun z hz =>
    hf _ (inBox_set hz k (partPoint_abs h _ (inBox_getD hz k)))
  have side : ∀ up : Bool, (∀ y : K, partPoint h y = (y + shiftSign up) / 2) →
      ∃ st, splitOuter R s up k (modelDegree (splitScale k t.terms))
          (modelDegree (splitScale k t.terms) + 1) 0
          (⟨[], t.err⟩, splitArray k (splitScale k t.terms)) = some st ∧ WF n st.1 ∧
        Encloses n st.1 (fun z => f (z.set k (partPoint h (z.getD k 0)))) := by
    intro up hpart
    set p := splitScale k t.terms with hpdef
    set d := modelDegree p with hddef
    have hd : d < 16 := by
      have : ∀ (q : Terms (List Nat) K) (e : Nat), e < 16 → (∀ u ∈ q, degree u.1 < 16) →
          q.foldl (fun d u => max d (degree u.1)) e < 16 := by
        intro q
        induction q with
        | nil => intro e he _; exact he
        | cons u q ih =>
          intro e he hq
          rw [List.foldl_cons]
          exact ih _ (max_lt he (hq u (by simp))) (fun v hv => hq v (by simp [hv]))
      apply this p 0 (by norm_num)
      intro u hu
      have h1 := (hp u hu).2
      have hfit : Fits u.1 := by unfold Fits; omega
      rw [degree_of_fits hfit]
      exact h1
    have hpd : ∀ u ∈ p, u.1.length = n ∧ u.1.getD k 0 ≤ d := by
      intro u hu
      obtain ⟨h1, h2⟩ := hp u hu
      have h3 := modelDegree_le p u hu
      have hfit : Fits u.1 := by unfold Fits; omega
      rw [degree_of_fits hfit] at h3
      exact ⟨h1, (getD_le_sum u.1 k).trans h3⟩
    have hinv : SplitInv n k (fun j z => value (monomial z) (splitArray k p j)) (fun _ => 0)
        (fun z => f (z.set k (partPoint h (z.getD k 0))) -
          value (monomial (z.set k (partPoint h (z.getD k 0)))) t.terms)
        (⟨[], t.err⟩, splitArray k p) := by
      refine ⟨by simp [WF], ?_, ?_, ?_⟩
      · intro z hz
        simpa using herr z hz
      · intro j u hu
        obtain ⟨v, hv, rfl⟩ := List.mem_map.1 hu
        have hv := (List.mem_filter.1 hv).1
        have hl := (hp v hv).1
        exact ⟨by simpa using hl, getD_set_self _ _ (by omega) _ _⟩
      · intro j z _
        simp
    obtain ⟨st, h1, h2, h3⟩ := splitOuter_ok R hrep s up n k hk _ d hd (d + 1) 0 _ _ _
      (by omega) (fun _ _ _ => by omega) hinv
    refine ⟨st, h1, h2, ?_⟩
    intro z hz
    have := h3 z hz
    beta_reduce at this ⊢
    have hsum : ∑ i ∈ Finset.Ico 0 (d + 1), ∑ l ∈ Finset.Ico i (d + 1),
        shiftSign up ^ (l - i) * (l.choose i : K) *
          (value (monomial z) (splitArray k p l) * z.getD k 0 ^ i) =
        value (monomial (z.set k (partPoint h (z.getD k 0)))) t.terms := by
      rw [Finset.sum_Ico_Ico_comm, hpart, ← splitScale_ok n k hk t.terms ht z hz.1, ← hpdef,
        value_group n k hk p d hpd z hz.1, Finset.range_eq_Ico]
      apply Finset.sum_congr rfl
      intro j _
      rw [add_pow, Finset.range_eq_Ico, Finset.mul_sum]
      apply Finset.sum_congr rfl
      intro i _
      ring
    rw [hsum, sub_add_cancel] at this
    exact this
  cases h with
  | middle =>
    refine ⟨_, rfl, fun u hu => (hp u hu).1, ?_⟩
    intro z hz
    have h1 := herr z hz
    have h2 := splitScale_ok n k hk t.terms ht z hz.1 (z.getD k 0)
    rw [set_getD_self] at h2
    simp only
    rw [h2]
    exact h1
  | lower =>
    obtain ⟨st, h1, h2, h3⟩ := side false (fun y => by simp [partPoint, shiftSign, sub_eq_add_neg])
    refine ⟨st.1, ?_, h2, h3⟩
    unfold split
    simp only
    have : (Part.lower == Part.upper) = false := by decide
    rw [this, h1]
    rfl
  | upper =>
    obtain ⟨st, h1, h2, h3⟩ := side true (fun y => by simp [partPoint, shiftSign])
    refine ⟨st.1, ?_, h2, h3⟩
    unfold split
    simp only
    have : (Part.upper == Part.upper) = true := by decide
    rw [this, h1]
    rfl

/-- **C29** (split, the limit): for a model of degree 16 or more (exponents not overflowing) the
lower and upper parts are refused. -/
theorem C29_split_fails (s : Sweeper K) (k : Nat) (h : Part) (hh : h ≠ .middle) (t : TM K)
    (u : List Nat × K) (hu : u ∈ t.terms) (hfit : Fits u.1) (hdeg : 16 ≤ u.1.sum) :
    split R s k h t = none := by
  have hd : 16 ≤ modelDegree (splitScale k t.terms) := by
    have := modelDegree_le (splitScale k t.terms) (u.1, u.2 / 2 ^ u.1.getD k 0)
      (List.mem_map.2 ⟨u, hu, rfl⟩)
    simp only [degree_of_fits hfit] at this
    omega
  have inner : ∀ (up : Bool) (m j : Nat) (st : TM K × (Nat → Terms (List Nat) K)),
      j ≤ 16 → 16 < j + m → splitInner R s up k 0 m j st = none := by
    intro up m
    induction m with
    | zero => intro j st h1 h2; omega
    | succ m ih =>
      intro j st h1 h2
      unfold splitInner
      by_cases hj : j = 16
      · subst hj
        have : splitCoef up 0 16 = none := by cases up <;> decide +kernel
        rw [this]
      · cases hc : splitCoef up 0 j with
        | none => rfl
        | some c => exact ih (j + 1) _ (by omega) (by omega)
  have outer : ∀ (up : Bool) (st : TM K × (Nat → Terms (List Nat) K)),
      splitOuter R s up k (modelDegree (splitScale k t.terms))
        (modelDegree (splitScale k t.terms) + 1) 0 st = none := by
    intro up st
    unfold splitOuter
    rw [inner up _ 0 st (by omega) (by omega)]
  unfold split
  cases h with
  | middle => exact absurd rfl hh
  | lower => simp only [outer]; rfl
  | upper => simp only [outer]; rfl

end

/-! ## Differentiation and integration -/

section Calculus
variable (R : Rounding K)

/-- The terms of the exact antiderivative in variable `k`. -/
def exactAnti (k : Nat) (p : Terms (List Nat) K) : Terms (List Nat) K :=
  p.map (fun u => (u.1.set k (u.1.getD k 0 + 1), u.2 / ((u.1.getD k 0 + 1 : Nat) : K)))

theorem antiLoop_ok (k : Nat) (m : List Nat → K) (hm : ∀ a, |m a| ≤ 1) (p : Terms (List Nat) K)
    (hp : ∀ u ∈ p, k < u.1.length ∧ u.1.getD k 0 < 65535) (e : K) :
    |value m (exactAnti k p) - value m (antidifferentiate.loop R k p e).1| ≤
      (antidifferentiate.loop R k p e).2 - e := by
  induction p generalizing e with
  | nil => simp [antidifferentiate.loop, exactAnti]
  | cons u p ih =>
    obtain ⟨a, c⟩ := u
    obtain ⟨h1, h2⟩ := hp (a, c) (by simp)
    simp only at h1 h2
    have hw : wrap (a.getD k 0 + 1) = a.getD k 0 + 1 := by unfold wrap; omega
    unfold antidifferentiate.loop
    simp only [hw, getD_set_self a k h1]
    set r := divErr R c ((a.getD k 0 + 1 : Nat) : K) e with hr
    have h3 := ih (fun v hv => hp v (by simp [hv])) r.2
    have h4 := divErr_ok R c ((a.getD k 0 + 1 : Nat) : K) e
    rw [← hr] at h4
    have h5 : |(r.1 - c / ((a.getD k 0 + 1 : Nat) : K)) * m (a.set k (a.getD k 0 + 1))| ≤
        r.2 - e := by
      rw [abs_mul]
      exact (mul_le_of_le_one_right (abs_nonneg _) (hm _)).trans h4
    unfold exactAnti at h3 ⊢
    rw [List.map_cons, value_cons, value_cons]
    simp only
    rw [abs_le] at h3 h5 ⊢
    constructor <;> linarith [h3.1, h3.2, h5.1, h5.2]

/-- The terms of the exact derivative in variable `k`. -/
def exactDeriv (k : Nat) (p : Terms (List Nat) K) : Terms (List Nat) K :=
  p.map (fun u => (u.1.set k (u.1.getD k 0 - 1), u.2 * (u.1.getD k 0 : K)))

theorem diffLoop_ok (k : Nat) (m : List Nat → K) (hm : ∀ a, |m a| ≤ 1) (p : Terms (List Nat) K)
    (e : K) :
    |value m (exactDeriv k p) - value m (differentiate.loop R k p e).1| ≤
      (differentiate.loop R k p e).2 - e := by
  induction p generalizing e with
  | nil => simp [differentiate.loop, exactDeriv]
  | cons u p ih =>
    obtain ⟨a, c⟩ := u
    unfold differentiate.loop
    unfold exactDeriv at ih ⊢
    rw [List.map_cons, value_cons]
    by_cases h : a.getD k 0 ≠ 0
    · simp only [h, ne_eq, not_false_eq_true, if_true]
      have h3 := ih (mulErr R c ((a.getD k 0 : Nat) : K) e).2
      have h4 := mulErr_ok R c ((a.getD k 0 : Nat) : K) e
      have h5 : |((mulErr R c ((a.getD k 0 : Nat) : K) e).1 - c * ((a.getD k 0 : Nat) : K)) *
          m (a.set k (a.getD k 0 - 1))| ≤ (mulErr R c ((a.getD k 0 : Nat) : K) e).2 - e := by
        rw [abs_mul]
        exact (mul_le_of_le_one_right (abs_nonneg _) (hm _)).trans h4
      rw [value_cons]
      rw [abs_le] at h3 h5 ⊢
      simp only
      constructor <;> linarith [h3.1, h3.2, h5.1, h5.2]
    · have h := not_not.1 h
      simp only [h, ne_eq, not_true_eq_false, if_false, Nat.cast_zero, mul_zero, zero_mul, zero_add]
      exact ih e

end Calculus

/-- The polynomial as a function of variable `k` alone, and its derivative. -/
theorem hasDerivAt_value (n k : Nat) (hk : k < n) (p : Terms (List Nat) ℝ)
    (hp : ∀ u ∈ p, u.1.length = n) (z : List ℝ) (hz : z.length = n) (y : ℝ) :
    HasDerivAt (fun y => value (monomial (z.set k y)) p)
      (value (monomial (z.set k y)) (exactDeriv k p)) y := by
  induction p with
  | nil => simpa [exactDeriv] using hasDerivAt_const y (0 : ℝ)
  | cons u p ih =>
    have hl := hp u (by simp)
    have h1 := ih (fun v hv => hp v (by simp [hv]))
    have e1 : (fun y => value (monomial (z.set k y)) (u :: p)) = fun y =>
        u.2 * (monomial z (u.1.set k 0) * y ^ u.1.getD k 0) + value (monomial (z.set k y)) p := by
      funext y
      rw [value_cons, monomial_set_left z u.1 k (by omega) (by omega)]
    rw [e1]
    have h2 : HasDerivAt (fun y : ℝ => u.2 * (monomial z (u.1.set k 0) * y ^ u.1.getD k 0))
        (u.2 * (monomial z (u.1.set k 0) *
          ((u.1.getD k 0 : ℝ) * y ^ (u.1.getD k 0 - 1)))) y := by
      have := hasDerivAt_pow (u.1.getD k 0) y
      exact (this.const_mul _).const_mul _
    have h3 := h2.add h1
    refine h3.congr_deriv ?_
    unfold exactDeriv
    rw [List.map_cons, value_cons]
    simp only
    rw [monomial_set_set z u.1 k (by omega) (by omega)]
    ring

theorem exactDeriv_exactAnti (k : Nat) (p : Terms (List Nat) ℝ) (hp : ∀ u ∈ p, k < u.1.length) :
    exactDeriv k (exactAnti k p) = p := by
  unfold exactDeriv exactAnti
  rw [List.map_map]
  conv_rhs => rw [← List.map_id p]
  apply List.map_congr_left
  intro u hu
  have h1 := hp u hu
  simp only [Function.comp_apply, getD_set_self u.1 k h1, List.set_set, Nat.add_sub_cancel,
    set_getD_self, id]
  rw [div_mul_cancel₀ _ (by positivity)]

/-- **C29** (antiderivative): if `F` is an antiderivative in variable `k` of an enclosed function,
vanishing where that variable is zero, then the integrated model encloses `F`. -/
theorem C29_antidifferentiate (R : Rounding ℝ) (n k : Nat) (hk : k < n) (t : TM ℝ) (ht : WF n t)
    (hexp : ∀ u ∈ t.terms, u.1.getD k 0 < 65535) (f F : List ℝ → ℝ) (hf : Encloses n t f)
    (hF0 : ∀ z, InBox n z → F (z.set k 0) = 0)
    (hF : ∀ z, InBox n z → ∀ y ∈ Set.Icc (-1 : ℝ) 1,
      HasDerivWithinAt (fun y => F (z.set k y)) (f (z.set k y)) (Set.Icc (-1) 1) y) :
    Encloses n (antidifferentiate R k t) F := by
  intro z hz
  have hlen : ∀ u ∈ t.terms, k < u.1.length := fun u hu => by rw [ht u hu]; exact hk
  have h1 := antiLoop_ok R k (monomial z) (abs_monomial_le z hz.2) t.terms
    (fun u hu => ⟨hlen u hu, hexp u hu⟩) 0
  -- the difference to the exact antiderivative of the polynomial
  have hanti : ∀ u ∈ exactAnti k t.terms, u.1.length = n := by
    intro u hu
    obtain ⟨v, hv, rfl⟩ := List.mem_map.1 hu
    simpa using ht v hv
  have hderiv : ∀ y ∈ Set.Icc (-1 : ℝ) 1, HasDerivWithinAt
      (fun y => F (z.set k y) - value (monomial (z.set k y)) (exactAnti k t.terms))
      (f (z.set k y) - value (monomial (z.set k y)) t.terms) (Set.Icc (-1) 1) y := by
    intro y hy
    have h2 := hasDerivAt_value n k hk (exactAnti k t.terms) hanti z hz.1 y
    rw [exactDeriv_exactAnti k t.terms hlen] at h2
    exact (hF z hz y hy).sub h2.hasDerivWithinAt
  have hbound : ∀ y ∈ Set.Icc (-1 : ℝ) 1,
      ‖f (z.set k y) - value (monomial (z.set k y)) t.terms‖ ≤ t.err := by
    intro y hy
    rw [Real.norm_eq_abs]
    exact hf _ (inBox_set hz k (abs_le.2 hy))
  have hzk := inBox_getD hz k
  have h3 := Convex.norm_image_sub_le_of_norm_hasDerivWithin_le (x := (0 : ℝ)) (y := z.getD k 0)
    hderiv hbound (convex_Icc _ _) (by constructor <;> norm_num) (abs_le.1 hzk)
  rw [Real.norm_eq_abs, Real.norm_eq_abs, sub_zero, set_getD_self, hF0 z hz] at h3
  have h4 : value (monomial (z.set k 0)) (exactAnti k t.terms) = 0 := by
    have : value (monomial (z.set k 0)) (exactAnti k t.terms) =
        value (fun _ => 0) (exactAnti k t.terms) := by
      apply value_congr
      intro u hu
      obtain ⟨v, hv, rfl⟩ := List.mem_map.1 hu
      have hl := ht v hv
      simp only
      rw [monomial_set_set z v.1 k (by rw [hz.1]; exact hk) (by omega), zero_pow (by omega), mul_zero]
    rw [this]
    simp [value]
  rw [h4, sub_self, sub_zero] at h3
  have he := hf.err_nonneg
  have h5 : t.err * |z.getD k 0| ≤ t.err := mul_le_of_le_one_right he hzk
  have h6 := R.le_up (t.err + (antidifferentiate.loop R k t.terms 0).2)
  have h7 := h3.trans h5
  unfold antidifferentiate
  simp only
  rw [abs_le] at h1 h7 ⊢
  constructor <;> linarith [h1.1, h1.2, h7.1, h7.2]

/-- **C29** (derivative): the differentiated model encloses the partial derivative of the polynomial
part; the error of the original model does not enter, so nothing is claimed about other enclosed
functions. -/
theorem C29_differentiate (R : Rounding ℝ) (n k : Nat) (hk : k < n) (t : TM ℝ) (ht : WF n t)
    (f' : List ℝ → ℝ)
    (hf' : ∀ z, InBox n z → ∀ y, HasDerivAt (fun y => value (monomial (z.set k y)) t.terms)
      (f' (z.set k y)) y) :
    Encloses n (differentiate R k t) f' := by
  intro z hz
  have h1 := diffLoop_ok R k (monomial z) (abs_monomial_le z hz.2) t.terms 0
  have h2 := hasDerivAt_value n k hk t.terms ht z hz.1 (z.getD k 0)
  have h3 := (hf' z hz (z.getD k 0)).unique h2
  rw [set_getD_self] at h3
  rw [h3]
  rw [sub_zero] at h1
  exact h1

/-! ## Non-vacuity -/

/-- Splitting `x²` with error `1/8`: the upper half is `((x+1)/2)²`. -/
example : (split (Ariadne.PBit.rounding 4 (by norm_num)) trivialSweeper 0 .upper
      (⟨[([2], 1)], 1 / 8⟩ : TM ℚ)).map (fun r => (r.terms, r.err)) =
      some ([([2], 1 / 4), ([1], 1 / 2), ([0], 1 / 4)], 1 / 8) ∧
    (split (Ariadne.PBit.rounding 4 (by norm_num)) trivialSweeper 0 .lower
      (⟨[([2], 1)], 1 / 8⟩ : TM ℚ)).map (fun r => (r.terms, r.err)) =
      some ([([2], 1 / 4), ([1], -1 / 2), ([0], 1 / 4)], 1 / 8) := by
  constructor <;> decide +kernel

/-- Discarding the second of three variables, and integrating in the first. -/
example :
    let t : TM ℚ := ⟨[([1, 1, 0], 1 / 2), ([2, 0, 1], 3)], 1 / 8⟩
    let r := discardVariables (Ariadne.PBit.rounding 4 (by norm_num)) 3 [1] t
    let a := antidifferentiate (Ariadne.PBit.rounding 4 (by norm_num)) 0 t
    (r.terms, r.err) = ([([2, 1], 3)], 5 / 8) ∧
      (a.terms, a.err) = ([([2, 1, 0], 1 / 4), ([3, 0, 1], 1)], 1 / 8) := by
  decide +kernel

end Verif.TaylorModel
