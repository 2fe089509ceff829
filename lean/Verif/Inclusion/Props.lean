import Verif.Inclusion.Spec
import Verif.Inclusion.Growth
import Mathlib.Analysis.Calculus.Deriv.Prod
import Mathlib.Analysis.Convex.SpecificFunctions.Basic

/-!
# The error of replacing the inputs by zero

The errors that the model computes are compared with the distance of the solutions of the inclusion from
the solutions without inputs.
-/

namespace Verif.Inclusion

open Ariadne Set

variable {n m : ℕ} (R : Rounding ℝ)

theorem Coef.abs_le_mag {c : Coef ℝ} {v : ℝ} (h1 : c.l ≤ v) (h2 : v ≤ c.u) : |v| ≤ c.mag := by
  rw [abs_le]
  have := le_max_left (-c.l) c.u
  have := le_max_right (-c.l) c.u
  exact ⟨by unfold Coef.mag; linarith, by unfold Coef.mag; linarith⟩

theorem degree_single (k : Fin n) : degree (Pi.single k 1 : Fin n → ℕ) = 1 := by
  simp [degree, Finset.sum_pi_single']

theorem degree_eq_zero {a : Fin n → ℕ} : degree a = 0 ↔ a = 0 := by
  unfold degree
  rw [Finset.sum_eq_zero_iff]
  exact ⟨fun h => funext fun k => h k (Finset.mem_univ k), fun h k _ => by rw [h]; rfl⟩

theorem degree_eq_one {a : Fin n → ℕ} (h : degree a = 1) : ∃ k, a = Pi.single k 1 := by
  unfold degree at h
  obtain ⟨k, -, hk⟩ := Finset.exists_ne_zero_of_sum_ne_zero (by rw [h]; exact one_ne_zero :
    ∑ i, a i ≠ 0)
  rw [← Finset.add_sum_erase _ _ (Finset.mem_univ k)] at h
  have h1 : ∑ i ∈ Finset.univ.erase k, a i = 0 := by omega
  rw [Finset.sum_eq_zero_iff] at h1
  refine ⟨k, funext fun i => ?_⟩
  by_cases hi : i = k
  · subst hi; simp; omega
  · rw [Pi.single_eq_of_ne hi]
    exact h1 i (Finset.mem_erase.2 ⟨hi, Finset.mem_univ i⟩)

/-- What the entries for the index of variable `k` contribute. -/
def contribution (p : Fin n → Coef ℝ → ℝ) (ts : Terms n ℝ) (k : Fin n) : ℝ :=
  (ts.map fun t => if t.1 = Pi.single k 1 then p k t.2 else 0).sum

theorem contribution_cons_one (p : Fin n → Coef ℝ → ℝ) (k : Fin n) (c : Coef ℝ) (ts : Terms n ℝ) :
    ∑ i, contribution p ((Pi.single k 1, c) :: ts) i = p k c + ∑ i, contribution p ts i := by
  simp only [contribution, List.map_cons, List.sum_cons, Finset.sum_add_distrib]
  congr 1
  rw [Finset.sum_eq_single k]
  · simp
  · intro i _ hi
    rw [if_neg]
    intro h
    have := congrFun h i
    rw [Pi.single_eq_of_ne hi, Pi.single_eq_same] at this
    omega
  · simp

theorem contribution_cons_other (p : Fin n → Coef ℝ → ℝ) {a : Fin n → ℕ} (ha : degree a ≠ 1) (c : Coef ℝ)
    (ts : Terms n ℝ) : ∑ i, contribution p ((a, c) :: ts) i = ∑ i, contribution p ts i := by
  simp only [contribution, List.map_cons, List.sum_cons, Finset.sum_add_distrib]
  rw [Finset.sum_eq_zero, zero_add]
  intro i _
  rw [if_neg]
  rintro rfl
  exact ha (degree_single i)

theorem contribution_absent (p : Fin n → Coef ℝ → ℝ) {ts : Terms n ℝ} {k : Fin n}
    (h : Pi.single k 1 ∉ ts.map Prod.fst) : contribution p ts k = 0 := by
  refine List.sum_eq_zero fun y hy => ?_
  obtain ⟨t, ht, rfl⟩ := List.mem_map.1 hy
  exact if_neg fun h1 => h (List.mem_map.2 ⟨t, ht, h1⟩)

theorem contribution_present (p : Fin n → Coef ℝ → ℝ) {ts : Terms n ℝ} {k : Fin n} {c : Coef ℝ}
    (hn : (ts.map Prod.fst).Nodup) (h : (Pi.single k 1, c) ∈ ts) : contribution p ts k = p k c := by
  induction ts with
  | nil => simp at h
  | cons t ts ih =>
    rw [List.map_cons, List.nodup_cons] at hn
    rcases List.mem_cons.1 h with h | h
    · subst h
      have := contribution_absent p hn.1
      unfold contribution at this ⊢
      rw [List.map_cons, List.sum_cons, this, if_pos rfl, add_zero]
    · have h1 : t.1 ≠ Pi.single k 1 := by
        rintro h2
        exact hn.1 (h2 ▸ List.mem_map.2 ⟨_, h, rfl⟩)
      have := ih hn.2 h
      unfold contribution at this ⊢
      rw [List.map_cons, List.sum_cons, this, if_neg h1, zero_add]

theorem le_contribution (p : Fin n → Coef ℝ → ℝ) {ts : Terms n ℝ} {k : Fin n} {v q : ℝ}
    (hn : (ts.map Prod.fst).Nodup) (h : Gives ts (Pi.single k 1) v)
    (hp : ∀ c : Coef ℝ, c.l ≤ v → v ≤ c.u → q ≤ p k c) (h0 : v = 0 → q ≤ 0) :
    q ≤ contribution p ts k := by
  rcases h with ⟨c, hc, h1, h2⟩ | ⟨h1, h2⟩
  · rw [contribution_present p hn hc]
    exact hp c h1 h2
  · rw [contribution_absent p h1]
    exact h0 h2

theorem row_l_ge (j : Fin n) (ts : Terms n ℝ) (r : Row ℝ) :
    r.l + ∑ k, contribution (fun _ c => c.mag) ts k ≤ (ts.foldl (rowStep R j) r).l := by
  induction ts generalizing r with
  | nil => simp [contribution]
  | cons t ts ih =>
    obtain ⟨a, c⟩ := t
    refine le_trans ?_ (ih _)
    by_cases h1 : degree a = 1
    · have h0 : ¬ degree a = 0 := by omega
      obtain ⟨k, rfl⟩ := degree_eq_one h1
      rw [contribution_cons_one]
      have e : (rowStep R j r (Pi.single k 1, c)).l = R.up (r.l + c.mag) := by
        simp only [rowStep]
        rw [if_neg h0, if_pos h1]
      have := R.le_up (r.l + c.mag)
      rw [e]
      linarith
    · rw [contribution_cons_other _ h1]
      by_cases h0 : degree a = 0
      · simp [rowStep, h0]
      · simp [rowStep, h0, h1]

theorem row_lam_ge (j : Fin n) (ts : Terms n ℝ) (r : Row ℝ) :
    r.lam + ∑ k, contribution (fun k c => if k = j then c.u else c.mag) ts k ≤
      (ts.foldl (rowStep R j) r).lam := by
  induction ts generalizing r with
  | nil => simp [contribution]
  | cons t ts ih =>
    obtain ⟨a, c⟩ := t
    refine le_trans ?_ (ih _)
    by_cases h1 : degree a = 1
    · have h0 : ¬ degree a = 0 := by omega
      obtain ⟨k, rfl⟩ := degree_eq_one h1
      rw [contribution_cons_one]
      have e : (rowStep R j r (Pi.single k 1, c)).lam =
          if (Pi.single k 1 : Fin n → ℕ) j = 1 then R.up (r.lam + c.u) else R.up (r.lam + c.mag) := by
        simp only [rowStep]
        rw [if_neg h0, if_pos h1]
      rw [e]
      by_cases hk : k = j
      · subst hk
        rw [if_pos rfl, if_pos (Pi.single_eq_same k 1)]
        have := R.le_up (r.lam + c.u)
        linarith
      · have h2 : (Pi.single k 1 : Fin n → ℕ) j ≠ 1 := by
          rw [Pi.single_eq_of_ne (Ne.symm hk)]
          exact zero_ne_one
        rw [if_neg hk, if_neg h2]
        have := R.le_up (r.lam + c.mag)
        linarith
    · rw [contribution_cons_other _ h1]
      by_cases h0 : degree a = 0
      · simp [rowStep, h0]
      · simp [rowStep, h0, h1]

theorem row_k (j : Fin n) (ts : Terms n ℝ) (r : Row ℝ) (hn : (ts.map Prod.fst).Nodup) :
    (∀ c, ((0 : Fin n → ℕ), c) ∈ ts → (ts.foldl (rowStep R j) r).k = c.mag) ∧
      ((0 : Fin n → ℕ) ∉ ts.map Prod.fst → (ts.foldl (rowStep R j) r).k = r.k) := by
  induction ts generalizing r with
  | nil => simp
  | cons t ts ih =>
    obtain ⟨a, c⟩ := t
    rw [List.map_cons, List.nodup_cons] at hn
    have h := ih (rowStep R j r (a, c)) hn.2
    refine ⟨fun c' hc => ?_, fun h0 => ?_⟩
    · rcases List.mem_cons.1 hc with h1 | h1
      · obtain ⟨rfl, rfl⟩ := Prod.mk.inj h1
        rw [List.foldl_cons, h.2 hn.1]
        simp [rowStep, degree_eq_zero]
      · exact h.1 c' h1
    · rw [List.map_cons, List.mem_cons, not_or] at h0
      rw [List.foldl_cons, h.2 h0.2]
      have h1 : ¬ degree a = 0 := fun h1 => h0.1 (degree_eq_zero.1 h1).symm
      by_cases h2 : degree a = 1
      · simp [rowStep, h2]
      · simp [rowStep, h1, h2]

theorem entry_g (ts : Terms n ℝ) (r : Entry ℝ) (hn : (ts.map Prod.fst).Nodup) :
    (∀ c, ((0 : Fin n → ℕ), c) ∈ ts → (ts.foldl entryStep r).g = c.mag) ∧
      ((0 : Fin n → ℕ) ∉ ts.map Prod.fst → (ts.foldl entryStep r).g = r.g) := by
  induction ts generalizing r with
  | nil => simp
  | cons t ts ih =>
    obtain ⟨a, c⟩ := t
    rw [List.map_cons, List.nodup_cons] at hn
    have h := ih (entryStep r (a, c)) hn.2
    refine ⟨fun c' hc => ?_, fun h0 => ?_⟩
    · rcases List.mem_cons.1 hc with h1 | h1
      · obtain ⟨rfl, rfl⟩ := Prod.mk.inj h1
        rw [List.foldl_cons, h.2 hn.1]
        simp [entryStep, degree_eq_zero]
      · exact h.1 c' h1
    · rw [List.map_cons, List.mem_cons, not_or] at h0
      rw [List.foldl_cons, h.2 h0.2]
      have h1 : ¬ degree a = 0 := fun h1 => h0.1 (degree_eq_zero.1 h1).symm
      by_cases h2 : degree a = 1
      · simp [entryStep, h2]
      · simp [entryStep, h1, h2]

theorem abs_le_row_k (j : Fin n) {ts : Terms n ℝ} (hn : (ts.map Prod.fst).Nodup) {v : ℝ}
    (h : Gives ts 0 v) : |v| ≤ (row R j ts).k := by
  have := row_k R j ts ⟨0, 0, 0⟩ hn
  rcases h with ⟨c, hc, h1, h2⟩ | ⟨h1, rfl⟩
  · rw [row, this.1 c hc]
    exact Coef.abs_le_mag h1 h2
  · rw [row, this.2 h1, abs_zero]

theorem abs_le_entry_g {ts : Terms n ℝ} (hn : (ts.map Prod.fst).Nodup) {v : ℝ}
    (h : Gives ts 0 v) : |v| ≤ (entry ts).g := by
  have := entry_g ts ⟨0, 0⟩ hn
  rcases h with ⟨c, hc, h1, h2⟩ | ⟨h1, rfl⟩
  · rw [entry, this.1 c hc]
    exact Coef.abs_le_mag h1 h2
  · rw [entry, this.2 h1, abs_zero]

theorem sum_le_row_l (j : Fin n) {ts : Terms n ℝ} (hn : (ts.map Prod.fst).Nodup) {v : Fin n → ℝ}
    (h : ∀ k, Gives ts (Pi.single k 1) (v k)) : ∑ k, |v k| ≤ (row R j ts).l := by
  have := row_l_ge R j ts ⟨0, 0, 0⟩
  rw [zero_add] at this
  refine le_trans (Finset.sum_le_sum fun k _ => ?_) this
  exact le_contribution _ hn (h k) (fun c h1 h2 => Coef.abs_le_mag h1 h2) (fun h0 => by simp [h0])

theorem log_norm_le_row_lam (j : Fin n) {ts : Terms n ℝ} (hn : (ts.map Prod.fst).Nodup)
    {v : Fin n → ℝ} (h : ∀ k, Gives ts (Pi.single k 1) (v k)) :
    v j + ∑ k ∈ Finset.univ.erase j, |v k| ≤ (row R j ts).lam := by
  have := row_lam_ge R j ts ⟨0, 0, 0⟩
  rw [zero_add] at this
  refine le_trans ?_ this
  rw [← Finset.add_sum_erase _ _ (Finset.mem_univ j)]
  refine add_le_add ?_ (Finset.sum_le_sum fun k hk => ?_)
  · exact le_contribution _ hn (h j) (fun c _ h2 => by simpa using h2) (fun h0 => h0.le)
  · have hkj : k ≠ j := (Finset.mem_erase.1 hk).1
    exact le_contribution _ hn (h k) (fun c h1 h2 => by simpa [hkj] using Coef.abs_le_mag h1 h2)
      (fun h0 => by simp [h0])

theorem foldl_max_ge (f : Fin n → ℝ) (l : List (Fin n)) (a : ℝ) :
    a ≤ l.foldl (fun a j => max a (f j)) a ∧ ∀ j ∈ l, f j ≤ l.foldl (fun a j => max a (f j)) a := by
  induction l generalizing a with
  | nil => simp
  | cons i l ih =>
    have := ih (max a (f i))
    refine ⟨(le_max_left _ _).trans this.1, fun j hj => ?_⟩
    rcases List.mem_cons.1 hj with rfl | hj
    · exact (le_max_right _ _).trans this.1
    · exact this.2 j hj

theorem le_maxOf (f : Fin n → ℝ) (j : Fin n) : f j ≤ maxOf f :=
  (foldl_max_ge f _ 0).2 j (List.mem_finRange j)

theorem maxOf_nonneg (f : Fin n → ℝ) : 0 ≤ maxOf f := (foldl_max_ge f _ 0).1

theorem foldl_max?_ge (f : Fin n → ℝ) (l : List (Fin n)) (a : ℝ) :
    ∃ b, l.foldl (fun a j => some (maxWith (f j) a)) (some a) = some b ∧
      a ≤ b ∧ ∀ j ∈ l, f j ≤ b := by
  induction l generalizing a with
  | nil => exact ⟨a, rfl, le_rfl, by simp⟩
  | cons i l ih =>
    obtain ⟨b, h1, h2, h3⟩ := ih (max a (f i))
    refine ⟨b, h1, (le_max_left _ _).trans h2, fun j hj => ?_⟩
    rcases List.mem_cons.1 hj with rfl | hj
    · exact (le_max_right _ _).trans h2
    · exact h3 j hj

theorem le_maxOf? (f : Fin n → ℝ) (j : Fin n) : ∃ b, maxOf? f = some b ∧ ∀ j, f j ≤ b := by
  obtain ⟨i, l, hl⟩ : ∃ i l, List.finRange n = i :: l := by
    cases h : List.finRange n with
    | nil => exact absurd (List.mem_finRange j) (by simp [h])
    | cons i l => exact ⟨i, l, rfl⟩
  obtain ⟨b, h1, h2, h3⟩ := foldl_max?_ge f l (f i)
  refine ⟨b, by rw [maxOf?, hl, List.foldl_cons]; exact h1, fun k => ?_⟩
  have := List.mem_finRange k
  rw [hl, List.mem_cons] at this
  rcases this with rfl | h
  · exact h2
  · exact h3 k h

theorem foldl_sumUp_ge (f : Fin n → ℝ) (l : List (Fin n)) (a : ℝ) :
    a + (l.map f).sum ≤ l.foldl (fun a j => R.up (a + f j)) a := by
  induction l generalizing a with
  | nil => simp
  | cons i l ih =>
    refine le_trans ?_ (ih _)
    have := R.le_up (a + f i)
    simp only [List.map_cons, List.sum_cons]
    linarith

theorem sum_le_sumUp (f : Fin n → ℝ) : ∑ j, f j ≤ sumUp R f := by
  have := foldl_sumUp_ge R f (List.finRange n) 0
  rw [zero_add] at this
  rwa [← List.ofFn_eq_map, List.sum_ofFn] at this

section Zero

variable {R} {S : System n m ℝ} {B : Set (Fin n → ℝ)} {f : (Fin n → ℝ) → Fin n → ℝ}
  {g : Fin m → (Fin n → ℝ) → Fin n → ℝ} {h : ℝ} {v : ℝ → Fin m → ℝ} {x y : ℝ → Fin n → ℝ}

theorem abs_f_le (hS : Models S B f g) (exp : ℝ → ℝ) (w : ℝ) {p : Fin n → ℝ} (hp : p ∈ B) (j : Fin n) :
    |f p j| ≤ (constants R exp w S h).Kj j := by
  obtain ⟨φ', h1⟩ := hS.f j
  exact abs_le_row_k R j h1.nodup (h1.value p hp)

theorem abs_g_le (hS : Models S B f g) {p : Fin n → ℝ} (hp : p ∈ B) (i : Fin m) (j : Fin n) :
    |g i p j| ≤ (entry (S.g i j)).g := by
  obtain ⟨φ', h1⟩ := hS.g i j
  exact abs_le_entry_g h1.nodup (h1.value p hp)

/-- The inputs change component `j` of the derivative by at most `pKjv[j]`. -/
theorem abs_inputs_le (hS : Models S B f g) (exp : ℝ → ℝ) (w : ℝ) {p : Fin n → ℝ} (hp : p ∈ B)
    {q : Fin m → ℝ} (hq : ∀ i, |q i| ≤ S.V i) (j : Fin n) :
    |∑ i, g i p j * q i| ≤ (constants R exp w S h).pKjv j := by
  refine (Finset.abs_sum_le_sum_abs _ _).trans (le_trans (Finset.sum_le_sum fun i _ => ?_)
    (sum_le_sumUp R _))
  refine le_trans ?_ (R.le_up _)
  rw [abs_mul, mul_comm]
  exact mul_le_mul (hq i) (abs_g_le hS hp i j) (abs_nonneg _) ((abs_nonneg _).trans (hq i))

/-- The two curves and the derivative of their distance. -/
theorem deriv_sub (hx : Curve (withInputs f g v) B h x) (hy : Curve (fun _ => f) B h y) :
    ∀ t ∈ Ico 0 h, HasDerivWithinAt (fun t => x t - y t)
      ((fun j => f (x t) j - f (y t) j) + fun j => ∑ i, g i (x t) j * v t i) (Ici t) t := by
  intro t ht
  refine ((hx.deriv t ht).sub (hy.deriv t ht)).congr_deriv ?_
  funext j
  simp only [withInputs, Pi.sub_apply, Pi.add_apply]
  ring

/-- The bound of the distance by the time that has passed. -/
theorem distance_le_time (hS : Models S B f g) (exp : ℝ → ℝ) (w : ℝ)
    (hx : Curve (withInputs f g v) B h x) (hy : Curve (fun _ => f) B h y) (h0 : x 0 = y 0)
    {ε : Fin n → ℝ} (hε : ∀ t ∈ Icc 0 h, ∀ j, |∑ i, g i (x t) j * v t i| ≤ ε j) {t : ℝ}
    (ht : t ∈ Icc 0 h) (j : Fin n) :
    |x t j - y t j| ≤ ((constants R exp w S h).Kj j * 2 + ε j) * h := by
  set k := (constants R exp w S h).Kj j with hk
  have hd := deriv_sub hx hy
  have h1 := norm_image_sub_le_of_norm_deriv_right_le_segment (f := fun t => x t j - y t j)
    (f' := fun t => (f (x t) j - f (y t) j) + ∑ i, g i (x t) j * v t i) (a := 0) (b := h)
    (C := k * 2 + ε j) ?_ ?_ ?_ t ht
  · simp only [Real.norm_eq_abs, h0, sub_self, sub_zero] at h1
    refine h1.trans ?_
    have h2 : 0 ≤ k * 2 + ε j := by
      have a1 := (abs_nonneg _).trans (abs_f_le (R := R) (h := h) hS exp w (hx.mem t ht) j)
      have a2 := (abs_nonneg _).trans (hε t ht j)
      rw [hk]
      linarith
    exact mul_le_mul_of_nonneg_left ht.2 h2
  · have := (hx.cont.sub hy.cont)
    exact (continuousOn_pi.1 this) j
  · intro s hs
    exact (hasDerivWithinAt_pi.1 (hd s hs)) j
  · intro s hs
    have hs' := Ico_subset_Icc_self hs
    have a1 := abs_f_le (R := R) (h := h) hS exp w (hx.mem s hs') j
    have a2 := abs_f_le (R := R) (h := h) hS exp w (hy.mem s hs') j
    have a3 := hε s hs' j
    rw [Real.norm_eq_abs]
    have a4 := abs_add_le (f (x s) j - f (y s) j) (∑ i, g i (x s) j * v s i)
    have a5 := abs_sub (f (x s) j) (f (y s) j)
    linarith

/-- The bound of the distance by the growth with a logarithmic norm. -/
theorem distance_le_growth (hS : Models S B f g) (hB : Convex ℝ B)
    (hx : Curve (withInputs f g v) B h x) (hy : Curve (fun _ => f) B h y) (h0 : x 0 = y 0)
    {ε lam : ℝ} (hε0 : 0 ≤ ε) (hε : ∀ t ∈ Icc 0 h, ∀ j, |∑ i, g i (x t) j * v t i| ≤ ε)
    (hlam : ∀ j, ∀ q : Fin n → ℝ, (∀ k, Gives (S.f j) (Pi.single k 1) (q k)) →
      q j + ∑ k ∈ Finset.univ.erase j, |q k| ≤ lam) {t : ℝ} (ht : t ∈ Icc 0 h) :
    ‖x t - y t‖ ≤ gronwallBound 0 lam ε t := by
  choose φ' hφ using hS.f
  have hz : ∀ s ∈ Ico 0 h, ∀ j, ∃ z ∈ B, f (x s) j - f (y s) j = ∑ k, φ' j z k * (x s k - y s k) := by
    intro s hs j
    exact exists_partial hB (hφ j).deriv (hx.mem s (Ico_subset_Icc_self hs))
      (hy.mem s (Ico_subset_Icc_self hs))
  let A : ℝ → Fin n → Fin n → ℝ := fun s j k =>
    if hs : s ∈ Ico 0 h then φ' j (Classical.choose (hz s hs j)) k else 0
  refine norm_le_growth (d := fun t => x t - y t) (A := A) (r := fun t j => ∑ i, g i (x t) j * v t i)
    (hx.cont.sub hy.cont) (by simp [h0]) (fun s hs => ?_) (fun s hs j => ?_)
    (fun s hs j => hε s (Ico_subset_Icc_self hs) j) hε0 t ht
  · refine (deriv_sub hx hy s hs).congr_deriv ?_
    funext j
    have e : ∑ k, A s j k * (x s k - y s k) = f (x s) j - f (y s) j := by
      simp only [A, dif_pos hs]
      exact (Classical.choose_spec (hz s hs j)).2.symm
    show _ + _ = ∑ k, A s j k * (x s k - y s k) + _
    rw [e]
  · simp only [A, dif_pos hs]
    exact hlam j _ ((hφ j).partials _ (Classical.choose_spec (hz s hs j)).1)

theorem le_up_mul {a b c : ℝ} (h : a ≤ b * c) : a ≤ R.up (b * c) := h.trans (R.le_up _)

/-- `expLambda` is an upper bound for the growth. -/
theorem growth_le_expLam {exp : ℝ → ℝ} (hexp : ExpUpper exp) (w : ℝ) (hh : 0 < h) {ε t : ℝ}
    (hε : 0 ≤ ε) (ht : t ≤ h) {lam : ℝ} (hl : (constants R exp w S h).Lam = some lam) :
    gronwallBound 0 lam ε t ≤ R.up (R.up (ε * (constants R exp w S h).expLam) * h) := by
  have hl' : maxOf? (fun j => (row R j (S.f j)).lam) = some lam := hl
  have he : (constants R exp w S h).expLam =
      if 0 < lam then dexp R exp (R.up (lam * h)) else 1 := by
    show expLamOf R exp h (maxOf? (fun j => (row R j (S.f j)).lam)) = _
    rw [hl', expLamOf]
  rw [he]
  refine le_trans ?_ (R.le_up _)
  refine le_trans ?_ (mul_le_mul_of_nonneg_right (R.le_up _) hh.le)
  split_ifs with h1
  · refine le_trans (growth_le_pos (lam := R.up (lam * h) / h) (t := h) ?_ hε hh le_rfl |>.trans' ?_) ?_
    · have : 0 < R.up (lam * h) := lt_of_lt_of_le (by positivity) (R.le_up _)
      positivity
    · have h2 : lam ≤ R.up (lam * h) / h := by
        rw [le_div_iff₀ hh]
        exact R.le_up _
      have h3 : 0 < R.up (lam * h) / h := h1.trans_le h2
      rw [gronwallBound_of_K_ne_0 h1.ne', gronwallBound_of_K_ne_0 h3.ne']
      simp only [zero_mul, zero_add]
      -- the growth is increasing in the logarithmic norm and in time
      have mono : ∀ a b : ℝ, 0 < a → a ≤ b →
          (Real.exp (a * h) - 1) / a ≤ (Real.exp (b * h) - 1) / b := by
        intro a b ha hab
        have hb := ha.trans_le hab
        rw [div_le_div_iff₀ ha hb]
        -- convexity of the exponential function
        have hc := convexOn_exp.2 (mem_univ (0 : ℝ)) (mem_univ (b * h))
          (show 0 ≤ 1 - a / b by rw [sub_nonneg, div_le_one hb]; exact hab)
          (show 0 ≤ a / b by positivity) (by ring)
        simp only [smul_eq_mul, mul_zero, zero_add, Real.exp_zero, mul_one] at hc
        have e1 : a / b * (b * h) = a * h := by field_simp
        rw [e1] at hc
        have e2 : b * Real.exp (a * h) ≤ b * (1 - a / b + a / b * Real.exp (b * h)) :=
          mul_le_mul_of_nonneg_left hc hb.le
        have e3 : b * (1 - a / b + a / b * Real.exp (b * h)) = b - a + a * Real.exp (b * h) := by
          field_simp
        nlinarith
      have h4 : Real.exp (lam * t) ≤ Real.exp (lam * h) := Real.exp_le_exp.2 (by gcongr)
      calc ε / lam * (Real.exp (lam * t) - 1) = ε * ((Real.exp (lam * t) - 1) / lam) := by ring
        _ ≤ ε * ((Real.exp (lam * h) - 1) / lam) := by gcongr
        _ ≤ ε * ((Real.exp (R.up (lam * h) / h * h) - 1) / (R.up (lam * h) / h)) :=
            mul_le_mul_of_nonneg_left (mono _ _ h1 h2) hε
        _ = _ := by ring
    · have h2 : 0 < R.up (lam * h) := lt_of_lt_of_le (by positivity) (R.le_up _)
      have e1 : R.up (lam * h) / h * h = R.up (lam * h) := by field_simp
      rw [e1]
      refine mul_le_mul_of_nonneg_right (mul_le_mul_of_nonneg_left ?_ hε) hh.le
      refine le_trans ?_ (R.le_up _)
      have := (sub_le_sub_right (hexp (R.up (lam * h))) 1).trans (R.le_up _)
      gcongr
  · rw [mul_one]
    exact growth_le_nonpos (not_lt.1 h1) hε ht

/-- `expL` is an upper bound for the growth. -/
theorem growth_le_expL {exp : ℝ → ℝ} (hexp : ExpUpper exp) (w : ℝ) (hh : 0 < h) {ε t : ℝ}
    (hε : 0 ≤ ε) (ht : t ≤ h) :
    gronwallBound 0 (constants R exp w S h).L ε t ≤
      R.up (R.up (ε * (constants R exp w S h).expL) * h) := by
  refine (growth_le_exp (maxOf_nonneg _) hε hh ht).trans ?_
  refine le_trans ?_ (R.le_up _)
  refine mul_le_mul_of_nonneg_right (le_trans ?_ (R.le_up _)) hh.le
  refine mul_le_mul_of_nonneg_left ?_ hε
  exact (Real.exp_le_exp.2 (R.le_up _)).trans (hexp _)

/-- **C81** (the bound by components).  The component error of the zero approximation is an upper bound
for the distance of every solution of the inclusion from the solution without inputs that has the same
initial state, at all times of the step. -/
theorem C81_zero_component {exp : ℝ → ℝ} (hexp : ExpUpper exp) (hS : Models S B f g) (hB : Convex ℝ B)
    (hh : 0 < h) (hv : Input S.V h v) (hx : Curve (withInputs f g v) B h x)
    (hy : Curve (fun _ => f) B h y) (h0 : x 0 = y 0) {t : ℝ} (ht : t ∈ Icc 0 h) (j : Fin n) :
    |x t j - y t j| ≤ zeroComponent R (constants R exp 0 S h) h j := by
  set c := constants R exp 0 S h with hc
  have hε : ∀ t ∈ Icc 0 h, ∀ j, |∑ i, g i (x t) j * v t i| ≤ c.pKjv j := fun s hs k =>
    abs_inputs_le hS exp 0 (hx.mem s hs) (hv s hs) k
  have hε' : ∀ t ∈ Icc 0 h, ∀ j, |∑ i, g i (x t) j * v t i| ≤ c.pKv := fun s hs k =>
    (hε s hs k).trans (le_maxOf (fun j => c.pKjv j) k)
  have hp : 0 ≤ c.pKv := maxOf_nonneg _
  have hj : |x t j - y t j| ≤ ‖x t - y t‖ := by
    have := norm_le_pi_norm (x t - y t) j
    rwa [Real.norm_eq_abs] at this
  refine le_min ?_ (le_min ?_ ?_)
  · refine hj.trans ((distance_le_growth (lam := c.L) hS hB hx hy h0 hp hε' (fun k q hq => ?_) ht).trans
      (growth_le_expL hexp 0 hh hp ht.2))
    obtain ⟨φ', h1⟩ := hS.f k
    refine le_trans ?_ ((sum_le_row_l R k h1.nodup hq).trans (le_maxOf (fun j => c.Lj j) k))
    rw [← Finset.add_sum_erase _ _ (Finset.mem_univ k)]
    gcongr
    exact le_abs_self _
  · refine (distance_le_time (R := R) hS exp 0 hx hy h0 hε ht j).trans ?_
    refine le_trans (mul_le_mul_of_nonneg_right ?_ hh.le) (R.le_up _)
    refine le_trans ?_ (R.le_up _)
    have := R.le_up (c.Kj j * 2)
    linarith
  · obtain ⟨lam, hl, hle⟩ := le_maxOf? (fun j => (row R j (S.f j)).lam) j
    refine hj.trans ((distance_le_growth (lam := lam) hS hB hx hy h0 hp hε' (fun k q hq => ?_) ht).trans
      (growth_le_expLam hexp 0 hh hp ht.2 hl))
    obtain ⟨φ', h1⟩ := hS.f k
    exact (log_norm_le_row_lam R k h1.nodup hq).trans (hle k)

/-- What the worst case bound of the zero approximation relies on: either the inputs are not treated as
additive and no input exceeds one, or they are additive and the coefficients of each component sum up to
at most one. -/
def PKCovers (S : System n m ℝ) (B : Set (Fin n → ℝ)) (g : Fin m → (Fin n → ℝ) → Fin n → ℝ) : Prop :=
  (S.additive = false ∧ ∀ i, S.V i ≤ 1) ∨
    (S.additive = true ∧ ∀ p ∈ B, ∀ j, ∑ i, |g i p j| ≤ 1)

/-- **C81** (partial: for inputs as in `PKCovers` only; `C81_zero_additive` and `C81_zero_large` show that
this cannot be dropped).  The error of the zero approximation is an upper bound for the distance of every
solution of the inclusion from the solution without inputs, at all times of the step. -/
theorem C81_zero_partial {exp : ℝ → ℝ} (hexp : ExpUpper exp) (hS : Models S B f g) (hB : Convex ℝ B)
    (hP : PKCovers S B g) (hh : 0 < h) (hv : Input S.V h v) (hx : Curve (withInputs f g v) B h x)
    (hy : Curve (fun _ => f) B h y) (h0 : x 0 = y 0) {t : ℝ} (ht : t ∈ Icc 0 h) (j : Fin n) :
    |x t j - y t j| ≤ zeroError R exp S h j := by
  refine le_min ?_ (C81_zero_component hexp hS hB hh hv hx hy h0 ht j)
  set c := constants R exp 0 S h with hc
  have hV0 : ∀ i, 0 ≤ S.V i := fun i => (abs_nonneg _).trans (hv t ht i)
  have hp : 0 ≤ c.pK := by
    show 0 ≤ if S.additive then maxOf S.V else sumUp R fun i => maxOf fun j => (entry (S.g i j)).g
    split_ifs
    · exact maxOf_nonneg _
    · exact (Finset.sum_nonneg fun i _ => maxOf_nonneg _).trans (sum_le_sumUp R _)
  have hε : ∀ t ∈ Icc 0 h, ∀ j, |∑ i, g i (x t) j * v t i| ≤ c.pK := by
    intro s hs k
    refine (Finset.abs_sum_le_sum_abs _ _).trans ?_
    show _ ≤ if S.additive then maxOf S.V else sumUp R fun i => maxOf fun j => (entry (S.g i j)).g
    rcases hP with ⟨ha, hV⟩ | ⟨ha, hg⟩
    · rw [if_neg (by simp [ha])]
      refine (Finset.sum_le_sum fun i _ => ?_).trans (sum_le_sumUp R _)
      rw [abs_mul]
      have a1 := abs_g_le hS (hx.mem s hs) i k
      have a2 := le_maxOf (fun j => (entry (S.g i j)).g) k
      have a3 := (hv s hs i).trans (hV i)
      calc |g i (x s) k| * |v s i| ≤ |g i (x s) k| * 1 := mul_le_mul_of_nonneg_left a3 (abs_nonneg _)
        _ ≤ _ := by rw [mul_one]; exact a1.trans a2
    · rw [if_pos ha]
      calc ∑ i, |g i (x s) k * v s i| ≤ ∑ i, |g i (x s) k| * maxOf S.V := by
            refine Finset.sum_le_sum fun i _ => ?_
            rw [abs_mul]
            exact mul_le_mul_of_nonneg_left ((hv s hs i).trans (le_maxOf S.V i)) (abs_nonneg _)
        _ = (∑ i, |g i (x s) k|) * maxOf S.V := (Finset.sum_mul _ _ _).symm
        _ ≤ 1 * maxOf S.V := mul_le_mul_of_nonneg_right (hg _ (hx.mem s hs) k) (maxOf_nonneg _)
        _ = _ := one_mul _
  have hj : |x t j - y t j| ≤ ‖x t - y t‖ := by
    have := norm_le_pi_norm (x t - y t) j
    rwa [Real.norm_eq_abs] at this
  refine le_min ?_ ?_
  · obtain ⟨lam, hl, hle⟩ := le_maxOf? (fun j => (row R j (S.f j)).lam) j
    refine hj.trans ((distance_le_growth (lam := lam) hS hB hx hy h0 hp hε (fun k q hq => ?_) ht).trans
      (growth_le_expLam hexp 0 hh hp ht.2 hl))
    obtain ⟨φ', h1⟩ := hS.f k
    exact (log_norm_le_row_lam R k h1.nodup hq).trans (hle k)
  · refine (distance_le_time (R := R) (ε := fun _ => c.pK) hS exp 0 hx hy h0 hε ht j).trans ?_
    refine le_trans (mul_le_mul_of_nonneg_right ?_ hh.le) (R.le_up _)
    refine le_trans ?_ (R.le_up _)
    have := R.le_up (c.Km * 2)
    have : c.Kj j ≤ c.Km := le_maxOf (fun j => c.Kj j) j
    show c.Kj j * 2 + c.pK ≤ _
    linarith

/-- **C81** (partial, as `C81_zero_partial`).  If the flow without inputs is within `err` of the value
`p` of a polynomial, then the solution of the inclusion is within the error of the reach function. -/
theorem C81_zero_reach_partial {exp : ℝ → ℝ} (hexp : ExpUpper exp) (hS : Models S B f g)
    (hB : Convex ℝ B) (hP : PKCovers S B g) (hh : 0 < h) (hv : Input S.V h v)
    (hx : Curve (withInputs f g v) B h x) (hy : Curve (fun _ => f) B h y) (h0 : x 0 = y 0) {t : ℝ}
    (ht : t ∈ Icc 0 h) (j : Fin n) {p err : ℝ} (hp : |y t j - p| ≤ err) :
    |x t j - p| ≤ addError R err (zeroError R exp S h j) := by
  have h1 := C81_zero_partial (R := R) hexp hS hB hP hh hv hx hy h0 ht j
  have h2 := abs_sub_le (x t j) (y t j) p
  have h3 := R.le_up (err + zeroError R exp S h j)
  unfold addError
  linarith

end Zero

end Verif.Inclusion
