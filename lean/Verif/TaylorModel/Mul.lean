import Verif.TaylorModel.Arith

/-!
# Property C25: multiplication of Taylor models
-/

namespace Verif.TaylorModel

open Ariadne (Rounding)
open Ariadne.Rounding
open Verif.Expansion

variable {K : Type*} [Field K] [LinearOrder K] [IsStrictOrderedRing K]

section
variable (R : Rounding K)

/-- `fma_err` accounts for its error up to a factor of two. -/
theorem fmaErr_ok2 (x y z e : K) :
    |(fmaErr R x y z e).1 - (x * y + z)| ≤ 2 * ((fmaErr R x y z e).2 - e) := by
  have h1 := fmaErr_ok R x y z e
  have h2 : |R.near (x * y) - x * y| ≤ (fmaErr R x y z e).2 - e := by
    apply accum_le R
    have h3 := near_half R (x * y) (R.up (x * y)) (R.up (x * -y)) le_rfl (by rw [mul_neg])
    have h4 := R.le_up (R.up (x * y) + z)
    have h5 := R.le_up (R.up (x * -y) - z)
    linarith
  linarith

/-- `fma_err` is sound when the product is representable. -/
theorem fmaErr_exact (x y z e : K) (h : R.Rep (x * y)) :
    |(fmaErr R x y z e).1 - (x * y + z)| ≤ (fmaErr R x y z e).2 - e := by
  have := fmaErr_ok R x y z e
  rwa [near_of_rep R h, sub_self, abs_zero, add_zero] at this

theorem mulErr_nonneg (x y e : K) : 0 ≤ (mulErr R x y e).2 - e :=
  (abs_nonneg _).trans (mulErr_ok R x y e)

theorem fmaLoop_ok (fma : K → K → K → K → K × K) (k : K) (hk : 1 ≤ k) (m : List Nat → K)
    (hm : ∀ a, |m a| ≤ 1) (xa : List Nat) (xv : K) (N : Nat) (r y : Terms (List Nat) K)
    (hy : ∀ t ∈ y, m (addIndex xa t.1) = m xa * m t.1)
    (hf : ∀ t ∈ y, ∀ z e, |(fma xv t.2 z e).1 - (xv * t.2 + z)| ≤ k * ((fma xv t.2 z e).2 - e))
    (hN : r.length + y.length ≤ N) (e : K) :
    |value m r + xv * m xa * value m y - value m (fmaLoopF R fma xa xv N r y e).1| ≤
      k * ((fmaLoopF R fma xa xv N r y e).2 - e) := by
  -- one product rounded by `mul_err`
  have hmul : ∀ (ya : List Nat) (yv e : K), m (addIndex xa ya) = m xa * m ya →
      |xv * m xa * (yv * m ya) - (mulErr R xv yv e).1 * m (addIndex xa ya)| ≤
        k * ((mulErr R xv yv e).2 - e) := by
    intro ya yv e h
    have h0 : xv * m xa * (yv * m ya) - (mulErr R xv yv e).1 * m (addIndex xa ya) =
        (xv * yv - (mulErr R xv yv e).1) * m (addIndex xa ya) := by rw [h]; ring
    rw [h0, abs_mul, abs_sub_comm]
    refine ((mul_le_of_le_one_right (abs_nonneg _) (hm _)).trans (mulErr_ok R xv yv e)).trans ?_
    exact le_mul_of_one_le_left (mulErr_nonneg R xv yv e) hk
  induction N generalizing r y e with
  | zero =>
    have h1 : r = [] := List.length_eq_zero_iff.1 (by omega)
    have h2 : y = [] := List.length_eq_zero_iff.1 (by omega)
    subst h1; subst h2
    simp [fmaLoopF]
  | succ N ih =>
    match r, y with
    | [], [] => simp [fmaLoopF]
    | t :: r, [] =>
      unfold fmaLoopF
      have := ih r [] (by simp) (by simp)
        (by simp only [List.length_cons, List.length_nil] at hN ⊢; omega) e
      simp only [value_cons, value_nil, mul_zero, add_zero] at this ⊢
      rw [add_sub_add_left_eq_sub]
      exact this
    | [], (ya, yv) :: y =>
      unfold fmaLoopF
      have h1 := ih [] y (fun t ht => hy t (by simp [ht])) (fun t ht => hf t (by simp [ht]))
        (by simp only [List.length_cons, List.length_nil] at hN ⊢; omega) (mulErr R xv yv e).2
      have h2 := hmul ya yv e (hy (ya, yv) (by simp))
      simp only [value_cons, value_nil, zero_add] at h1 ⊢
      have h3 := abs_add_le (xv * m xa * (yv * m ya) - (mulErr R xv yv e).1 * m (addIndex xa ya))
        (xv * m xa * value m y - value m (fmaLoopF R fma xa xv N [] y (mulErr R xv yv e).2).1)
      have h4 : xv * m xa * (yv * m ya + value m y) - ((mulErr R xv yv e).1 * m (addIndex xa ya) +
          value m (fmaLoopF R fma xa xv N [] y (mulErr R xv yv e).2).1) =
        (xv * m xa * (yv * m ya) - (mulErr R xv yv e).1 * m (addIndex xa ya)) +
        (xv * m xa * value m y -
          value m (fmaLoopF R fma xa xv N [] y (mulErr R xv yv e).2).1) := by ring
      rw [h4]
      rw [mul_sub] at h1 h2 ⊢
      linarith
    | (ra, rv) :: r, (ya, yv) :: y =>
      have hy' : ∀ t ∈ y, m (addIndex xa t.1) = m xa * m t.1 := fun t ht => hy t (by simp [ht])
      have hf' : ∀ t ∈ y, ∀ z e, |(fma xv t.2 z e).1 - (xv * t.2 + z)| ≤
        k * ((fma xv t.2 z e).2 - e) := fun t ht => hf t (by simp [ht])
      simp only [List.length_cons] at hN
      unfold fmaLoopF
      by_cases h1 : ra = addIndex xa ya
      · simp only [if_pos h1]
        have h2 := ih r y hy' hf' (by omega) (fma xv yv rv e).2
        have h3 := hf (ya, yv) (by simp) rv e
        simp only at h3
        have hmm := hy (ya, yv) (by simp)
        simp only at hmm
        simp only [value_cons]
        rw [h1]
        have h4 : rv * m (addIndex xa ya) + value m r + xv * m xa * (yv * m ya + value m y) -
            ((fma xv yv rv e).1 * m (addIndex xa ya) +
              value m (fmaLoopF R fma xa xv N r y (fma xv yv rv e).2).1) =
            (xv * yv + rv - (fma xv yv rv e).1) * m (addIndex xa ya) +
            (value m r + xv * m xa * value m y -
              value m (fmaLoopF R fma xa xv N r y (fma xv yv rv e).2).1) := by
          rw [hmm]; ring
        rw [h4]
        have h5 := abs_add_le ((xv * yv + rv - (fma xv yv rv e).1) * m (addIndex xa ya))
            (value m r + xv * m xa * value m y -
              value m (fmaLoopF R fma xa xv N r y (fma xv yv rv e).2).1)
        have h6 : |(xv * yv + rv - (fma xv yv rv e).1) * m (addIndex xa ya)| ≤
            k * ((fma xv yv rv e).2 - e) := by
          rw [abs_mul, abs_sub_comm]
          exact (mul_le_of_le_one_right (abs_nonneg _) (hm _)).trans h3
        rw [mul_sub] at h2 h6 ⊢
        linarith
      · simp only [if_neg h1]
        by_cases h2 : revLexLess ra (addIndex xa ya) = true
        · rw [if_pos h2]
          have := ih r ((ya, yv) :: y) hy hf (by simp only [List.length_cons]; omega) e
          simp only [value_cons] at this ⊢
          have h4 : rv * m ra + value m r + xv * m xa * (yv * m ya + value m y) -
              (rv * m ra + value m (fmaLoopF R fma xa xv N r ((ya, yv) :: y) e).1) =
              value m r + xv * m xa * (yv * m ya + value m y) -
                value m (fmaLoopF R fma xa xv N r ((ya, yv) :: y) e).1 := by ring
          rw [h4]
          exact this
        · rw [if_neg h2]
          have h3 := ih ((ra, rv) :: r) y hy' hf' (by simp only [List.length_cons]; omega)
            (mulErr R xv yv e).2
          have h5 := hmul ya yv e (hy (ya, yv) (by simp))
          simp only [value_cons] at h3 ⊢
          have h4 : rv * m ra + value m r + xv * m xa * (yv * m ya + value m y) -
              ((mulErr R xv yv e).1 * m (addIndex xa ya) +
                value m (fmaLoopF R fma xa xv N ((ra, rv) :: r) y (mulErr R xv yv e).2).1) =
              (xv * m xa * (yv * m ya) - (mulErr R xv yv e).1 * m (addIndex xa ya)) +
              (rv * m ra + value m r + xv * m xa * value m y -
                value m (fmaLoopF R fma xa xv N ((ra, rv) :: r) y (mulErr R xv yv e).2).1) := by
            ring
          rw [h4]
          have h6 := abs_add_le
            (xv * m xa * (yv * m ya) - (mulErr R xv yv e).1 * m (addIndex xa ya))
            (rv * m ra + value m r + xv * m xa * value m y -
                value m (fmaLoopF R fma xa xv N ((ra, rv) :: r) y (mulErr R xv yv e).2).1)
          rw [mul_sub] at h3 h5 ⊢
          linarith

/-- Sweeping, when the error is only known up to a factor. -/
theorem sweep_scaled (s : Sweeper K) (t : TM K) (k : K) (hk : 1 ≤ k) (m : List Nat → K)
    (hm : ∀ a, |m a| ≤ 1) (v : K) (h : |v - value m t.terms| ≤ k * t.err) :
    |v - value m (sweep R s t).terms| ≤ k * (sweep R s t).err := by
  have h2 := sweepLoop_ok R (s t) m hm t.terms 0
  have h3 := R.le_up (t.err + (sweepLoop R (s t) t.terms 0).2)
  have h0 : 0 ≤ (sweepLoop R (s t) t.terms 0).2 - 0 := (abs_nonneg _).trans h2
  unfold sweep
  simp only
  have h4 := abs_sub_le v (value m t.terms) (value m (sweepLoop R (s t) t.terms 0).1)
  have h5 : k * (t.err + (sweepLoop R (s t) t.terms 0).2) ≤
      k * R.up (t.err + (sweepLoop R (s t) t.terms 0).2) :=
    mul_le_mul_of_nonneg_left h3 (by linarith)
  have h6 : (sweepLoop R (s t) t.terms 0).2 ≤ k * (sweepLoop R (s t) t.terms 0).2 :=
    le_mul_of_one_le_left (by linarith) hk
  rw [mul_add] at h5
  linarith

theorem fmaSteps_ok (fma : K → K → K → K → K × K) (k : K) (hk : 1 ≤ k) (s : Sweeper K)
    (m : List Nat → K) (hm : ∀ a, |m a| ≤ 1) (x y : Terms (List Nat) K)
    (hy : ∀ u ∈ x, ∀ t ∈ y, m (addIndex u.1 t.1) = m u.1 * m t.1)
    (hf : ∀ u ∈ x, ∀ t ∈ y, ∀ z e,
      |(fma u.2 t.2 z e).1 - (u.2 * t.2 + z)| ≤ k * ((fma u.2 t.2 z e).2 - e))
    (r : TM K) (v : K) (hr : |v - value m r.terms| ≤ k * r.err) :
    |v + value m x * value m y - value m (x.foldl (fmaStep R fma s y) r).terms| ≤
      k * (x.foldl (fmaStep R fma s y) r).err := by
  induction x generalizing r v with
  | nil => simpa using hr
  | cons u x ih =>
    obtain ⟨xa, xv⟩ := u
    rw [List.foldl_cons]
    have h1 := fmaLoop_ok R fma k hk m hm xa xv (r.terms.length + y.length) r.terms y
      (hy (xa, xv) (by simp)) (hf (xa, xv) (by simp)) le_rfl 0
    have h2 : |v + xv * m xa * value m y - value m (fmaStep R fma s y r (xa, xv)).terms| ≤
        k * (fmaStep R fma s y r (xa, xv)).err := by
      unfold fmaStep
      apply sweep_scaled R s _ k hk m hm
      simp only
      generalize fmaLoopF R fma xa xv (r.terms.length + y.length) r.terms y 0 = w at *
      have h3 := mul_le_mul_of_nonneg_left (R.le_up (r.err + w.2)) (by linarith : 0 ≤ k)
      have h4 := abs_add_le (v - value m r.terms)
        (value m r.terms + xv * m xa * value m y - value m w.1)
      have h5 : v + xv * m xa * value m y - value m w.1 = v - value m r.terms +
        (value m r.terms + xv * m xa * value m y - value m w.1) := by ring
      rw [h5]
      rw [sub_zero] at h1
      rw [mul_add] at h3
      linarith
    have h3 := ih (fun u hu => hy u (by simp [hu])) (fun u hu => hf u (by simp [hu]))
      (fmaStep R fma s y r (xa, xv)) (v + xv * m xa * value m y) h2
    rw [value_cons]
    have h4 : v + (xv * m xa + value m x) * value m y = v + xv * m xa * value m y +
      value m x * value m y := by ring
    simp only
    rw [h4]
    exact h3

/-- The sum of the magnitudes bounds the polynomial. -/
theorem abs_value_le_magSum (m : List Nat → K) (hm : ∀ a, |m a| ≤ 1) (p : Terms (List Nat) K) :
    |value m p| ≤ magSum R p := by
  have key : ∀ (p : Terms (List Nat) K) (r : K), r + |value m p| ≤
      p.foldl (fun r t => R.up (r + |t.2|)) r := by
    intro p
    induction p with
    | nil => intro r; simp
    | cons t p ih =>
      intro r
      rw [List.foldl_cons, value_cons]
      have h1 := ih (R.up (r + |t.2|))
      have h2 := R.le_up (r + |t.2|)
      have h3 := abs_add_le (t.2 * m t.1) (value m p)
      have h4 : |t.2 * m t.1| ≤ |t.2| := by
        rw [abs_mul]
        exact mul_le_of_le_one_right (abs_nonneg _) (hm _)
      linarith
  have := key p 0
  rwa [zero_add] at this

theorem ifma_ok (fma : K → K → K → K → K × K) (k : K) (hk : 1 ≤ k) (s : Sweeper K) (n : Nat)
    (r x y : TM K) (hx : WF n x) (hy : WF n y)
    (hdeg : ∀ u ∈ x.terms, ∀ t ∈ y.terms, u.1.sum + t.1.sum < 65536)
    (hf : ∀ u ∈ x.terms, ∀ t ∈ y.terms, ∀ z e,
      |(fma u.2 t.2 z e).1 - (u.2 * t.2 + z)| ≤ k * ((fma u.2 t.2 z e).2 - e))
    (p f g : List K → K) (hp : Encloses n r p) (hfx : Encloses n x f) (hgy : Encloses n y g)
    (z : List K) (hz : InBox n z) :
    |p z + f z * g z - value (monomial z) (ifmaWith fma R s r x y).terms| ≤
      k * (ifmaWith fma R s r x y).err := by
  have hm := abs_monomial_le z hz.2
  have hxe := hfx.err_nonneg
  have hye := hgy.err_nonneg
  have hre := hp.err_nonneg
  have h1 := fmaSteps_ok R fma k hk s (monomial z) hm x.terms y.terms
    (fun u hu t ht => monomial_addIndex z u.1 t.1 ((hx u hu).trans (hy t ht).symm)
      (hdeg u hu t ht)) hf r (p z)
    ((hp z hz).trans (le_mul_of_one_le_left hre hk))
  have h2 := hfx z hz
  have h3 := hgy z hz
  have h4 := abs_value_le_magSum R (monomial z) hm x.terms
  have h5 := abs_value_le_magSum R (monomial z) hm y.terms
  unfold ifmaWith
  simp only
  generalize x.terms.foldl (fmaStep R fma s y.terms) r = w at *
  generalize magSum R x.terms = xs at *
  generalize magSum R y.terms = ys at *
  generalize value (monomial z) x.terms = X at *
  generalize value (monomial z) y.terms = Y at *
  have h6 : |(f z - X) * (g z - Y)| ≤ x.err * y.err := by
    rw [abs_mul]; exact mul_le_mul h2 h3 (abs_nonneg _) hxe
  have h7 : |X * (g z - Y)| ≤ xs * y.err := by
    rw [abs_mul]; exact mul_le_mul h4 h3 (abs_nonneg _) ((abs_nonneg _).trans h4)
  have h8 : |Y * (f z - X)| ≤ ys * x.err := by
    rw [abs_mul]; exact mul_le_mul h5 h2 (abs_nonneg _) ((abs_nonneg _).trans h5)
  have h9 : p z + f z * g z - value (monomial z) w.terms =
    (p z + X * Y - value (monomial z) w.terms) + ((f z - X) * (g z - Y)) +
      (X * (g z - Y) + Y * (f z - X)) := by ring
  rw [h9]
  have a1 := abs_add_le ((p z + X * Y - value (monomial z) w.terms) + ((f z - X) * (g z - Y)))
    (X * (g z - Y) + Y * (f z - X))
  have a2 := abs_add_le (p z + X * Y - value (monomial z) w.terms) ((f z - X) * (g z - Y))
  have a3 := abs_add_le (X * (g z - Y)) (Y * (f z - X))
  have b1 := R.le_up (x.err * y.err)
  have b2 := R.le_up (w.err + R.up (x.err * y.err))
  have b3 := R.le_up (xs * y.err)
  have b4 := R.le_up (ys * x.err)
  have b5 := R.le_up (R.up (xs * y.err) + R.up (ys * x.err))
  have b6 := R.le_up (R.up (w.err + R.up (x.err * y.err)) +
    R.up (R.up (xs * y.err) + R.up (ys * x.err)))
  have c1 : w.err + x.err * y.err + (xs * y.err + ys * x.err) ≤
    R.up (R.up (w.err + R.up (x.err * y.err)) +
      R.up (R.up (xs * y.err) + R.up (ys * x.err))) := by linarith
  have c2 := mul_le_mul_of_nonneg_left c1 (by linarith : 0 ≤ k)
  have c3 : x.err * y.err + (xs * y.err + ys * x.err) ≤
      k * (x.err * y.err + (xs * y.err + ys * x.err)) := by
    apply le_mul_of_one_le_left _ hk
    have := (abs_nonneg _).trans h6
    have := (abs_nonneg _).trans h7
    have := (abs_nonneg _).trans h8
    linarith
  have c4 : k * (w.err + x.err * y.err + (xs * y.err + ys * x.err)) =
    k * w.err + k * (x.err * y.err + (xs * y.err + ys * x.err)) := by ring
  linarith

theorem encloses_zero (n : Nat) : Encloses n (⟨[], 0⟩ : TM K) (fun _ => 0) := by
  intro z _; simp

/-- **C25** (partial): the product of models encloses the product of the functions up to a factor of
two in the error, in any precision and with any sweeper, provided no exponent overflows.  The full
statement, with the error itself, is false: see `C25_mul_counterexample`. -/
theorem C25_mul_partial (n : Nat) (s : Sweeper K) (x y : TM K) (hx : WF n x) (hy : WF n y)
    (hdeg : ∀ u ∈ x.terms, ∀ t ∈ y.terms, u.1.sum + t.1.sum < 65536)
    (f g : List K → K) (hf : Encloses n x f) (hg : Encloses n y g) (z : List K) (hz : InBox n z) :
    |f z * g z - value (monomial z) (mul R s x y).terms| ≤ 2 * (mul R s x y).err := by
  have := ifma_ok R (fmaErr R) 2 (by norm_num) s n ⟨[], 0⟩ x y hx hy hdeg
    (fun u _ t _ z e => fmaErr_ok2 R u.2 t.2 z e) (fun _ => 0) f g (encloses_zero n) hf hg z hz
  simp only [zero_add] at this
  exact this

/-- **C25** (exact products): when the products of the coefficients are representable, the product
of models encloses the product of the functions. -/
theorem C25_mul_exact_products (n : Nat) (s : Sweeper K) (x y : TM K) (hx : WF n x) (hy : WF n y)
    (hdeg : ∀ u ∈ x.terms, ∀ t ∈ y.terms, u.1.sum + t.1.sum < 65536)
    (hrep : ∀ u ∈ x.terms, ∀ t ∈ y.terms, R.Rep (u.2 * t.2))
    (f g : List K → K) (hf : Encloses n x f) (hg : Encloses n y g) :
    Encloses n (mul R s x y) (fun z => f z * g z) := by
  intro z hz
  have := ifma_ok R (fmaErr R) 1 le_rfl s n ⟨[], 0⟩ x y hx hy hdeg
    (fun u hu t ht z e => by rw [one_mul]; exact fmaErr_exact R u.2 t.2 z e (hrep u hu t ht))
    (fun _ => 0) f g (encloses_zero n) hf hg z hz
  simp only [zero_add, one_mul] at this
  exact this

/-- **C25** (the algorithm): with any multiply-add that accounts for its own rounding error, the
multiplication algorithm (merging, sweeping and combining the errors) loses no function. -/
theorem C25_ifma_sound (fma : K → K → K → K → K × K)
    (hfma : ∀ x y z e, |(fma x y z e).1 - (x * y + z)| ≤ (fma x y z e).2 - e)
    (n : Nat) (s : Sweeper K) (r x y : TM K) (hx : WF n x) (hy : WF n y)
    (hdeg : ∀ u ∈ x.terms, ∀ t ∈ y.terms, u.1.sum + t.1.sum < 65536)
    (p f g : List K → K) (hp : Encloses n r p) (hf : Encloses n x f) (hg : Encloses n y g) :
    Encloses n (ifmaWith fma R s r x y) (fun z => p z + f z * g z) := by
  intro z hz
  have := ifma_ok R fma 1 le_rfl s n r x y hx hy hdeg
    (fun u _ t _ z e => by rw [one_mul]; exact hfma u.2 t.2 z e) p f g hp hf hg z hz
  rwa [one_mul] at this

/-- Multiplying and then adding, each with its own error, is such a multiply-add. -/
def mulThenAdd (x y z e : K) : K × K :=
  addErr R (mulErr R x y e).1 z (mulErr R x y e).2

theorem mulThenAdd_ok (x y z e : K) :
    |(mulThenAdd R x y z e).1 - (x * y + z)| ≤ (mulThenAdd R x y z e).2 - e := by
  have h1 := mulErr_ok R x y e
  have h2 := addErr_ok R (mulErr R x y e).1 z (mulErr R x y e).2
  unfold mulThenAdd
  have h3 := abs_add_le ((addErr R (mulErr R x y e).1 z (mulErr R x y e).2).1 -
    ((mulErr R x y e).1 + z)) ((mulErr R x y e).1 - x * y)
  have h4 : (addErr R (mulErr R x y e).1 z (mulErr R x y e).2).1 - (x * y + z) =
    ((addErr R (mulErr R x y e).1 z (mulErr R x y e).2).1 -
    ((mulErr R x y e).1 + z)) + ((mulErr R x y e).1 - x * y) := by ring
  rw [h4]
  linarith

/-- **C25** (repaired): with `mul_err` followed by `add_err` in place of `fma_err`, multiplication
loses no function. -/
theorem C25_mul_repaired (n : Nat) (s : Sweeper K) (x y : TM K) (hx : WF n x) (hy : WF n y)
    (hdeg : ∀ u ∈ x.terms, ∀ t ∈ y.terms, u.1.sum + t.1.sum < 65536)
    (f g : List K → K) (hf : Encloses n x f) (hg : Encloses n y g) :
    Encloses n (ifmaWith (mulThenAdd R) R s ⟨[], 0⟩ x y) (fun z => f z * g z) := by
  have := C25_ifma_sound R (mulThenAdd R) (mulThenAdd_ok R) n s ⟨[], 0⟩ x y hx hy hdeg
    (fun _ => 0) f g (encloses_zero n) hf hg
  simpa only [zero_add] using this

end

/-- **C25** fails: with two-bit numbers, the product of `2s+3/2` and `(3/2)s+4` is computed as
`3s²+8s+6±2`, but at `s=1` the product is `2+1/4` away from that polynomial. -/
theorem C25_mul_counterexample :
    ∃ (R : Rounding ℚ) (s : Sweeper ℚ) (x y : TM ℚ) (f g : List ℚ → ℚ),
      WF 1 x ∧ WF 1 y ∧ (∀ u ∈ x.terms, R.Rep u.2) ∧ (∀ u ∈ y.terms, R.Rep u.2) ∧
      Encloses 1 x f ∧ Encloses 1 y g ∧ ¬ Encloses 1 (mul R s x y) (fun z => f z * g z) := by
  refine ⟨Ariadne.PBit.rounding 2 (by norm_num), trivialSweeper, ⟨[([1], 2), ([0], 3 / 2)], 0⟩,
    ⟨[([1], 3 / 2), ([0], 4)], 0⟩, fun z => 2 * z.headD 0 + 3 / 2, fun z => 3 / 2 * z.headD 0 + 4,
    by simp [WF], by simp [WF], ?_, ?_, ?_, ?_, ?_⟩
  · intro u hu
    simp only [List.mem_cons, List.not_mem_nil, or_false] at hu
    rcases hu with rfl | rfl
    · exact ⟨1, 1, by norm_num, by norm_num⟩
    · exact ⟨3, -1, by norm_num, by norm_num⟩
  · intro u hu
    simp only [List.mem_cons, List.not_mem_nil, or_false] at hu
    rcases hu with rfl | rfl
    · exact ⟨3, -1, by norm_num, by norm_num⟩
    · exact ⟨1, 2, by norm_num, by norm_num⟩
  · intro x hx
    obtain ⟨y, rfl⟩ := List.length_eq_one_iff.1 hx.1
    simp [monomial]
  · intro x hx
    obtain ⟨y, rfl⟩ := List.length_eq_one_iff.1 hx.1
    simp [monomial]
  · intro h
    have h1 := h [1] ⟨rfl, by simp⟩
    have e1 : (mul (Ariadne.PBit.rounding 2 (by norm_num)) trivialSweeper
        (⟨[([1], 2), ([0], 3 / 2)], 0⟩ : TM ℚ) ⟨[([1], 3 / 2), ([0], 4)], 0⟩).terms =
        [([2], 3), ([1], 8), ([0], 6)] := by decide +kernel
    have e2 : (mul (Ariadne.PBit.rounding 2 (by norm_num)) trivialSweeper
        (⟨[([1], 2), ([0], 3 / 2)], 0⟩ : TM ℚ) ⟨[([1], 3 / 2), ([0], 4)], 0⟩).err = 2 := by
      decide +kernel
    rw [e1, e2] at h1
    simp [monomial] at h1
    norm_num [abs_le] at h1

/-- **C25** fails when an exponent overflows: `s^65535` times `s` is computed as `1`. -/
theorem C25_overflow_counterexample (R : Rounding ℚ) :
    Encloses 1 (⟨[([65535], 1)], 0⟩ : TM ℚ) (fun z => z.headD 0 ^ 65535) ∧
    Encloses 1 (⟨[([1], 1)], 0⟩ : TM ℚ) (fun z => z.headD 0) ∧
    ¬ Encloses 1 (mul R trivialSweeper (⟨[([65535], 1)], 0⟩ : TM ℚ) ⟨[([1], 1)], 0⟩)
      (fun z => z.headD 0 ^ 65535 * z.headD 0) := by
  refine ⟨?_, ?_, ?_⟩
  · intro x hx
    obtain ⟨y, rfl⟩ := List.length_eq_one_iff.1 hx.1
    simp only [value_cons, value_nil, monomial_cons, monomial_nil_left, List.headD_cons]
    simp
  · intro x hx
    obtain ⟨y, rfl⟩ := List.length_eq_one_iff.1 hx.1
    simp [monomial]
  · intro h
    have h1 := h [0] ⟨rfl, by simp⟩
    have u0 : R.up 0 = 0 := up_of_rep R R.rep_zero
    have u1 : R.up 1 = 1 := up_of_rep R R.rep_one
    have d1 : R.up (-1) = -1 := up_of_rep R (R.rep_neg _ R.rep_one)
    have n1 : R.near 1 = 1 := near_of_rep R R.rep_one
    have e : mul R trivialSweeper (⟨[([65535], 1)], 0⟩ : TM ℚ) ⟨[([1], 1)], 0⟩ =
        ⟨[([0], 1)], 0⟩ := by
      simp [mul, ifma, ifmaWith, fmaStep, fmaLoopF, sweep, sweepLoop, trivialSweeper, addIndex,
        wrap, mulErr, accum, magSum, u0, u1, d1, n1]
    rw [e] at h1
    simp [monomial] at h1
    norm_num at h1

/-- Non-vacuity of C25: `(1+s)(1-s)` in 53-bit arithmetic. -/
example : Encloses 1 (⟨[([1], 1), ([0], 1)], 0⟩ : TM ℚ) (fun z => z.headD 0 + 1) ∧
    Encloses 1 (⟨[([1], -1), ([0], 1)], 1 / 8⟩ : TM ℚ) (fun z => 1 - z.headD 0) ∧
    (mul (Ariadne.PBit.rounding 53 (by norm_num)) trivialSweeper
      (⟨[([1], 1), ([0], 1)], 0⟩ : TM ℚ) ⟨[([1], -1), ([0], 1)], 1 / 8⟩).terms =
      [([2], -1), ([1], 0), ([0], 1)] ∧
    (mul (Ariadne.PBit.rounding 53 (by norm_num)) trivialSweeper
      (⟨[([1], 1), ([0], 1)], 0⟩ : TM ℚ) ⟨[([1], -1), ([0], 1)], 1 / 8⟩).err = 1 / 4 := by
  refine ⟨?_, ?_, by decide +kernel, by decide +kernel⟩
  · intro x hx
    obtain ⟨y, rfl⟩ := List.length_eq_one_iff.1 hx.1
    simp [monomial]
  · intro x hx
    obtain ⟨y, rfl⟩ := List.length_eq_one_iff.1 hx.1
    simp [monomial]
    have : 1 - y - (-y + 1) = 0 := by ring
    rw [this]; norm_num

end Verif.TaylorModel
