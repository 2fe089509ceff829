import Verif.Solver.Props
import Verif.Flow.ODE

/-!
# Flow bounds

Model of `EulerBounder` (source/solvers/bounder.cpp), which finds a time step and a box that contains
the solutions of `x' = f(x,t,a)` for that time.

The function is given by its range `F B T` over `product(B,T,A)`; the box `A` of parameters is fixed
and the same for every call.  An autonomous function is one whose range does not depend on `T`
(bounder.cpp 130-131).  The Lipschitz constant only serves to choose the first step `hlip`
(bounder.cpp 68-69), which is arbitrary here.
-/

namespace Verif.Flow

open Ariadne Verif.ConstraintSolver Verif.Matrix Verif.Solver Set
open Ariadne.Ext (fin)

section Model

variable {n : ℕ} {K : Type*} [Field K] [LinearOrder K] [IsStrictOrderedRing K] (R : XRounding K)

/-- `apply(f,product(B,T,A))` (bounder.cpp 131, 135). -/
abbrev RangeFn (n : ℕ) (K : Type*) := Box n K → Bounds K → Box n K

/-- `to_time_bounds(t,t+h)` (interval.hpp 439-440): both ends are rounded down. -/
def timeBounds (t h : K) : Bounds K := ⟨R.down t, R.down (t + h)⟩

/-- `midpoint()` of an interval with exact end points (interval.inl.hpp 29, 48). -/
def midpoint (D : Bounds K) : Ext K :=
  Bounds.value R (Bounds.hlf ⟨Ext.add R.down D.l D.u, Ext.add R.up D.l D.u⟩)

/-- The widened initial interval `wD` (bounder.cpp 133): it is widened exactly if the factor is one. -/
def widened (D : Bounds K) (w : K) : Bounds K :=
  if w ≠ 1 then D
  else Bounds.add R D (Bounds.opMulFB R (fin w) (Bounds.subBF R D (midpoint R D)))

/-- `EulerBounder::_formula` (bounder.cpp 125-136). -/
def formula (F : RangeFn n K) (D : Box n K) (T : Bounds K) (B : Box n K) (w v : K) : Box n K := fun i =>
  Bounds.add R (widened R (D i) w)
    (Bounds.mul R (Bounds.opMulFB R (fin v) (Bounds.subBF R T T.l)) (F B T i))

/-- `EulerBounder::_refinement` (bounder.cpp 120-123). -/
def refine (F : RangeFn n K) (D : Box n K) (T : Bounds K) (B : Box n K) : Box n K := formula R F D T B 1 1

/-- `is_bounded(Box)` (box.tpl.hpp 48-56, interval.inl.hpp 80). -/
def isBounded (B : Box n K) : Bool :=
  (List.finRange n).all fun i => Ext.lt (B i).l.neg .pinf && Ext.lt (B i).u .pinf

/-- The loop over the expansion steps (bounder.cpp 82-97); `none` if `success` remains false. -/
def expand (F : RangeFn n K) (D : Box n K) (T : Bounds K) : ℕ → Box n K → Option (Box n K)
  | 0, _ => none
  | k + 1, B =>
    if isBounded (refine R F D T B) = false then none
    else if vRefines (refine R F D T B) B then some (refine R F D T B)
    else expand F D T k (formula R F D T B 1 (9 / 8))

/-- The loop over the refinement steps (bounder.cpp 110-113). -/
def refineLoop (F : RangeFn n K) (D : Box n K) (T : Bounds K) : ℕ → Box n K → Box n K
  | 0, B => B
  | k + 1, B => refineLoop F D T k (refine R F D T B)

/-- What the bounder ends with: a step and a box; a `BoundingNotFoundException`; or it is still
running after the given number of rounds. -/
inductive Outcome (n : ℕ) (K : Type*)
  | found (h : K) (B : Box n K)
  | notFound
  | running

/-- The loop over the step sizes (bounder.cpp 80-107), with `hprev` the previous step.  The conversion
of a number to double precision and back is `getd` (bounder.cpp 102). -/
def search (F : RangeFn n K) (getd : K → K) (hmin : K) (D : Box n K) (t : K) : ℕ → K → K → Outcome n K
  | 0, _, _ => .running
  | k + 1, h, hprev =>
    match expand R F D (timeBounds R t h) 4 (formula R F D (timeBounds R t h) D (1 / 4) 2) with
    | some B => .found h (refineLoop R F D (timeBounds R t h) 4 B)
    | none =>
      if getd (hprev / 2) < hmin then .notFound
      else search F getd hmin D t k (getd (hprev / 2)) h

/-- `EulerBounder::_compute` (bounder.cpp 56-118). -/
def compute (F : RangeFn n K) (getd : K → K) (hmin : K) (D : Box n K) (t hlip hsug : K) (fuel : ℕ) :
    Outcome n K := search R F getd hmin D t fuel (min hlip hsug) (min hlip hsug * (3 / 2))

end Model

/-! ## The step -/

section Step

variable {n : ℕ} {K : Type*} [Field K] [LinearOrder K] [IsStrictOrderedRing K] {R : XRounding K}

theorem search_step {F : RangeFn n K} {getd : K → K} (hg : ∀ x, 0 ≤ x → 0 ≤ getd x ∧ getd x ≤ x)
    {hmin : K} {D : Box n K} {t c : K} :
    ∀ (k : ℕ) (h hprev h' : K) (B : Box n K), 0 ≤ h → h ≤ c → 0 ≤ hprev → hprev / 2 ≤ c →
      search R F getd hmin D t k h hprev = .found h' B →
      0 ≤ h' ∧ h' ≤ c ∧ (h' = h ∨ hmin ≤ h') ∧
        ∃ B₁, expand R F D (timeBounds R t h') 4 (formula R F D (timeBounds R t h') D (1 / 4) 2) = some B₁ ∧
          B = refineLoop R F D (timeBounds R t h') 4 B₁
  | 0, _, _, _, _, _, _, _, _, e => by simp [search] at e
  | k + 1, h, hprev, h', B, h0, hc, hp0, hpc, e => by
    rw [search] at e
    cases hx : expand R F D (timeBounds R t h) 4 (formula R F D (timeBounds R t h) D (1 / 4) 2) with
    | some B₁ =>
      rw [hx] at e
      simp only [Outcome.found.injEq] at e
      obtain ⟨rfl, rfl⟩ := e
      exact ⟨h0, hc, Or.inl rfl, B₁, hx, rfl⟩
    | none =>
      rw [hx] at e
      simp only at e
      by_cases hm : getd (hprev / 2) < hmin
      · rw [if_pos hm] at e
        exact absurd e (by simp)
      · rw [if_neg hm] at e
        obtain ⟨g0, g1⟩ := hg (hprev / 2) (by linarith)
        obtain ⟨r0, r1, r2, r3⟩ := search_step hg k _ _ _ _ g0 (g1.trans hpc) h0 (by linarith) e
        refine ⟨r0, r1, Or.inr ?_, r3⟩
        rcases r2 with r2 | r2
        · rw [r2]; exact not_lt.1 hm
        · exact r2

/-- **C59**: the step returned is not negative, not greater than the suggestion, and either the first
one tried or not below the minimum. -/
theorem C59_step {F : RangeFn n K} {getd : K → K} (hg : ∀ x, 0 ≤ x → 0 ≤ getd x ∧ getd x ≤ x)
    {hmin : K} {D : Box n K} {t hlip hsug : K} (hl : 0 ≤ hlip) (hs : 0 ≤ hsug) {fuel : ℕ} {h : K}
    {B : Box n K} (e : compute R F getd hmin D t hlip hsug fuel = .found h B) :
    0 ≤ h ∧ h ≤ hsug ∧ (h = min hlip hsug ∨ hmin ≤ h) := by
  have h0 : 0 ≤ min hlip hsug := le_min hl hs
  have h1 : min hlip hsug ≤ hsug := min_le_right _ _
  obtain ⟨a, b, c, -⟩ := search_step hg fuel _ _ _ _ h0 h1 (by linarith) (by linarith) e
  exact ⟨a, b, c⟩

theorem search_running {F : RangeFn n K} {getd : K → K} (hg : ∀ x, 0 ≤ x → 0 ≤ getd x ∧ getd x ≤ x)
    {hmin : K} {D : Box n K} {t : K} :
    ∀ (k : ℕ) (h hprev : K), 0 ≤ h → 0 ≤ hprev → h < hmin * 2 ^ k → hprev / 2 < hmin * 2 ^ k →
      search R F getd hmin D t (2 * k + 2) h hprev ≠ .running
  | 0, h, hprev, h0, hp0, hh, hp => by
    rw [search]
    cases expand R F D (timeBounds R t h) 4 (formula R F D (timeBounds R t h) D (1 / 4) 2) with
    | some B => simp
    | none =>
      simp only
      rw [if_pos (lt_of_le_of_lt (hg _ (by linarith)).2 (by simpa using hp))]
      simp
  | k + 1, h, hprev, h0, hp0, hh, hp => by
    show search R F getd hmin D t (2 * k + 2 + 1 + 1) h hprev ≠ .running
    rw [search]
    cases expand R F D (timeBounds R t h) 4 (formula R F D (timeBounds R t h) D (1 / 4) 2) with
    | some B => simp
    | none =>
      simp only
      by_cases hm : getd (hprev / 2) < hmin
      · rw [if_pos hm]; simp
      rw [if_neg hm]
      obtain ⟨g0, g1⟩ := hg (hprev / 2) (by linarith)
      rw [search]
      cases expand R F D (timeBounds R t (getd (hprev / 2))) 4
          (formula R F D (timeBounds R t (getd (hprev / 2))) D (1 / 4) 2) with
      | some B => simp
      | none =>
        simp only
        by_cases hm' : getd (h / 2) < hmin
        · rw [if_pos hm']; simp
        rw [if_neg hm']
        obtain ⟨g0', g1'⟩ := hg (h / 2) (by linarith)
        have e : hmin * 2 ^ (k + 1) = 2 * (hmin * 2 ^ k) := by ring
        rw [e] at hh hp
        exact search_running hg k _ _ g0' g0 (by linarith) (by linarith)

/-- **C59**: for a positive minimum step size the search ends, with a bound or an exception. -/
theorem C59_terminates [Archimedean K] {F : RangeFn n K} {getd : K → K}
    (hg : ∀ x, 0 ≤ x → 0 ≤ getd x ∧ getd x ≤ x) {hmin : K} (hmin0 : 0 < hmin) {D : Box n K}
    {t hlip hsug : K} (hl : 0 ≤ hlip) (hs : 0 ≤ hsug) :
    ∃ fuel, compute R F getd hmin D t hlip hsug fuel ≠ .running := by
  obtain ⟨k, hk⟩ := pow_unbounded_of_one_lt (min hlip hsug / hmin) (one_lt_two (α := K))
  have h0 : 0 ≤ min hlip hsug := le_min hl hs
  have hk' : min hlip hsug < hmin * 2 ^ k := by
    rw [div_lt_iff₀ hmin0] at hk
    linarith
  exact ⟨2 * k + 2, search_running hg k _ _ h0 (by linarith) hk' (by linarith)⟩

end Step

/-! ## The bound -/

variable {n : ℕ} (R : Rounding ℝ)

local notation "XR" => XRounding.ofRounding R

theorem midpoint_mem {a b : ℝ} (hab : a ≤ b) (ha : R.Rep a) (hb : R.Rep b) :
    ∃ m, midpoint XR ⟨fin a, fin b⟩ = fin m ∧ a ≤ m ∧ m ≤ b := by
  have h1 : 2 * a ≤ R.down (a + b) := R.down_max _ _ (R.rep_two _ ha) (by linarith)
  have h2 : R.up (a + b) ≤ 2 * b := R.up_min _ _ (R.rep_two _ hb) (by linarith)
  have h3 : R.down (a + b) / 2 ≤ R.up (a + b) / 2 := by
    have := (R.down_le (a + b)).trans (R.le_up (a + b))
    linarith
  obtain ⟨m, e, m1, m2⟩ := Bounds.C08_value_mem R h3 (R.rep_half _ (R.rep_down (a + b)))
    (R.rep_half _ (R.rep_up (a + b)))
  exact ⟨m, e, by linarith, by linarith⟩

/-- The widened initial interval contains the initial interval. -/
theorem widened_in {D : Bounds ℝ} {a b : ℝ} (e : D = ⟨fin a, fin b⟩) (ha : R.Rep a) (hb : R.Rep b)
    {x w : ℝ} (h1 : a ≤ x) (h2 : x ≤ b) (hw : 0 ≤ w) : In (widened XR D w) x := by
  have hD : ∀ y, a ≤ y → y ≤ b → In D y := fun y hy hy' => by
    rw [e]; exact ⟨⟨⟨a, rfl⟩, b, rfl⟩, hy, hy'⟩
  unfold widened
  split_ifs with hw1
  · exact hD x h1 h2
  · obtain ⟨m, hm, m1, m2⟩ := midpoint_mem R (h1.trans h2) ha hb
    rw [show midpoint XR D = fin m by rw [e]; exact hm]
    have := in_add R (hD x h1 h2) (in_opMulFB R (rfl : fin w = fin w) (in_subBF R (hD m m1 m2) (x := m)))
    simpa using this

/-- The times of the step, and their differences. -/
theorem time_in {a b : ℝ} {τ : ℝ} (h0 : 0 ≤ τ) (h1 : τ ≤ b - a) :
    In (Bounds.subBF XR ⟨fin a, fin b⟩ (fin a)) τ := by
  have h := in_subBF R (B := ⟨fin a, fin b⟩) (y := τ + a) (x := a)
    ⟨⟨⟨a, rfl⟩, b, rfl⟩, by show a ≤ τ + a; linarith, by show τ + a ≤ b; linarith⟩
  simpa using h

/-- The scaled time is an interval from zero to a positive number. -/
theorem time_eq {a b v : ℝ} (hab : a < b) (hv : 0 < v) : ∃ c, 0 < c ∧
    Bounds.opMulFB XR (fin v) (Bounds.subBF XR ⟨fin a, fin b⟩ (fin a)) = ⟨fin 0, fin c⟩ := by
  have hz : R.down 0 = 0 := R.down_of_rep R.rep_zero
  refine ⟨R.up (v * R.up (b - a)), ?_, ?_⟩
  · have h1 := R.le_up (b - a)
    have h2 := R.le_up (v * R.up (b - a))
    have h3 : 0 < v * R.up (b - a) := mul_pos hv (by linarith)
    linarith
  · have hle : Ext.le (fin 0) (fin v) = true := by simp [Ext.le, hv.le]
    simp only [Bounds.opMulFB, hle, if_true]
    show (⟨fin (R.down (v * R.down (a + -a))), fin (R.up (v * R.up (b + -a)))⟩ : Bounds ℝ) = _
    rw [add_neg_cancel, hz, mul_zero, hz, ← sub_eq_add_neg]

/-- Such an interval can be multiplied by any interval that is not empty. -/
theorem mul_noNaN {c : ℝ} (hc : 0 < c) {Y : Bounds ℝ} {y : ℝ} (hy : Y.Contains y) :
    (Bounds.mul XR ⟨fin 0, fin c⟩ Y).NoNaN := by
  obtain ⟨l, u⟩ := Y
  have hc' : ¬ c < 0 := not_lt.2 hc.le
  have hc0 : c ≠ 0 := hc.ne'
  have h0 : Ext.le (fin (0 : ℝ)) (fin 0) = true := by simp [Ext.le]
  have hd : ∀ x : ℝ, (XRounding.ofRounding R).down x = fin (R.down x) := fun _ => rfl
  have hu : ∀ x : ℝ, (XRounding.ofRounding R).up x = fin (R.up x) := fun _ => rfl
  have hi : (if c < 0 then (Ext.pinf : Ext ℝ) else Ext.ninf) ≠ Ext.nan := by rw [if_neg hc']; simp
  cases l <;> cases u <;> simp only [Bounds.Contains, IsLower, IsUpper, and_false, false_and] at hy
  all_goals
    simp only [Bounds.mul, h0, if_true]
    split_ifs <;>
    simp_all [Bounds.NoNaN, Ext.mul, Ext.infSign, Ext.le, hd, hu]

/-- The boxes computed enclose the Euler steps. -/
theorem formula_contains {F : RangeFn n ℝ} {D B : Box n ℝ} (hD : GoodBox R D) {a b : ℝ} (hab : a < b)
    {x₀ : Fin n → ℝ} (hx : Mem D x₀) {τ w v : ℝ} (h0 : 0 ≤ τ) (h1 : τ ≤ b - a) (hw : 0 ≤ w) (hv : 0 < v)
    {i : Fin n} {y : ℝ} (hy : (F B ⟨fin a, fin b⟩ i).Contains y) :
    (formula XR F D ⟨fin a, fin b⟩ B w v i).Contains (x₀ i + v * τ * y) := by
  obtain ⟨p, q, e, hp, hq, -⟩ := hD i
  have hxi := hx i
  rw [e] at hxi
  refine Bounds.C05_add _ (widened_in R e hp hq hxi.1 hxi.2 hw).2 ?_
  have ht := in_opMulFB R (rfl : fin v = fin v) (time_in R h0 h1)
  obtain ⟨c, hc, ec⟩ := time_eq R hab hv
  refine Bounds.C05_mul_extended _ ht.2 hy ?_
  show (Bounds.mul XR (Bounds.opMulFB XR (fin v) (Bounds.subBF XR ⟨fin a, fin b⟩ (fin a)))
    (F B ⟨fin a, fin b⟩ i)).NoNaN
  rw [ec]
  exact mul_noNaN R hc hy

theorem refine_contains {F : RangeFn n ℝ} {D B : Box n ℝ} (hD : GoodBox R D) {a b : ℝ} (hab : a < b)
    {x₀ : Fin n → ℝ} (hx : Mem D x₀) {τ : ℝ} (h0 : 0 ≤ τ) (h1 : τ ≤ b - a)
    {i : Fin n} {y : ℝ} (hy : (F B ⟨fin a, fin b⟩ i).Contains y) :
    (refine XR F D ⟨fin a, fin b⟩ B i).Contains (x₀ i + τ * y) := by
  have := formula_contains R hD hab hx h0 h1 zero_le_one zero_lt_one hy
  rwa [one_mul] at this

omit R in
theorem finite_of_bounded {X : Bounds ℝ} (h : (Ext.lt X.l.neg .pinf && Ext.lt X.u .pinf) = true)
    {x : ℝ} (hx : X.Contains x) : X.Finite := by
  obtain ⟨l, u⟩ := X
  cases l <;> cases u <;> simp_all [Bounds.Contains, IsLower, IsUpper, Ext.lt, Ext.neg, Bounds.Finite]

omit R in
theorem refines_contains {X Y : Bounds ℝ} (h : Bounds.refines X Y = true) {x : ℝ} (hx : X.Contains x) :
    Y.Contains x := by
  obtain ⟨l, u⟩ := X
  obtain ⟨l', u'⟩ := Y
  rw [Bounds.refines, Bool.and_eq_true] at h
  cases l <;> cases u <;> cases l' <;> cases u' <;>
    simp_all [Bounds.Contains, IsLower, IsUpper, Ext.le]
  all_goals first | exact ⟨h.1.trans hx.1, hx.2.trans h.2⟩ | linarith [h.1, h.2, hx.1] | linarith

/-- The function `F` bounds the range of the vector fields `f a` for `a` in `P`. -/
def EnclosesRange {α : Type*} (F : RangeFn n ℝ) (P : Set α) (f : α → ℝ → (Fin n → ℝ) → Fin n → ℝ) : Prop :=
  ∀ a ∈ P, ∀ B T x s, Mem B x → Bounds.Contains T s → ∀ i, (F B T i).Contains (f a s x i)

/-- The box `B` bounds the flow of `f` from `D` between the times `t₀` and `t₁`: through every point of
`D` there is a solution up to time `t₁`, it stays in `B`, and so does every other solution until `t₁`. -/
def BoundsFlow (f : ℝ → (Fin n → ℝ) → Fin n → ℝ) (D : Box n ℝ) (t₀ t₁ : ℝ) (B : Box n ℝ) : Prop :=
  ∀ x₀, Mem D x₀ →
    (∃ x, x t₀ = x₀ ∧ IsSolution f t₀ t₁ x ∧ ∀ s ∈ Icc t₀ t₁, Mem B (x s)) ∧
    ∀ t₂ ≤ t₁, ∀ y, y t₀ = x₀ → IsSolution f t₀ t₂ y → ∀ s ∈ Icc t₀ t₂, Mem B (y s)

variable {α : Type*} {F : RangeFn n ℝ} {P : Set α} {f : α → ℝ → (Fin n → ℝ) → Fin n → ℝ} {D B : Box n ℝ}
  {a b t : ℝ} {p : α}

omit R in
/-- It is enough to know one solution. -/
theorem boundsFlow_of_exists {g : ℝ → (Fin n → ℝ) → Fin n → ℝ} (hg : Regular g)
    (h : ∀ x₀, Mem D x₀ → ∃ x, x a = x₀ ∧ IsSolution g a b x ∧ ∀ s ∈ Icc a b, Mem B (x s)) :
    BoundsFlow g D a b B := by
  intro x₀ hx₀
  obtain ⟨x, h0, hx, hB⟩ := h x₀ hx₀
  refine ⟨⟨x, h0, hx, hB⟩, fun t₂ ht₂ y hy0 hy s hs => ?_⟩
  rw [← (hx.mono ht₂).unique hg hy (h0.trans hy0.symm) hs]
  exact hB s ⟨hs.1, hs.2.trans ht₂⟩

/-- If the refinement of a box is bounded and contained in it, then it bounds the flow. -/
theorem boundsFlow_of_refines (hF : EnclosesRange F P f) (hD : GoodBox R D)
    (hab : a < b) (hat : a ≤ t) (htb : t ≤ b) (hDB : ∀ x, Mem D x → Mem B x)
    (hb : isBounded (refine XR F D ⟨fin a, fin b⟩ B) = true)
    (hr : vRefines (refine XR F D ⟨fin a, fin b⟩ B) B = true) (hp : p ∈ P) (hreg : Regular (f p)) :
    BoundsFlow (f p) D t b (refine XR F D ⟨fin a, fin b⟩ B) := by
  refine boundsFlow_of_exists hreg fun x₀ hx₀ => ?_
  set T : Bounds ℝ := ⟨fin a, fin b⟩ with hT
  have hmono : ∀ y, Mem (refine XR F D T B) y → Mem B y := fun y hy i =>
    refines_contains (List.all_eq_true.1 hr i (List.mem_finRange i)) (hy i)
  have hstep : ∀ s ∈ Icc t b, ∀ y, Mem B y → ∀ τ ∈ Icc 0 (b - t), ∀ i,
      (refine XR F D T B i).Contains (x₀ i + τ * f p s y i) := fun s hs y hy τ hτ i =>
    refine_contains R hD hab hx₀ hτ.1 (hτ.2.trans (by linarith))
      (hF p hp B T y s hy ⟨hat.trans hs.1, hs.2⟩ i)
  have h0 := hstep t ⟨le_rfl, htb⟩ x₀ (hDB x₀ hx₀) 0 ⟨le_rfl, sub_nonneg.2 htb⟩
  have hfin : ∀ i, ∃ l u : ℝ, refine XR F D T B i = ⟨fin l, fin u⟩ := by
    intro i
    obtain ⟨⟨l, hl⟩, u, hu⟩ := finite_of_bounded
      (List.all_eq_true.1 hb i (List.mem_finRange i)) (h0 i)
    exact ⟨l, u, by rw [← hl, ← hu]⟩
  choose l u hlu using hfin
  have hmem : ∀ y, y ∈ Icc l u ↔ Mem (refine XR F D T B) y := by
    intro y
    constructor
    · intro hy i
      rw [hlu i]
      exact ⟨hy.1 i, hy.2 i⟩
    · intro hy
      have : ∀ i, l i ≤ y i ∧ y i ≤ u i := fun i => by
        have := hy i
        rw [hlu i] at this
        exact this
      exact ⟨fun i => (this i).1, fun i => (this i).2⟩
  have hle : l ≤ u := fun i => by
    have := h0 i
    rw [hlu i] at this
    exact le_trans this.1 this.2
  obtain ⟨x, e0, hx, hxb⟩ := exists_solution hreg htb hle (x₀ := x₀) fun s hs y hy τ hτ i => by
    have := hstep s hs y (hmono y ((hmem y).1 hy)) τ hτ i
    rw [hlu i] at this
    exact this
  exact ⟨x, e0, hx, fun s hs => (hmem _).1 (hxb s hs)⟩

/-- A refinement of a box that bounds the flow bounds the flow. -/
theorem BoundsFlow.refine (h : BoundsFlow (f p) D t b B) (hF : EnclosesRange F P f) (hD : GoodBox R D)
    (hab : a < b) (hat : a ≤ t) (hp : p ∈ P) (hreg : Regular (f p)) :
    BoundsFlow (f p) D t b (refine XR F D ⟨fin a, fin b⟩ B) := by
  refine boundsFlow_of_exists hreg fun x₀ hx₀ => ?_
  obtain ⟨x, e0, hx, hB⟩ := (h x₀ hx₀).1
  refine ⟨x, e0, hx, fun s hs i => ?_⟩
  obtain ⟨c, hc, e⟩ := hx.mean hs i
  rw [e, e0]
  exact refine_contains R hD hab hx₀ (sub_nonneg.2 hs.1) (by linarith [hs.2])
    (hF p hp B ⟨fin a, fin b⟩ (x c) c (hB c ⟨hc.1, hc.2.trans hs.2⟩) ⟨hat.trans hc.1, hc.2.trans hs.2⟩ i)

theorem BoundsFlow.refineLoop (hF : EnclosesRange F P f) (hD : GoodBox R D)
    (hab : a < b) (hat : a ≤ t) (hp : p ∈ P) (hreg : Regular (f p)) :
    ∀ (k : ℕ) {B : Box n ℝ}, BoundsFlow (f p) D t b B →
      BoundsFlow (f p) D t b (refineLoop XR F D ⟨fin a, fin b⟩ k B)
  | 0, _, h => h
  | k + 1, _, h => BoundsFlow.refineLoop hF hD hab hat hp hreg k (h.refine R hF hD hab hat hp hreg)

/-- A box found by expansion bounds the flow. -/
theorem boundsFlow_expand (hF : EnclosesRange F P f) (hD : GoodBox R D)
    (hab : a < b) (hat : a ≤ t) (htb : t ≤ b) (hp : p ∈ P) (hreg : Regular (f p)) :
    ∀ (k : ℕ) {B C : Box n ℝ}, (∀ x, Mem D x → Mem B x) →
      expand XR F D ⟨fin a, fin b⟩ k B = some C → BoundsFlow (f p) D t b C
  | 0, _, _, _, e => by simp [expand] at e
  | k + 1, B, C, hB, e => by
    rw [expand] at e
    split_ifs at e with h1 h2
    · simp only [Option.some.injEq] at e
      rw [← e]
      exact boundsFlow_of_refines R hF hD hab hat htb hB (by simpa using h1) h2 hp hreg
    · refine boundsFlow_expand hF hD hab hat htb hp hreg k (fun x hx i => ?_) e
      have := formula_contains R (τ := 0) (w := 1) (v := 9 / 8) hD hab hx le_rfl (by linarith) zero_le_one
        (by norm_num) (hF p hp B ⟨fin a, fin b⟩ x t (hB x hx) ⟨hat, htb⟩ i)
      simpa using this

/-- **C59**, without the last rounding of the times: the box returned bounds the flow from the time `t`
to the time `t+h` rounded down. -/
theorem C59_flow_partial (hF : EnclosesRange F P f) (hD : GoodBox R D) {getd : ℝ → ℝ}
    (hg : ∀ x, 0 ≤ x → 0 ≤ getd x ∧ getd x ≤ x) {hmin hlip hsug : ℝ} (hl : 0 ≤ hlip) (hs : 0 ≤ hsug)
    {fuel : ℕ} {h : ℝ} (e : compute XR F getd hmin D t hlip hsug fuel = .found h B)
    (hlt : R.down t < R.down (t + h)) (hp : p ∈ P) (hreg : Regular (f p)) :
    BoundsFlow (f p) D t (R.down (t + h)) B := by
  have h0 : 0 ≤ min hlip hsug := le_min hl hs
  have h1 : min hlip hsug ≤ hsug := min_le_right _ _
  obtain ⟨-, -, -, B₁, hx, rfl⟩ := search_step hg fuel _ _ _ _ h0 h1 (by linarith) (by linarith) e
  have htb : t ≤ R.down (t + h) := by
    by_contra hcon
    exact absurd (R.down_max _ _ (R.rep_down (t + h)) (not_le.1 hcon).le) (not_le.2 hlt)
  have hat : R.down t ≤ t := R.down_le t
  refine BoundsFlow.refineLoop R hF hD hlt hat hp hreg 4
    (boundsFlow_expand R hF hD hlt hat htb hp hreg 4 (fun x hx i => ?_) hx)
  have := formula_contains R (τ := 0) (w := 1 / 4) (v := 2) hD hlt hx le_rfl (by linarith) (by norm_num)
    (by norm_num) (hF p hp D ⟨fin (R.down t), fin (R.down (t + h))⟩ x t hx ⟨hat, htb⟩ i)
  rw [mul_zero, zero_mul, add_zero] at this
  exact this

/-- **C59**: if the times are floating-point numbers, the box returned bounds the flow for the whole step. -/
theorem C59_flow (hF : EnclosesRange F P f) (hD : GoodBox R D) {getd : ℝ → ℝ}
    (hg : ∀ x, 0 ≤ x → 0 ≤ getd x ∧ getd x ≤ x) {hmin hlip hsug : ℝ} (hl : 0 ≤ hlip) (hs : 0 ≤ hsug)
    {fuel : ℕ} {h : ℝ} (e : compute XR F getd hmin D t hlip hsug fuel = .found h B)
    (ht : R.Rep t) (hth : R.Rep (t + h)) (h0 : 0 < h) (hp : p ∈ P) (hreg : Regular (f p)) :
    BoundsFlow (f p) D t (t + h) B := by
  have := C59_flow_partial R hF hD hg hl hs e (by rw [R.down_of_rep ht, R.down_of_rep hth]; linarith) hp hreg
  rwa [R.down_of_rep hth] at this

end Verif.Flow
