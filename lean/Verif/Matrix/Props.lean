import Verif.Matrix.LU
import Verif.TaylorModel.Compose
import Mathlib.Tactic.FinCases

/-!
# C55: matrix inverses and linear systems
-/

namespace Verif.Matrix

open Ariadne
open Verif.TaylorModel (finite_mul finite_add finite_opMulFB)

variable {K : Type*} [Field K] [LinearOrder K] [IsStrictOrderedRing K] {n p : ℕ}

/-! ### Exact numbers -/

/-- `Rational`: `mig(q)=abs(q)` (source/numeric/rational.hpp 153). -/
def exactOps : Ops K := fieldOps fun a b => decide (|b| < |a|)

theorem encl_exact : Encl (exactOps : Ops K) (fun a x => a = x) where
  zero := rfl
  one := rfl
  add := by rintro _ _ _ _ rfl rfl; rfl
  sub := by rintro _ _ _ _ rfl rfl; rfl
  mul := by rintro _ _ _ _ rfl rfl; rfl
  ne_zero := by
    rintro a _ h rfl
    simp [exactOps, fieldOps] at h
    exact h
  recip := by rintro _ _ _ rfl; rfl
  trans := by
    intro a b h1 h2
    simp only [exactOps, fieldOps, decide_eq_true_eq] at *
    exact h2.trans h1

theorem forward_none {M : Mat n n K} (d k : ℕ) (hd : d + k = n) {S : State n K} (hi : Inv M k S)
    (hf : forward exactOps ((List.finRange n).drop k) S = none) : (Matrix.of M).det = 0 := by
  induction d generalizing k S with
  | zero =>
    rw [List.drop_eq_nil_of_le (by simp; omega)] at hf
    cases hf
  | succ d ih =>
    have hk : k < n := by omega
    rw [drop_cons hk] at hf
    simp only [forward] at hf
    rcases hp : pivot exactOps S.A ⟨k, hk⟩ with _ | q
    · have := (pivot_none encl_exact).1 hp
      refine singular_of_column (k := ⟨k, hk⟩) hi fun i hik => ?_
      have h0 := this i hik
      simp only [exactOps, fieldOps, abs_zero, decide_eq_false_iff_not, not_lt] at h0
      exact abs_nonpos_iff.1 h0
    · rw [hp] at hf
      obtain ⟨hq, hg⟩ := pivot_some encl_exact hp
      exact ih (k + 1) (by omega)
        (inv_stage (k := ⟨k, hk⟩) hi hq (encl_exact.ne_zero hg rfl)) hf

/-- C55: over exact numbers the inverse is found exactly when there is one. -/
theorem C55_exact_inverse (M : Matrix (Fin n) (Fin n) K) :
    luInverse exactOps (M : Mat n n K) = if M.det = 0 then none else some M⁻¹ := by
  split_ifs with h0
  · rcases hB : luInverse exactOps (M : Mat n n K) with _ | B
    · rfl
    · have h := (C55_lu_inverse encl_exact hB (m := M) (fun _ _ => rfl)).1
      exact absurd h0 h.ne_zero
  · rcases hB : luInverse exactOps (M : Mat n n K) with _ | B
    · exfalso
      unfold luInverse at hB
      rw [Option.map_eq_none_iff] at hB
      have := forward_none (M := M) n 0 (by omega) (inv_init M (fun a b => decide (|b| < |a|)))
        (by rw [List.drop_zero]; exact hB)
      exact h0 this
    · have := (C55_lu_inverse encl_exact hB (m := M) (fun _ _ => rfl)).2
      exact congrArg some (funext fun i => funext fun j => this i j)

/-- A matrix product over a number type encloses the product. -/
theorem mem_matMul {X1 X2 X0 : Type*} {mem1 : X1 → K → Prop} {mem2 : X2 → K → Prop}
    {mem0 : X0 → K → Prop} {z : X0} {add : X0 → X0 → X0} {mul : X1 → X2 → X0} {m : ℕ}
    (hz : mem0 z 0) (ha : ∀ {a b x y}, mem0 a x → mem0 b y → mem0 (add a b) (x + y))
    (hm : ∀ {a b x y}, mem1 a x → mem2 b y → mem0 (mul a b) (x * y))
    {A : Mat m n X1} {B : Mat n p X2} {a : Matrix (Fin m) (Fin n) K} {b : Matrix (Fin n) (Fin p) K}
    (hA : ∀ i j, mem1 (A i j) (a i j)) (hB : ∀ i j, mem2 (B i j) (b i j)) (i : Fin m) (j : Fin p) :
    mem0 (matMul z add mul A B i j) ((a * b) i j) := by
  have key : ∀ (l : List (Fin n)) (s : X0) (x : K), mem0 s x →
      mem0 (l.foldl (fun s k => add s (mul (A i k) (B k j))) s)
        (x + (l.map fun k => a i k * b k j).sum) := by
    intro l
    induction l with
    | nil => intro s x h; simpa using h
    | cons k l ih =>
      intro s x h
      have := ih _ _ (ha h (hm (hA i k) (hB k j)))
      simpa [add_assoc] using this
  have := key (List.finRange n) z 0 hz
  rw [zero_add] at this
  rw [Matrix.mul_apply, ← List.sum_ofFn, List.ofFn_eq_map]
  exact this

/-- C55: solving through the inverse.  If `lu_solve` returns a matrix then every enclosed
system has exactly one solution, and the result encloses it. -/
theorem C55_lu_solve {X : Type*} {o : Ops X} {mem : X → K → Prop} (he : Encl o mem)
    {A : Mat n n X} {B C : Mat n p X} (hC : luSolve o A B = some C)
    {a : Matrix (Fin n) (Fin n) K} {b : Matrix (Fin n) (Fin p) K}
    (ha : ∀ i j, mem (A i j) (a i j)) (hb : ∀ i j, mem (B i j) (b i j)) :
    ∃ x : Matrix (Fin n) (Fin p) K, a * x = b ∧ (∀ y, a * y = b → y = x) ∧
      ∀ i j, mem (C i j) (x i j) := by
  unfold luSolve at hC
  rw [Option.map_eq_some_iff] at hC
  obtain ⟨I, hI, rfl⟩ := hC
  obtain ⟨hu, hm⟩ := C55_lu_inverse he hI ha
  refine ⟨a⁻¹ * b, ?_, ?_, ?_⟩
  · rw [← Matrix.mul_assoc, Matrix.mul_nonsing_inv _ hu, Matrix.one_mul]
  · rintro y rfl
    rw [← Matrix.mul_assoc, Matrix.nonsing_inv_mul _ hu, Matrix.one_mul]
  · exact mem_matMul (mem1 := mem) (mem2 := mem) (mem0 := mem)
      (by simpa using he.mul he.zero he.zero) he.add he.mul hm hb

/-! ### Bounds -/

variable (R : Rounding K)

local notation "XR" => XRounding.ofRounding R

/-- Finite bounds containing a number. -/
def In (B : Bounds K) (x : K) : Prop := B.Finite ∧ B.Contains x

theorem finite_sub {A B : Bounds K} (hA : A.Finite) (hB : B.Finite) : (Bounds.sub XR A B).Finite := by
  obtain ⟨⟨l, hl⟩, u, hu⟩ := hA
  obtain ⟨⟨l', hl'⟩, u', hu'⟩ := hB
  refine ⟨⟨R.down (l + -u'), ?_⟩, ⟨R.up (u + -l'), ?_⟩⟩
  · simp [Bounds.sub, Ext.sub, hl, hu', Ext.add, Ext.neg, XRounding.ofRounding]
  · simp [Bounds.sub, Ext.sub, hu, hl', Ext.add, Ext.neg, XRounding.ofRounding]

theorem in_add {A B : Bounds K} {x y : K} (hA : In A x) (hB : In B y) :
    In (Bounds.add XR A B) (x + y) := ⟨finite_add R hA.1 hB.1, Bounds.C05_add _ hA.2 hB.2⟩

theorem in_sub {A B : Bounds K} {x y : K} (hA : In A x) (hB : In B y) :
    In (Bounds.sub XR A B) (x - y) := ⟨finite_sub R hA.1 hB.1, Bounds.C05_sub _ hA.2 hB.2⟩

theorem in_mul {A B : Bounds K} {x y : K} (hA : In A x) (hB : In B y) :
    In (Bounds.mul XR A B) (x * y) := ⟨finite_mul R hA.1 hB.1, Bounds.C05_mul _ hA.1 hB.1 hA.2 hB.2⟩

theorem mig_pos {a b : K} (h : Ext.lt (.fin 0) (Bounds.mig (⟨.fin a, .fin b⟩ : Bounds K)) = true) :
    0 < a ∨ b < 0 := by
  by_contra hc
  push Not at hc
  have h1 := (Bounds.C05_mig_mag (X := ⟨.fin a, .fin b⟩) (x := (0 : K)) ⟨hc.1, hc.2⟩).1
  revert h h1
  generalize Bounds.mig (⟨.fin a, .fin b⟩ : Bounds K) = m
  intro h h1
  cases m <;> simp [IsLower, Ext.lt] at * ; linarith

theorem in_div {A B : Bounds K} {x y : K} (hA : In A x) (hB : In B y)
    (h : Ext.lt (.fin 0) B.l = true ∨ Ext.lt B.u (.fin 0) = true) :
    In (Bounds.div XR A B) (x / y) := by
  refine ⟨?_, Bounds.C06_div _ hA.2 hB.2⟩
  obtain ⟨⟨⟨a, ha⟩, b, hb⟩, _⟩ := hA
  obtain ⟨⟨⟨c, hc⟩, d, hd⟩, h1, h2⟩ := hB
  obtain ⟨al, au⟩ := A
  obtain ⟨bl, bu⟩ := B
  simp only at ha hb hc hd h h1 h2
  subst ha hb hc hd
  simp only [IsLower, IsUpper] at h1 h2
  simp only [Ext.lt, decide_eq_true_eq] at h
  have hcd : c ≠ 0 ∧ d ≠ 0 := by
    rcases h with h | h
    · exact ⟨h.ne', (by linarith : (0:K) < d).ne'⟩
    · exact ⟨(by linarith : c < 0).ne, h.ne⟩
  unfold Bounds.div
  simp only [Ext.lt, Ext.div, hcd.1, hcd.2, if_false, XRounding.ofRounding, decide_eq_true_eq]
  rcases h with h | h
  · rw [if_pos h]
    split_ifs <;> exact ⟨⟨_, rfl⟩, ⟨_, rfl⟩⟩
  · rw [if_neg (by linarith), if_pos h]
    split_ifs <;> exact ⟨⟨_, rfl⟩, ⟨_, rfl⟩⟩

theorem encl_bounds : Encl (boundsOps XR) (In : Bounds K → K → Prop) where
  zero := ⟨⟨⟨_, rfl⟩, ⟨_, rfl⟩⟩, le_rfl, le_rfl⟩
  one := ⟨⟨⟨_, rfl⟩, ⟨_, rfl⟩⟩, le_rfl, le_rfl⟩
  add := in_add R
  sub := in_sub R
  mul := in_mul R
  ne_zero := by
    rintro ⟨l, u⟩ x h ⟨⟨⟨a, ha⟩, b, hb⟩, h1, h2⟩
    simp only at ha hb h1 h2
    subst ha hb
    simp only [IsLower, IsUpper] at h1 h2
    have h' : Ext.lt (.fin 0) (Bounds.mig (⟨.fin a, .fin b⟩ : Bounds K)) = true := by
      simpa [boundsOps, Bounds.mig, Ext.max, Ext.neg, Ext.lt] using h
    rcases mig_pos h' with h | h
    · exact (by linarith : (0:K) < x).ne'
    · exact (by linarith : x < 0).ne
  recip := by
    rintro ⟨l, u⟩ x h ⟨⟨⟨a, ha⟩, b, hb⟩, h1, h2⟩
    refine ⟨?_, by rw [← one_div]; exact Bounds.C06_rec _ ⟨h1, h2⟩⟩
    simp only at ha hb h1 h2
    subst ha hb
    simp only [IsLower, IsUpper] at h1 h2
    have h' : Ext.lt (.fin 0) (Bounds.mig (⟨.fin a, .fin b⟩ : Bounds K)) = true := by
      simpa [boundsOps, Bounds.mig, Ext.max, Ext.neg, Ext.lt] using h
    simp only [boundsOps, Bounds.recip, Ext.lt, Ext.recip, Ext.div, XRounding.ofRounding]
    rcases mig_pos h' with h | h
    · have ha : a ≠ 0 := h.ne'
      have hb : b ≠ 0 := (by linarith : (0:K) < b).ne'
      simp only [h, ha, hb, decide_true, Bool.true_or, if_true, if_false]
      exact ⟨⟨_, rfl⟩, ⟨_, rfl⟩⟩
    · have ha : a ≠ 0 := (by linarith : a < 0).ne
      have hb : b ≠ 0 := h.ne
      simp only [h, ha, hb, decide_true, Bool.or_true, if_true, if_false]
      exact ⟨⟨_, rfl⟩, ⟨_, rfl⟩⟩
  trans := by
    intro a b h1 h2
    simp only [boundsOps] at *
    revert h1 h2
    generalize Bounds.mig a = x
    generalize Bounds.mig b = y
    generalize Bounds.mig (⟨.fin 0, .fin 0⟩ : Bounds K) = z
    intro h1 h2
    cases x <;> cases y <;> cases z <;> simp [Ext.lt] at * <;> linarith

/-- C55: the inverse of a matrix of bounds, under directed rounding.  If `lu_inverse`
returns, every enclosed matrix is invertible and its inverse is enclosed. -/
theorem C55_bounds_inverse {M B : Mat n n (Bounds K)} (hM : ∀ i j, (M i j).Finite)
    (hB : luInverse (boundsOps XR) M = some B) (m : Matrix (Fin n) (Fin n) K)
    (hm : ∀ i j, (M i j).Contains (m i j)) :
    IsUnit m.det ∧ ∀ i j, (B i j).Finite ∧ (B i j).Contains (m⁻¹ i j) :=
  C55_lu_inverse (encl_bounds R) hB fun i j => ⟨hM i j, hm i j⟩

/-- C55: a singular matrix in the bounds makes `lu_inverse` throw. -/
theorem C55_bounds_singular {M : Mat n n (Bounds K)} (hM : ∀ i j, (M i j).Finite)
    (m : Matrix (Fin n) (Fin n) K) (hm : ∀ i j, (M i j).Contains (m i j)) (h0 : m.det = 0) :
    luInverse (boundsOps XR) M = none := by
  rcases hB : luInverse (boundsOps XR) M with _ | B
  · rfl
  · exact absurd (C55_bounds_inverse R hM hB m hm).1 (by simp [h0])

/-! ### Gauss-Seidel -/

theorem in_gsRhs {JA : Mat n n (Bounds K)} {b : Bounds K} {X : Fin n → Bounds K} (i : Fin n)
    {ja : Matrix (Fin n) (Fin n) K} {y : K} {x : Fin n → K} (hJ : ∀ i j, In (JA i j) (ja i j))
    (hb : In b y) (hx : ∀ k, In (X k) (x k)) :
    In (gsRhs XR JA b X i) (y - (∑ k, ja i k * x k) + ja i i * x i) := by
  have key : ∀ (l : List (Fin n)) (s : Bounds K) (t : K), In s t →
      In (l.foldl (fun s k => if k ≠ i then Bounds.sub XR s (Bounds.mul XR (JA i k) (X k)) else s) s)
        (t - (l.map fun k => if k ≠ i then ja i k * x k else 0).sum) := by
    intro l
    induction l with
    | nil => intro s t h; simpa using h
    | cons k l ih =>
      intro s t h
      simp only [List.foldl_cons, List.map_cons, List.sum_cons]
      split_ifs with hk
      · have := ih _ _ (in_sub R h (in_mul R (hJ i k) (hx k)))
        rwa [sub_sub] at this
      · have := ih _ _ h
        rwa [zero_add]
  have := key (List.finRange n) b y hb
  have e : ((List.finRange n).map fun k => if k ≠ i then ja i k * x k else 0).sum =
      (∑ k, ja i k * x k) - ja i i * x i := by
    rw [← List.ofFn_eq_map, List.sum_ofFn, eq_sub_iff_add_eq]
    have e2 : ∑ k, ja i k * x k = ∑ k, ((if k ≠ i then ja i k * x k else 0) +
        if k = i then ja i k * x k else 0) := by
      refine Finset.sum_congr rfl fun k _ => ?_
      by_cases hk : k = i <;> simp [hk]
    rw [e2, Finset.sum_add_distrib]
    simp
  rw [e] at this
  unfold gsRhs
  convert this using 1
  ring

theorem in_gsEntry {JA : Mat n n (Bounds K)} {JB X : Mat n p (Bounds K)}
    {ja : Matrix (Fin n) (Fin n) K} {jb x : Matrix (Fin n) (Fin p) K}
    (hJ : ∀ i j, In (JA i j) (ja i j)) (hB : ∀ i j, In (JB i j) (jb i j)) (hs : ja * x = jb)
    (ij : Fin n × Fin p) (hX : ∀ i j, In (X i j) (x i j)) :
    ∀ i j, In (gsEntry XR JA JB X ij i j) (x i j) := by
  intro i j
  by_cases h : (Ext.lt (.fin 0) (JA ij.1 ij.1).l || Ext.lt (JA ij.1 ij.1).u (.fin 0)) = true
  · by_cases hij : i = ij.1 ∧ j = ij.2
    · have e : gsEntry XR JA JB X ij i j = Bounds.refinement (X i j) (Bounds.div XR
          (gsRhs XR JA (JB ij.1 ij.2) (fun k => X k ij.2) ij.1) (JA ij.1 ij.1)) := by
        simp [gsEntry, h, hij]
      rw [e]
      obtain ⟨rfl, rfl⟩ := hij
      have hr := in_gsRhs R ij.1 hJ (hB ij.1 ij.2) (fun k => hX k ij.2)
      have e : jb ij.1 ij.2 - ∑ k, ja ij.1 k * x k ij.2 = 0 := by
        rw [← hs, Matrix.mul_apply, sub_self]
      rw [e, zero_add] at hr
      have hd := hJ ij.1 ij.1
      have h' : Ext.lt (.fin 0) (JA ij.1 ij.1).l = true ∨
          Ext.lt (JA ij.1 ij.1).u (.fin 0) = true := by simpa using h
      have hne : ja ij.1 ij.1 ≠ 0 := by
        obtain ⟨⟨⟨a, ha⟩, b, hb⟩, h1, h2⟩ := hd
        rw [ha] at h1 h'
        rw [hb] at h2 h'
        simp only [IsLower, IsUpper, Ext.lt, decide_eq_true_eq] at h1 h2 h'
        rcases h' with h' | h'
        · exact (by linarith : (0:K) < ja ij.1 ij.1).ne'
        · exact (by linarith : ja ij.1 ij.1 < 0).ne
      have hq := in_div R hr hd h'
      rw [mul_div_cancel_left₀ _ hne] at hq
      have hXi := hX ij.1 ij.2
      refine ⟨?_, ?_⟩
      · obtain ⟨⟨⟨a, ha⟩, b, hb⟩, _⟩ := hXi
        obtain ⟨⟨⟨c, hc⟩, d, hd⟩, _⟩ := hq
        unfold Bounds.refinement
        rw [ha, hb, hc, hd]
        unfold Ext.max Ext.min
        constructor
        · split_ifs <;> exact ⟨_, rfl⟩
        · split_ifs <;> exact ⟨_, rfl⟩
      · exact ⟨Ext.isLower_max hXi.2.1 hq.2.1, Ext.isUpper_min hXi.2.2 hq.2.2⟩
    · have e : gsEntry XR JA JB X ij i j = X i j := by simp [gsEntry, h, hij]
      rw [e]
      exact hX i j
  · have e : gsEntry XR JA JB X ij i j = X i j := by simp [gsEntry, h]
    rw [e]
    exact hX i j

theorem in_opMulFB {A : Ext K} {a : K} {B : Bounds K} {y : K} (hA : A = .fin a) (hB : In B y) :
    In (Bounds.opMulFB XR A B) (a * y) := by
  subst hA
  exact ⟨finite_opMulFB R a hB.1, (Bounds.C05_op_mul_mixed _ hB.1 hB.2 a).2⟩

/-- C55: interval Gauss-Seidel.  Whatever the preconditioner, if `gs_solve` returns then
every enclosed system has exactly one solution and the result encloses it. -/
theorem C55_gs_solve (J : Mat n n K) {A : Mat n n (Bounds K)} {B C : Mat n p (Bounds K)}
    (hA : ∀ i j, (A i j).Finite) (hB : ∀ i j, (B i j).Finite)
    (hC : gsSolve XR J A B = some C) (a : Matrix (Fin n) (Fin n) K) (b : Matrix (Fin n) (Fin p) K)
    (ha : ∀ i j, (A i j).Contains (a i j)) (hb : ∀ i j, (B i j).Contains (b i j)) :
    ∃ x : Matrix (Fin n) (Fin p) K, a * x = b ∧ (∀ y, a * y = b → y = x) ∧
      ∀ i j, (C i j).Finite ∧ (C i j).Contains (x i j) := by
  unfold gsSolve at hC
  simp only [Option.map_eq_some_iff] at hC
  obtain ⟨C0, h0, rfl⟩ := hC
  have ha' : ∀ i j, In (A i j) (a i j) := fun i j => ⟨hA i j, ha i j⟩
  have hb' : ∀ i j, In (B i j) (b i j) := fun i j => ⟨hB i j, hb i j⟩
  obtain ⟨x, hx, hu, hm⟩ := C55_lu_solve (encl_bounds R) h0 ha' hb'
  refine ⟨x, hx, hu, ?_⟩
  have hz : In (Bounds.opMulFB XR (.fin 0) ⟨.fin 0, .fin 0⟩ : Bounds K) 0 := by
    have := in_opMulFB R (A := .fin (0:K)) rfl (encl_bounds R).zero
    rw [mul_zero] at this
    exact this
  have hJA := mem_matMul (mem1 := fun (A : Ext K) a => A = .fin a) (mem2 := In) (mem0 := In) hz
    (in_add R) (in_opMulFB R) (A := fun i j => .fin (J i j)) (a := Matrix.of J) (fun _ _ => rfl) ha'
  have hJB := mem_matMul (mem1 := fun (A : Ext K) a => A = .fin a) (mem2 := In) (mem0 := In) hz
    (in_add R) (in_opMulFB R) (A := fun i j => .fin (J i j)) (a := Matrix.of J) (fun _ _ => rfl) hb'
  have hs : (Matrix.of J * a) * x = Matrix.of J * b := by rw [Matrix.mul_assoc, hx]
  unfold gsSweep
  generalize ((List.finRange n).flatMap fun i => (List.finRange p).map fun j => (i, j)) = l
  clear h0
  induction l generalizing C0 with
  | nil => exact hm
  | cons ij l ih =>
    simp only [List.foldl_cons]
    exact ih _ (in_gsEntry R hJA hJB hs ij hm)

/-! ### Norms -/

section Norms

variable (Q : XRounding K)

theorem isUpper_rowSum {m : ℕ} {A : Mat m n (Bounds K)} {a : Matrix (Fin m) (Fin n) K}
    (ha : ∀ i j, (A i j).Contains (a i j)) (i : Fin m) (P : Fin n → Prop) [DecidablePred P]
    (l : List (Fin n)) (s : Ext K) (x : K) (hs : IsUpper s x) :
    IsUpper (l.foldl (fun s j => if P j then Ext.add Q.up s (Bounds.mag (A i j)) else s) s)
      (x + (l.map fun j => if P j then |a i j| else 0).sum) := by
  induction l generalizing s x with
  | nil => simpa using hs
  | cons j l ih =>
    simp only [List.foldl_cons, List.map_cons, List.sum_cons]
    split_ifs with h
    · have := ih _ _ (_root_.Ariadne.add_up Q hs (Bounds.C05_mig_mag (ha i j)).2)
      rwa [add_assoc] at this
    · rw [zero_add]
      exact ih _ _ hs

theorem ne_nan_of_upper {a : Ext K} {x : K} (h : IsUpper a x) : a ≠ .nan := by
  rintro rfl
  exact h

/-- The row sums are at most the computed norm. -/
theorem supNorm_row {m : ℕ} {A : Mat m n (Bounds K)} {a : Matrix (Fin m) (Fin n) K}
    (ha : ∀ i j, (A i j).Contains (a i j)) (i : Fin m) :
    IsUpper (supNorm Q A) (∑ j, |a i j|) := by
  have hrow : ∀ i, IsUpper ((List.finRange n).foldl
      (fun s j => Ext.add Q.up s (Bounds.mag (A i j))) (.fin 0)) (∑ j, |a i j|) := by
    intro i
    have := isUpper_rowSum Q ha i (fun _ => True) (List.finRange n) (.fin 0) 0 le_rfl
    simp only [if_true, zero_add] at this
    rwa [← List.ofFn_eq_map, List.sum_ofFn] at this
  have key : ∀ (l : List (Fin m)) (r : Ext K), (i ∈ l ∨ IsUpper r (∑ j, |a i j|)) →
      IsUpper (l.foldl (fun r i => Ext.max ((List.finRange n).foldl
        (fun s j => Ext.add Q.up s (Bounds.mag (A i j))) (.fin 0)) r) r) (∑ j, |a i j|) := by
    intro l
    induction l with
    | nil => intro r h; simpa using h
    | cons k l ih =>
      intro r h
      simp only [List.foldl_cons]
      apply ih
      rcases h with h | h
      · rcases List.mem_cons.1 h with rfl | h
        · exact Or.inr (Ext.isUpper_max_left (hrow i))
        · exact Or.inl h
      · exact Or.inr (Ext.isUpper_max_right h (ne_nan_of_upper (hrow k)))
  exact key _ _ (Or.inl (List.mem_finRange i))

/-- C55: the supremum norm bounds how much an enclosed matrix stretches a vector. -/
theorem C55_sup_norm {m : ℕ} {A : Mat m n (Bounds K)} (a : Matrix (Fin m) (Fin n) K)
    (ha : ∀ i j, (A i j).Contains (a i j)) (v : Fin n → K) (c : K) (hc : 0 ≤ c)
    (hv : ∀ j, |v j| ≤ c) (s : K) (hs : supNorm Q A = .fin s) (i : Fin m) : |(a.mulVec v) i| ≤ s * c := by
  have h := supNorm_row Q ha i
  rw [hs] at h
  have h' : ∑ j, |a i j| ≤ s := h
  calc |(a.mulVec v) i| = |∑ j, a i j * v j| := rfl
    _ ≤ ∑ j, |a i j * v j| := Finset.abs_sum_le_sum_abs _ _
    _ ≤ ∑ j, |a i j| * c := Finset.sum_le_sum fun j _ => by
        rw [abs_mul]; exact mul_le_mul_of_nonneg_left (hv j) (abs_nonneg _)
    _ = (∑ j, |a i j|) * c := by rw [Finset.sum_mul]
    _ ≤ s * c := mul_le_mul_of_nonneg_right h' hc

theorem logNorm_row {A : Mat n n (Bounds K)} {a : Matrix (Fin n) (Fin n) K}
    (ha : ∀ i j, (A i j).Contains (a i j)) (i : Fin n) :
    IsUpper (logNorm Q A) (a i i + ∑ j, if j ≠ i then |a i j| else 0) := by
  have hrow : ∀ i, IsUpper ((List.finRange n).foldl
      (fun s j => if j ≠ i then Ext.add Q.up s (Bounds.mag (A i j)) else s) (A i i).u)
      (a i i + ∑ j, if j ≠ i then |a i j| else 0) := by
    intro i
    have := isUpper_rowSum Q ha i (fun j => j ≠ i) (List.finRange n) (A i i).u (a i i) (ha i i).2
    rwa [← List.ofFn_eq_map, List.sum_ofFn] at this
  have key : ∀ (l : List (Fin n)) (r : Ext K), r ≠ .nan →
      (i ∈ l ∨ IsUpper r (a i i + ∑ j, if j ≠ i then |a i j| else 0)) →
      IsUpper (l.foldl (fun r i => Ext.max r ((List.finRange n).foldl
        (fun s j => if j ≠ i then Ext.add Q.up s (Bounds.mag (A i j)) else s) (A i i).u)) r)
        (a i i + ∑ j, if j ≠ i then |a i j| else 0) := by
    intro l
    induction l with
    | nil => intro r _ h; simpa using h
    | cons k l ih =>
      intro r hr h
      simp only [List.foldl_cons]
      have hk := hrow k
      apply ih
      · exact ne_nan_of_upper (Ext.isUpper_max_right hk hr)
      rcases h with h | h
      · rcases List.mem_cons.1 h with rfl | h
        · exact Or.inr (Ext.isUpper_max_right hk hr)
        · exact Or.inl h
      · exact Or.inr (Ext.isUpper_max_left h)
  exact key _ _ (by simp) (Or.inl (List.mem_finRange i))

/-- C55: the logarithmic norm bounds the growth of a small step along an enclosed
matrix: `|v+h a v| ≤ (1+h μ)|v|` in the supremum norm while `1+h a_ii ≥ 0`. -/
theorem C55_log_norm {A : Mat n n (Bounds K)} (a : Matrix (Fin n) (Fin n) K)
    (ha : ∀ i j, (A i j).Contains (a i j)) (v : Fin n → K) (c : K)
    (hv : ∀ j, |v j| ≤ c) (h : K) (h0 : 0 ≤ h) (i : Fin n) (hi : 0 ≤ 1 + h * a i i)
    (μ : K) (hs : logNorm Q A = .fin μ) : |v i + h * (a.mulVec v) i| ≤ (1 + h * μ) * c := by
  have hr := logNorm_row Q ha i
  rw [hs] at hr
  have hr' : a i i + ∑ j, (if j ≠ i then |a i j| else 0) ≤ μ := hr
  have hc : 0 ≤ c := (abs_nonneg _).trans (hv i)
  have e : v i + h * (a.mulVec v) i =
      (1 + h * a i i) * v i + h * ∑ j, (if j ≠ i then a i j * v j else 0) := by
    have : (a.mulVec v) i = a i i * v i + ∑ j, (if j ≠ i then a i j * v j else 0) := by
      show ∑ j, a i j * v j = _
      have e2 : ∑ j, a i j * v j = ∑ j, ((if j = i then a i j * v j else 0) +
          if j ≠ i then a i j * v j else 0) := by
        refine Finset.sum_congr rfl fun j _ => ?_
        by_cases hj : j = i <;> simp [hj]
      rw [e2, Finset.sum_add_distrib]
      simp
    rw [this]; ring
  have h1 : |(1 + h * a i i) * v i| ≤ (1 + h * a i i) * c := by
    rw [abs_mul, abs_of_nonneg hi]
    exact mul_le_mul_of_nonneg_left (hv i) hi
  have h2 : |h * ∑ j, (if j ≠ i then a i j * v j else 0)| ≤
      h * ((∑ j, if j ≠ i then |a i j| else 0) * c) := by
    rw [abs_mul, abs_of_nonneg h0]
    refine mul_le_mul_of_nonneg_left ?_ h0
    refine (Finset.abs_sum_le_sum_abs _ _).trans ?_
    rw [Finset.sum_mul]
    refine Finset.sum_le_sum fun j _ => ?_
    split_ifs
    · rw [abs_mul]; exact mul_le_mul_of_nonneg_left (hv j) (abs_nonneg _)
    · simp
  rw [e]
  refine (abs_add_le _ _).trans ((add_le_add h1 h2).trans ?_)
  have : h * (a i i + ∑ j, (if j ≠ i then |a i j| else 0)) * c ≤ h * μ * c :=
    mul_le_mul_of_nonneg_right (mul_le_mul_of_nonneg_left hr' h0) hc
  nlinarith [this]

end Norms

end Verif.Matrix
