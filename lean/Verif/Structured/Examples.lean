import Verif.Structured.Props

/-!
# C98: examples for symmetric and diagonal matrices and tensors
-/

namespace Verif.Structured

open Verif.Matrix Ariadne

/-! ## Rounded bounds -/

section bounds

variable {K : Type*} [Field K] [LinearOrder K] [IsStrictOrderedRing K] (R : Rounding K)

local notation "XR" => XRounding.ofRounding R

theorem in_hlf {A : Bounds K} {x : K} (h : In A x) : In (Bounds.hlf A) (x / 2) := by
  refine ⟨?_, Bounds.C05_hlf h.2⟩
  obtain ⟨⟨⟨a, ha⟩, b, hb⟩, -⟩ := h
  obtain ⟨l, u⟩ := A
  simp only at ha hb
  subst ha hb
  exact ⟨⟨_, rfl⟩, ⟨_, rfl⟩⟩

theorem in_neg {A : Bounds K} {x : K} (h : In A x) : In (Bounds.neg A) (-x) := by
  refine ⟨?_, Bounds.C05_neg h.2⟩
  obtain ⟨⟨⟨a, ha⟩, b, hb⟩, -⟩ := h
  obtain ⟨l, u⟩ := A
  simp only at ha hb
  subst ha hb
  exact ⟨⟨_, rfl⟩, ⟨_, rfl⟩⟩

/-- **C98** Floating-point bounds satisfy the hypotheses: `outer` and `symmetrize` of any matrix of
finite bounds, and the solution of diagonal equations whose coefficients do not contain zero. -/
theorem C98_bounds {n m : ℕ} {A : ℕ → ℕ → Bounds K} {a : ℕ → ℕ → K} (hA : ∀ i j, In (A i j) (a i j)) :
    (∃ U, Sym.outer (boundsOps XR).zero (Bounds.add XR) (Bounds.mul XR) m n A = some U ∧
      Enclosed In U n fun i j => ∑ k ∈ Finset.range m, a k i * a k j) ∧
    (∃ U, Sym.symmetrize (boundsOps XR).zero (Bounds.add XR) Bounds.hlf n A = some U ∧
      Enclosed In U n fun i j => (a i j + a j i) / 2) ∧
    (∀ (D v : Fin n → Bounds K) (d w : Fin n → K), (∀ i, In (D i) (d i)) → (∀ i, In (v i) (w i)) →
      (∀ i, (boundsOps XR).gt (D i) (boundsOps XR).zero = true) →
      (∀ i, Ext.lt (.fin 0) (D i).l = true ∨ Ext.lt (D i).u (.fin 0) = true) →
      ∃ x : Fin n → K, (Matrix.diagonal d).mulVec x = w ∧ ∀ i, In (vecDiag (Bounds.div XR) v D i) (x i)) := by
  refine ⟨C98_outer (encl_bounds R) fun i _ j _ => hA i j,
    C98_symmetrize (encl_bounds R) (fun _ _ => in_hlf) fun i _ j _ => hA i j, fun D v d w hD hv hg hP => ?_⟩
  exact (C98_diagonal_inverse (encl_bounds R) hD hv hg (dv := Bounds.div XR)
    (P := fun B => Ext.lt (.fin 0) B.l = true ∨ Ext.lt B.u (.fin 0) = true)
    (fun hP hx hy => in_div R hx hy hP) hP).2

/-- Sums with a diagonal matrix of bounds. -/
example {n : ℕ} {A : Mat n n (Bounds K)} {a : _root_.Matrix (Fin n) (Fin n) K} {D : Fin n → Bounds K}
    {d : Fin n → K} (hA : ∀ i j, In (A i j) (a i j)) (hD : ∀ i, In (D i) (d i)) (i j : Fin n) :
    In (diagSubMat Bounds.neg (Bounds.add XR) D A i j) ((Matrix.diagonal d - a) i j) :=
  (C98_diagonal_add (encl_bounds R) hA hD (neg := Bounds.neg) (fun _ _ => in_neg) i j).2.2

end bounds

/-! ## Exact numbers -/

/-- A symmetric matrix with three rows, made from a matrix, read and changed. -/
example : ∃ S, Sym.ofMatrix (fun x y : ℤ => decide (x ≠ y)) 0 3 (fun i j => (i + j : ℕ)) = some S ∧
    S.ary = [0, 1, 2, 2, 3, 4] ∧ S.at 2 1 = some 3 ∧
    (S.set 2 0 7).map Sym.ary = some [0, 1, 7, 2, 3, 4] := ⟨_, rfl, rfl, rfl, rfl⟩

example : Sym.ofMatrix (fun x y : ℤ => decide (x ≠ y)) 0 2 (fun i j => (i - j : ℤ)) = none := rfl

example : (Sym.outer (0 : ℤ) (· + ·) (· * ·) 2 2 fun i j => (2 * i + j + 1 : ℕ)).map Sym.ary = some [10, 14, 20] := rfl

example : (Sym.identity (0 : ℤ) 1 3).map Sym.ary = some [1, 0, 0, 1, 0, 1] := rfl

/-- Quotients of exact diagonal matrices. -/
example : ∃ F, diagZip (· / ·) [(1 : ℚ), 6] [2, 3] = some F ∧ F = [1 / 2, 2] := ⟨_, rfl, by norm_num [List.zipWith]⟩

example (D d : List ℚ) (h : List.Forall₂ (fun a x => a = x) D d) (hd : ∀ y ∈ d, y ≠ 0) :
    List.Forall₂ (fun a x => a = x) (diagMap exactOps.recip D) (d.map (·⁻¹)) := by
  refine ((C98_diagonal_arithmetic (encl_exact (K := ℚ)) h h (dv := (· / ·)) (P := fun _ => True)
    (by rintro _ _ _ _ - rfl rfl; rfl)).2.2.2 fun x hx => ?_).1
  have : D = d := by
    clear hd hx
    induction h with
    | nil => rfl
    | cons h _ ih => rw [h, ih]
  subst this
  simpa [exactOps, fieldOps] using hd x hx

/-- A tensor of rank three. -/
example : InRange [2, 3, 4] [1, 2, 3] ∧ tensorIndex [2, 3, 4] [1, 2, 3] = some 23 ∧ totalSize [2, 3, 4] = 24 := by
  refine ⟨?_, rfl, rfl⟩
  simp [InRange]

example : (Tensor.generate 2 3 fun i j => 10 * i + j).map Tensor.a = some [0, 1, 2, 10, 11, 12] := rfl

example : (Tensor.generate 2 2 fun i j => 10 * i + j).bind (fun t => (t.transform 2 2 (· + 1)).map Tensor.a) =
    some [1, 2, 11, 12] := rfl

/-- **C98**, counterexample: eight of the sixteen entries of a tensor of rank four are printed, with wrong
indices; printing a tensor with a single entry reads beyond its end. -/
theorem C98_tensor_rank_four_wrong :
    ((Tensor.write ⟨[2, 2, 2, 2], List.range 16⟩).map List.length = some 8) ∧
    (Tensor.at ⟨[2, 2, 2, 2], List.range 16⟩ [0, 0, 1, 0] = some 2 ∧
      ∃ l, Tensor.write ⟨[2, 2, 2, 2], List.range 16⟩ = some l ∧ ([0, 0, 1, 0], 3) ∈ l) ∧
    Tensor.write ⟨[1, 1, 1, 1], [7]⟩ = none := by
  refine ⟨by rfl, ⟨by rfl, _, rfl, by decide⟩, by rfl⟩

end Verif.Structured
