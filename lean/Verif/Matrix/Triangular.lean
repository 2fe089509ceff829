import Verif.Matrix.Props

/-!
# C55: triangular decomposition, diagonally dominant systems, examples
-/

namespace Verif.Matrix

open Ariadne

variable {K : Type*} [Field K] [LinearOrder K] [IsStrictOrderedRing K] {n : ℕ}

/-- Swapping two rows. -/
def swp (P : Fin n → Fin n) (A : Mat n n K) (i : Fin n) : Mat n n K :=
  fun r j => if r = i then A (P i) j else if r = P i then A i j else A r j

/-- The stages of `triangular_decomposition` up to stage `k`, when no pivot vanished. -/
structure TInv (A0 : Mat n n K) (k : ℕ) (A : Mat n n K) (S : PLU n K) : Prop where
  piv : ∀ i : Fin n, S.P i = if i.val < k then pluPivot exactOps A0 i else i
  /-- the permuted argument is `U` plus the strictly lower part of `L` times `U` -/
  rows : ∀ i j, A i j = S.U i j + ∑ m : Fin n, (if m < i ∧ m.val < k then S.L i m * S.U m j else 0)
  upper : ∀ i j : Fin n, j.val < k → j < i → S.U i j = 0
  lower : ∀ i j : Fin n, (i = j → S.L i j = 1) ∧ (i < j → S.L i j = 0) ∧
    (k ≤ j.val → j < i → S.L i j = 0)

theorem pivot_ge (A : Mat n n K) (k : Fin n) : k ≤ pluPivot exactOps A k := by
  unfold pluPivot
  rcases h : pivot exactOps A k with _ | q
  · exact le_rfl
  · exact (pivot_some encl_exact h).1

theorem tinv_step {A0 A : Mat n n K} {k : Fin n} {S : PLU n K} (h : TInv A0 k A S)
    (h0 : S.U (pluPivot exactOps A0 k) k ≠ 0) :
    TInv A0 (k + 1) (swp (pluPivot exactOps A0) A k) (pluStage exactOps A0 S k) := by
  set l := pluPivot exactOps A0 k with hl
  have hkl : k ≤ l := pivot_ge A0 k
  set L1 : Mat n n K := fun i j =>
    if j < k then (if i = k then S.L l j else if i = l then S.L k j else S.L i j) else S.L i j with hL1
  set U1 : Mat n n K := fun i j =>
    if k ≤ j then (if i = k then S.U l j else if i = l then S.U k j else S.U i j) else S.U i j with hU1
  have hr1 : U1 k k ≠ 0 := by simpa [hU1] using h0
  -- the rows after the swap
  have hUk : ∀ j, U1 k j = S.U l j := by
    intro j
    simp only [hU1]
    split_ifs with h1
    · rfl
    · have hj : j < k := not_le.1 h1
      rw [h.upper k j hj hj, h.upper l j hj (lt_of_lt_of_le hj hkl)]
  have hUl : ∀ j, U1 l j = S.U k j := by
    intro j
    simp only [hU1]
    by_cases h2 : l = k
    · rw [h2]; simp
    · split_ifs with h1
      · rfl
      · have hj : j < k := not_le.1 h1
        rw [h.upper k j hj hj, h.upper l j hj (lt_of_lt_of_le hj hkl)]
  have hUo : ∀ i j, i ≠ k → i ≠ l → U1 i j = S.U i j := by
    intro i j h1 h2
    simp [hU1, h1, h2]
  have hLk : ∀ m, m < k → L1 k m = S.L l m := fun m hm => by simp [hL1, hm]
  have hLl : ∀ m, m < k → L1 l m = S.L k m := fun m hm => by
    by_cases h2 : l = k <;> simp [hL1, hm, h2]
  have hLo : ∀ i m, i ≠ k → i ≠ l → L1 i m = S.L i m := fun i m h1 h2 => by simp [hL1, h1, h2]
  have hUm : ∀ m j, m < k → U1 m j = S.U m j := fun m j hm =>
    hUo m j hm.ne (lt_of_lt_of_le hm hkl).ne
  have hsw : ∀ i j, swp (pluPivot exactOps A0) A k i j =
      U1 i j + ∑ m : Fin n, (if m < i ∧ m < k then L1 i m * U1 m j else 0) := by
    intro i j
    simp only [swp, ← hl]
    by_cases h1 : i = k
    · subst h1
      rw [if_pos rfl, h.rows l j, hUk]
      congr 1
      refine Finset.sum_congr rfl fun m _ => ?_
      by_cases hm : m < i
      · rw [if_pos ⟨lt_of_lt_of_le hm hkl, hm⟩, if_pos ⟨hm, hm⟩, hLk m hm, hUm m j hm]
      · rw [if_neg (fun hh => hm hh.2), if_neg (fun hh => hm hh.2)]
    · rw [if_neg h1]
      by_cases h2 : i = l
      · rw [if_pos h2, h.rows k j, h2, hUl]
        congr 1
        refine Finset.sum_congr rfl fun m _ => ?_
        by_cases hm : m < k
        · rw [if_pos ⟨hm, hm⟩, if_pos ⟨lt_of_lt_of_le hm hkl, hm⟩, hLl m hm, hUm m j hm]
        · rw [if_neg (fun hh => hm hh.2), if_neg (fun hh => hm hh.2)]
      · rw [if_neg h2, h.rows i j, hUo i j h1 h2]
        congr 1
        refine Finset.sum_congr rfl fun m _ => ?_
        by_cases hm : m < k
        · rw [hLo i m h1 h2, hUm m j hm]; rfl
        · rw [if_neg (fun hh => hm hh.2), if_neg (fun hh => hm hh.2)]
  have hup1 : ∀ i j : Fin n, j < k → j < i → U1 i j = 0 := by
    intro i j hj hi
    by_cases h1 : i = k
    · subst h1; rw [hUk]; exact h.upper l j hj (lt_of_lt_of_le hj hkl)
    · by_cases h2 : i = l
      · subst h2; rw [hUl]; exact h.upper k j hj hj
      · rw [hUo i j h1 h2]; exact h.upper i j hj hi
  set T := pluStage exactOps A0 S k with hT
  have hTU : ∀ i j, T.U i j = if k < i then U1 i j - (U1 i k * (U1 k k)⁻¹) * U1 k j else U1 i j := by
    intro i j
    show (if k < i then if k < j then U1 i j - U1 i k * (U1 k k)⁻¹ * U1 k j
      else if j = k then 0 else U1 i j else U1 i j) = _
    by_cases h1 : k < i
    · rw [if_pos h1, if_pos h1]
      split_ifs with h2 h3
      · rfl
      · subst h3; field_simp; simp
      · have hj : j < k := lt_of_le_of_ne (not_lt.1 h2) h3
        rw [hup1 k j hj hj]; simp
    · rw [if_neg h1, if_neg h1]
  have hTL : ∀ i j, T.L i j = if k < i ∧ j = k then U1 i k * (U1 k k)⁻¹ else L1 i j := fun i j => rfl
  refine ⟨?_, ?_, ?_, ?_⟩
  · intro i
    show Function.update S.P k l i = _
    by_cases h1 : i = k
    · subst h1; simp [hl]
    · rw [Function.update_of_ne h1, h.piv i]
      have : i.val ≠ k.val := fun e => h1 (Fin.ext e)
      by_cases h2 : i.val < k.val
      · rw [if_pos h2, if_pos (by omega)]
      · rw [if_neg h2, if_neg (by omega)]
  · intro i j
    rw [hsw]
    have hsum : ∑ m : Fin n, (if m < i ∧ m.val < k.val + 1 then T.L i m * T.U m j else 0) =
        (∑ m : Fin n, (if m < i ∧ m < k then L1 i m * U1 m j else 0)) +
        if k < i then (U1 i k * (U1 k k)⁻¹) * U1 k j else 0 := by
      have e2 : ∀ m : Fin n, (if m < i ∧ m.val < k.val + 1 then T.L i m * T.U m j else 0) =
          (if m < i ∧ m < k then L1 i m * U1 m j else 0) +
          if m = k then (if k < i then (U1 i k * (U1 k k)⁻¹) * U1 k j else 0) else 0 := by
        intro m
        by_cases hm : m = k
        · subst hm
          by_cases hi : m < i
          · simp [hi, hTL, hTU]
          · simp [hi]
        · have hm' : m.val ≠ k.val := fun e => hm (Fin.ext e)
          by_cases h2 : m < i ∧ m < k
          · have hlt : m.val < k.val := h2.2
            rw [if_pos ⟨h2.1, by omega⟩, if_pos h2, hTL, if_neg (fun hh => hm hh.2), hTU,
              if_neg (not_lt.2 h2.2.le), if_neg hm, add_zero]
          · rw [if_neg h2, if_neg hm, if_neg (fun hh => h2 ⟨hh.1, by
              have := hh.2; show m.val < k.val; omega⟩), add_zero]
      rw [Finset.sum_congr rfl fun m _ => e2 m, Finset.sum_add_distrib]
      simp
    rw [hsum, hTU]
    split_ifs <;> ring
  · intro i j hj hi
    rw [hTU]
    by_cases hjk : j.val < k.val
    · split_ifs
      · rw [hup1 i j hjk hi, hup1 k j hjk hjk]; simp
      · exact hup1 i j hjk hi
    · have : j = k := Fin.ext (by omega)
      subst this
      rw [if_pos hi]
      field_simp
      simp
  · intro i j
    rw [hTL]
    have hcol : ¬ j < k → L1 i j = S.L i j := fun hj => by simp [hL1, hj]
    refine ⟨?_, ?_, ?_⟩
    · rintro rfl
      rw [if_neg (fun hh => by have := hh.1; rw [hh.2] at this; exact lt_irrefl _ this)]
      by_cases hj : i < k
      · rw [hLo i i hj.ne (lt_of_lt_of_le hj hkl).ne]; exact (h.lower i i).1 rfl
      · rw [hcol hj]; exact (h.lower i i).1 rfl
    · intro hij
      rw [if_neg (fun hh => by
        have := hh.1; rw [hh.2] at hij; exact lt_asymm this hij)]
      by_cases hj : j < k
      · have hi : i < k := hij.trans hj
        rw [hLo i j hi.ne (lt_of_lt_of_le hi hkl).ne]; exact (h.lower i j).2.1 hij
      · rw [hcol hj]; exact (h.lower i j).2.1 hij
    · intro hkj hji
      have hkj' : k < j := hkj
      rw [if_neg (fun hh => by rw [hh.2] at hkj'; exact lt_irrefl _ hkj'),
        hcol (not_lt.2 hkj'.le)]
      exact (h.lower i j).2.2 hkj'.le hji

/-- No pivot used by `triangular_decomposition` vanishes. -/
def PivotsOk (A : Mat n n K) : Prop :=
  ∀ k : Fin n, ((((List.finRange n).take k.val).foldl (pluStage exactOps A)
    ⟨id, identity exactOps, A⟩).U (pluPivot exactOps A k) k) ≠ 0

theorem tinv_all (A : Mat n n K) (h : PivotsOk A) (k : ℕ) (hk : k ≤ n) :
    TInv A k (((List.finRange n).take k).foldl (swp (pluPivot exactOps A)) A)
      (((List.finRange n).take k).foldl (pluStage exactOps A) ⟨id, identity exactOps, A⟩) := by
  induction k with
  | zero =>
    refine ⟨fun i => by simp, fun i j => by simp, fun i j hj => absurd hj (by omega), fun i j => ?_⟩
    simp only [List.take_zero, List.foldl_nil, identity, exactOps, fieldOps]
    refine ⟨fun e => by simp [e], fun e => by simp [e.ne], fun _ e => by simp [e.ne']⟩
  | succ k ih =>
    have e : (List.finRange n).take (k + 1) = (List.finRange n).take k ++ [⟨k, hk⟩] := by
      rw [List.take_add_one, List.getElem?_eq_getElem (by simpa using hk)]
      simp
    rw [e, List.foldl_append, List.foldl_append]
    exact tinv_step (k := ⟨k, hk⟩) (ih (by omega)) (h ⟨k, hk⟩)

/-- C55 (`triangular_decomposition`): when no pivot vanishes, `P A = L U` with `L` unit
lower triangular and `U` upper triangular.  Missing: the code picks its pivots from the
argument instead of the partly reduced matrix, so pivots may vanish although the matrix
is invertible (`C55_triangular_pivots_wrong`). -/
theorem C55_triangular_partial (A : Matrix (Fin n) (Fin n) K) (h : PivotsOk (A : Mat n n K)) :
    let S := triangularDecomposition exactOps (A : Mat n n K)
    (Matrix.of (applyPivots S.P (A : Mat n n K)) = Matrix.of S.L * Matrix.of S.U) ∧
    (∀ i, S.L i i = 1) ∧ (∀ i j, i < j → S.L i j = 0) ∧ ∀ i j, j < i → S.U i j = 0 := by
  intro S
  have hi := tinv_all (A : Mat n n K) h n le_rfl
  rw [List.take_of_length_le (by simp)] at hi
  have hS : (List.finRange n).foldl (pluStage exactOps (A : Mat n n K))
      ⟨id, identity exactOps, A⟩ = S := rfl
  rw [hS] at hi
  have hP : S.P = pluPivot exactOps (A : Mat n n K) := by
    funext i
    rw [hi.piv i, if_pos i.2]
  refine ⟨?_, fun i => (hi.lower i i).1 rfl, fun i j => (hi.lower i j).2.1,
    fun i j => hi.upper i j j.2⟩
  ext i j
  have e := hi.rows i j
  rw [hP]
  have e1 : applyPivots (pluPivot exactOps (A : Mat n n K)) (A : Mat n n K) i j =
      (List.finRange n).foldl (swp (pluPivot exactOps (A : Mat n n K))) (A : Mat n n K) i j := rfl
  rw [Matrix.of_apply, e1, e, Matrix.mul_apply]
  have e2 : ∀ m : Fin n, Matrix.of S.L i m * Matrix.of S.U m j =
      (if m = i then S.U i j else 0) + if m < i ∧ m.val < n then S.L i m * S.U m j else 0 := by
    intro m
    show S.L i m * S.U m j = _
    rcases lt_trichotomy m i with hm | hm | hm
    · rw [if_neg hm.ne, if_pos ⟨hm, m.2⟩, zero_add]
    · subst hm
      rw [if_pos rfl, if_neg (fun hh => lt_irrefl _ hh.1), (hi.lower m m).1 rfl]; ring
    · rw [if_neg hm.ne', if_neg (fun hh => lt_asymm hm hh.1), (hi.lower i m).2.1 hm]; ring
  rw [Finset.sum_congr rfl fun m _ => e2 m, Finset.sum_add_distrib]
  simp

/-- The matrix of the next counterexample. -/
def badA : Matrix (Fin 3) (Fin 3) ℚ := !![1, 1, 0; 1, 1, 1; 0, 1, 0]

/-- C55: the pivot search of `triangular_decomposition` reads the argument `A`
(matrix.tpl.hpp 598-600), so an invertible matrix can meet a zero pivot (line 619 divides
by it) although a row with a nonzero pivot is at hand. -/
theorem C55_triangular_pivots_wrong :
    badA.det ≠ 0 ∧
    (((List.finRange 3).take 1).foldl (pluStage exactOps (badA : Mat 3 3 ℚ))
      ⟨id, identity exactOps, badA⟩).U (pluPivot exactOps (badA : Mat 3 3 ℚ) 1) 1 = 0 ∧
    (((List.finRange 3).take 1).foldl (pluStage exactOps (badA : Mat 3 3 ℚ))
      ⟨id, identity exactOps, badA⟩).U 2 1 = 1 := by
  refine ⟨?_, by decide +kernel, by decide +kernel⟩
  rw [Matrix.det_fin_three]
  simp [badA]

/-- C55: `dd_solve_bounds` (matrix.tpl.hpp 320-351) multiplies each right-hand side by the
bound for its own row only, so its result need not contain the solution. -/
theorem C55_dd_solve_wrong :
    ∃ (A : Mat 2 2 (Bounds ℚ)) (B C : Mat 2 1 (Bounds ℚ)) (a : Matrix (Fin 2) (Fin 2) ℚ)
      (b x : Matrix (Fin 2) (Fin 1) ℚ),
      (∀ i j, In (A i j) (a i j)) ∧ (∀ i j, In (B i j) (b i j)) ∧ a * x = b ∧
      ddSolve (XRounding.ofRounding Verif.TaylorModel.exactRounding) A B = some C ∧
      ¬ (C 0 0).Contains (x 0 0) := by
  refine ⟨fun i j => ⟨.fin (!![1, 1 / 2; 0, 1] i j), .fin (!![1, 1 / 2; 0, 1] i j)⟩,
    fun i j => ⟨.fin (!![0; 1] i j), .fin (!![0; 1] i j)⟩,
    fun i j => if i = 0 then ⟨.fin 0, .fin 0⟩ else ⟨.fin (-1), .fin 1⟩,
    !![1, 1 / 2; 0, 1], !![0; 1], !![-1 / 2; 1],
    fun i j => ⟨⟨⟨_, rfl⟩, ⟨_, rfl⟩⟩, le_rfl, le_rfl⟩,
    fun i j => ⟨⟨⟨_, rfl⟩, ⟨_, rfl⟩⟩, le_rfl, le_rfl⟩, ?_, ?_, ?_⟩
  · ext i j
    fin_cases i <;> fin_cases j <;> norm_num [Matrix.mul_apply, Fin.sum_univ_two]
  · decide +kernel
  · intro h
    have := h.1
    simp [IsLower] at this
    norm_num at this

/-! ### The hypotheses are met -/

/-- An inverse that needs a row swap. -/
example : luInverse (exactOps : Ops ℚ) (fun i j => !![0, 2; 1, 3] i j) =
    some (fun i j => !![-3 / 2, 1; 1 / 2, 0] i j) := by decide +kernel

example : luInverse (exactOps : Ops ℚ) (fun i j => !![1, 2; 2, 4] i j) = none := by decide +kernel

/-- Bounds with three-bit arithmetic: every matrix in these bounds is invertible. -/
example : (luInverse (boundsOps (.ofRounding (PBit.rounding 3 (by norm_num))))
    (fun (i j : Fin 2) => if i = j then (⟨.fin 2, .fin 3⟩ : Bounds ℚ) else ⟨.fin 0, .fin 1⟩)).isSome := by
  decide +kernel

example : (gsSolve (.ofRounding (PBit.rounding 3 (by norm_num)))
    (fun (i j : Fin 2) => if i = j then (1 / 2 : ℚ) else 0)
    (fun (i j : Fin 2) => if i = j then (⟨.fin 2, .fin 3⟩ : Bounds ℚ) else ⟨.fin 0, .fin 1⟩)
    (fun i (_ : Fin 1) => ⟨.fin 1, .fin 2⟩)).isSome := by
  decide +kernel

example : supNorm (.ofRounding Verif.TaylorModel.exactRounding)
    (fun (i j : Fin 2) => if i = j then (⟨.fin (-3), .fin 2⟩ : Bounds ℚ) else ⟨.fin 0, .fin 1⟩) =
    .fin 4 := by decide +kernel

example : logNorm (.ofRounding Verif.TaylorModel.exactRounding)
    (fun (i j : Fin 2) => if i = j then (⟨.fin (-3), .fin (-2)⟩ : Bounds ℚ) else ⟨.fin 0, .fin 1⟩) =
    .fin (-1) := by decide +kernel

example : PivotsOk (fun i j => !![0, 2; 1, 3] i j : Mat 2 2 ℚ) := by
  unfold PivotsOk
  decide +kernel

end Verif.Matrix
