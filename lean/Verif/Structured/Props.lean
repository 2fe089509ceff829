import Verif.Structured.Sym
import Mathlib.LinearAlgebra.Matrix.NonsingularInverse

/-!
# C98: diagonal matrices and tensors
-/

namespace Verif.Structured

open Verif.Matrix (Encl Ops Mat)

variable {X Y K : Type*} [Field K] [LinearOrder K] [IsStrictOrderedRing K] {o : Ops X} {mem : X → K → Prop}

/-! ## Diagonal matrices -/

theorem zipWith_mem {f : X → X → X} {g : K → K → K} {P : X → Prop}
    (hf : ∀ {x y u v}, P y → mem x u → mem y v → mem (f x y) (g u v)) {D E : List X} {d e : List K}
    (hP : ∀ y ∈ E, P y) (hD : List.Forall₂ mem D d) (hE : List.Forall₂ mem E e) :
    List.Forall₂ mem (List.zipWith f D E) (List.zipWith g d e) := by
  induction hD generalizing E e with
  | nil => exact List.Forall₂.nil
  | cons h _ ih =>
    cases hE with
    | nil => exact List.Forall₂.nil
    | cons h' hE' => exact List.Forall₂.cons (hf (hP _ (by simp)) h h') (ih (fun y hy => hP y (by simp [hy])) hE')

theorem map_mem {f : X → X} {g : K → K} {D : List X} {d : List K} (hf : ∀ x ∈ D, ∀ u, mem x u → mem (f x) (g u))
    (hD : List.Forall₂ mem D d) : List.Forall₂ mem (diagMap f D) (d.map g) := by
  induction hD with
  | nil => exact List.Forall₂.nil
  | cons h _ ih => exact List.Forall₂.cons (hf _ (by simp) _ h) (ih fun x hx => hf x (by simp [hx]))

/-- spec: the entries of the diagonal matrix with diagonal `d`. -/
def diagEntry (d : List K) (i j : ℕ) : K := if i = j then d.getD i 0 else 0

/-- **C98** Every entry of a diagonal matrix inside the matrix encloses that of the matrix with the
diagonal enclosed. -/
theorem C98_diagonal_at (h : Encl o mem) {D : List X} {d : List K} (hD : List.Forall₂ mem D d) {i j : ℕ}
    (hi : i < D.length) : ∃ x, diagAt o.zero D i j = some x ∧ mem x (diagEntry d i j) := by
  unfold diagAt diagEntry
  split_ifs with hij
  · refine ⟨D[i], by simp [hi], ?_⟩
    have hd : i < d.length := by rw [← hD.length_eq]; exact hi
    rw [List.getD_eq_getElem?_getD, List.getElem?_eq_getElem hd]
    exact (List.forall₂_iff_get.1 hD).2 i hi hd
  · exact ⟨_, rfl, h.zero⟩

/-- **C98** Sums, differences, products and quotients of diagonal matrices are those of the diagonals;
different sizes are rejected.  `dv` is division and `P` holds of divisors for which it is sound. -/
theorem C98_diagonal_arithmetic (h : Encl o mem) {D E : List X} {d e : List K} (hD : List.Forall₂ mem D d)
    (hE : List.Forall₂ mem E e) {dv : X → X → X} {P : X → Prop}
    (hdv : ∀ {x y u v}, P y → mem x u → mem y v → mem (dv x y) (u / v)) :
    (D.length = E.length →
      (∃ F, diagZip o.add D E = some F ∧ List.Forall₂ mem F (List.zipWith (· + ·) d e)) ∧
      (∃ F, diagZip o.sub D E = some F ∧ List.Forall₂ mem F (List.zipWith (· - ·) d e)) ∧
      (∃ F, diagZip o.mul D E = some F ∧ List.Forall₂ mem F (List.zipWith (· * ·) d e)) ∧
      ((∀ y ∈ E, P y) → ∃ F, diagZip dv D E = some F ∧ List.Forall₂ mem F (List.zipWith (· / ·) d e))) ∧
    (D.length ≠ E.length → ∀ f : X → X → X, diagZip f D E = none) ∧
    (∀ c r, mem c r → List.Forall₂ mem (diagMap (fun x => o.mul x c) D) (d.map (· * r)) ∧
      (P c → List.Forall₂ mem (diagMap (fun x => dv x c) D) (d.map (· / r)))) ∧
    ((∀ x ∈ D, o.gt x o.zero = true) → List.Forall₂ mem (diagMap o.recip D) (d.map (·⁻¹)) ∧ ∀ y ∈ d, y ≠ 0) := by
  refine ⟨fun hl => ?_, fun hl f => by simp [diagZip, hl], fun c r hc => ?_, fun hg => ?_⟩
  · simp only [diagZip, if_pos hl, Option.some.injEq, exists_eq_left']
    exact ⟨zipWith_mem (P := fun _ => True) (fun _ => h.add) (by simp) hD hE,
      zipWith_mem (P := fun _ => True) (fun _ => h.sub) (by simp) hD hE,
      zipWith_mem (P := fun _ => True) (fun _ => h.mul) (by simp) hD hE,
      fun hP => zipWith_mem hdv hP hD hE⟩
  · exact ⟨map_mem (fun x _ u hx => h.mul hx hc) hD, fun hP => map_mem (fun x _ u hx => hdv hP hx hc) hD⟩
  · refine ⟨map_mem (fun x hx u hu => h.recip (hg x hx) hu) hD, fun y hy => ?_⟩
    obtain ⟨k, hk, rfl⟩ := List.getElem_of_mem hy
    have hk' : k < D.length := by rw [hD.length_eq]; exact hk
    exact h.ne_zero (hg _ (List.getElem_mem hk')) ((List.forall₂_iff_get.1 hD).2 k hk' hk)

variable {m n : ℕ}

/-- **C98** A matrix combined with a diagonal matrix encloses the result for the full matrix with the
diagonal: sums and differences. -/
theorem C98_diagonal_add (h : Encl o mem) {A : Mat n n X} {a : _root_.Matrix (Fin n) (Fin n) K} {D : Fin n → X}
    {d : Fin n → K} (hA : ∀ i j, mem (A i j) (a i j)) (hD : ∀ i, mem (D i) (d i)) {neg : X → X}
    (hn : ∀ x u, mem x u → mem (neg x) (-u)) (i j : Fin n) :
    mem (matDiag o.add A D i j) ((a + Matrix.diagonal d) i j) ∧
    mem (matDiag o.sub A D i j) ((a - Matrix.diagonal d) i j) ∧
    mem (diagSubMat neg o.add D A i j) ((Matrix.diagonal d - a) i j) := by
  simp only [matDiag, diagSubMat, Matrix.add_apply, Matrix.sub_apply, Matrix.diagonal_apply]
  split_ifs with hij
  · subst hij
    refine ⟨h.add (hA _ _) (hD _), h.sub (hA _ _) (hD _), ?_⟩
    have := h.add (hn _ _ (hA i i)) (hD i)
    rwa [neg_add_eq_sub] at this
  · simp only [add_zero, sub_zero, zero_sub]
    exact ⟨hA _ _, hA _ _, hn _ _ (hA _ _)⟩

/-- **C98** Products with matrices and vectors. -/
theorem C98_diagonal_mul (h : Encl o mem) {A : Mat m n X} {a : _root_.Matrix (Fin m) (Fin n) K}
    {D : Fin n → X} {d : Fin n → K} {E : Fin m → X} {e : Fin m → K} {v : Fin n → X} {w : Fin n → K}
    (hA : ∀ i j, mem (A i j) (a i j)) (hD : ∀ i, mem (D i) (d i)) (hE : ∀ i, mem (E i) (e i))
    (hv : ∀ i, mem (v i) (w i)) :
    (∀ i j, mem (matMulDiag o.mul A D i j) ((a * Matrix.diagonal d) i j)) ∧
    (∀ i j, mem (diagMulMat o.mul E A i j) ((Matrix.diagonal e * a) i j)) ∧
    (∀ i j, mem (diagMulTranspose o.mul D A i j) ((Matrix.diagonal d * a.transpose) i j)) ∧
    (∀ i, mem (vecDiag o.mul v D i) ((Matrix.diagonal d).mulVec w i)) ∧
    (∀ i, mem (vecDiag o.mul v D i) (Matrix.vecMul w (Matrix.diagonal d) i)) := by
  refine ⟨fun i j => ?_, fun i j => ?_, fun i j => ?_, fun i => ?_, fun i => ?_⟩
  · rw [Matrix.mul_diagonal]; exact h.mul (hA i j) (hD j)
  · rw [Matrix.diagonal_mul, mul_comm]; exact h.mul (hA i j) (hE i)
  · rw [Matrix.diagonal_mul]; exact h.mul (hD i) (hA j i)
  · rw [Matrix.mulVec_diagonal, mul_comm]; exact h.mul (hv i) (hD i)
  · rw [Matrix.vecMul_diagonal]; exact h.mul (hv i) (hD i)

/-- **C98** The inverse encloses the inverse matrix, and a vector divided by a diagonal matrix the
solution of the equations, if no entry is zero. -/
theorem C98_diagonal_inverse (h : Encl o mem) {D v : Fin n → X} {d w : Fin n → K} (hD : ∀ i, mem (D i) (d i))
    (hv : ∀ i, mem (v i) (w i)) (hg : ∀ i, o.gt (D i) o.zero = true) {dv : X → X → X} {P : X → Prop}
    (hdv : ∀ {x y u v}, P y → mem x u → mem y v → mem (dv x y) (u / v)) (hP : ∀ i, P (D i)) :
    (∀ i j, mem (diagToMat o.zero (fun i => o.recip (D i)) i j) ((Matrix.diagonal d)⁻¹ i j)) ∧
      ∃ x : Fin n → K, (Matrix.diagonal d).mulVec x = w ∧ ∀ i, mem (vecDiag dv v D i) (x i) := by
  have h0 : ∀ i, d i ≠ 0 := fun i => h.ne_zero (hg i) (hD i)
  constructor
  · have e : (Matrix.diagonal d)⁻¹ = Matrix.diagonal fun i => (d i)⁻¹ := by
      apply Matrix.inv_eq_right_inv
      rw [Matrix.diagonal_mul_diagonal]
      simp [h0]
    intro i j
    rw [e, Matrix.diagonal_apply, diagToMat]
    split_ifs
    · exact h.recip (hg i) (hD i)
    · exact h.zero
  · refine ⟨fun i => w i / d i, ?_, fun i => hdv (hP i) (hv i) (hD i)⟩
    funext i
    rw [Matrix.mulVec_diagonal]
    exact mul_div_cancel₀ _ (h0 i)

/-- **C98**, counterexample: a diagonal matrix cannot be made of an empty array. -/
theorem C98_diagonal_empty_wrong : diagOfArray ([] : List X) = none ∧ ∀ l : List X, l ≠ [] → diagOfArray l = some l :=
  ⟨rfl, fun l hl => by simp [diagOfArray, hl]⟩

/-! ## Tensors -/

/-- spec: indices within the sizes. -/
def InRange (ns is : List ℕ) : Prop := List.Forall₂ (fun i n => i < n) is ns

theorem totalSize_eq (ns : List ℕ) : totalSize ns = ns.prod := by
  have : ∀ r, ns.foldl (fun r n => r * n) r = r * ns.prod := by
    induction ns with
    | nil => simp
    | cons n ns ih => intro r; rw [List.foldl_cons, ih, List.prod_cons, mul_assoc]
  rw [totalSize, this, one_mul]

theorem fold_bounds {is ns : List ℕ} (h : InRange ns is) (r : ℕ) :
    r * ns.prod ≤ (is.zip ns).foldl (fun r e => r * e.2 + e.1) r ∧
      (is.zip ns).foldl (fun r e => r * e.2 + e.1) r < (r + 1) * ns.prod := by
  induction h generalizing r with
  | nil => simp
  | @cons i n is ns hi _ ih =>
    rw [List.zip_cons_cons, List.foldl_cons, List.prod_cons]
    have h1 := ih (r * n + i)
    simp only
    constructor
    · refine le_trans ?_ h1.1
      rw [← mul_assoc]
      exact Nat.mul_le_mul_right _ (by omega)
    · refine lt_of_lt_of_le h1.2 ?_
      rw [← mul_assoc]
      refine Nat.mul_le_mul_right _ ?_
      rw [add_mul, one_mul]
      omega

theorem fold_inj {is js ns : List ℕ} (h : InRange ns is) (h' : InRange ns js) {r s : ℕ}
    (e : (is.zip ns).foldl (fun r e => r * e.2 + e.1) r = (js.zip ns).foldl (fun r e => r * e.2 + e.1) s) :
    r = s ∧ is = js := by
  induction h generalizing js r s with
  | nil => cases h'; exact ⟨e, rfl⟩
  | @cons i n is ns hi _ ih =>
    cases h' with
    | @cons j _ js _ hj hjs =>
      rw [List.zip_cons_cons, List.zip_cons_cons, List.foldl_cons, List.foldl_cons] at e
      obtain ⟨h1, rfl⟩ := ih hjs e
      simp only at h1
      have h2 : r = s := by
        have := congrArg (· / n) h1
        simp only [Nat.mul_add_div (by omega : n > 0), mul_comm r n, mul_comm s n,
          Nat.div_eq_of_lt hi, Nat.div_eq_of_lt hj] at this
        simpa using this
      subst h2
      exact ⟨rfl, by rw [show i = j by omega]⟩

/-- **C98** Indices within the sizes are stored within the array, and different ones at different places. -/
theorem C98_tensor_index {ns is : List ℕ} (hn : ns ≠ []) (h : InRange ns is) :
    ∃ k, tensorIndex ns is = some k ∧ k < totalSize ns ∧
      ∀ js, InRange ns js → tensorIndex ns js = some k → js = is := by
  cases h with
  | nil => exact absurd rfl hn
  | @cons i n is ns hi h =>
    refine ⟨(is.zip ns).foldl (fun r e => r * e.2 + e.1) i,
      by simp only [tensorIndex, List.tail_cons]; exact if_pos h.length_eq.le, ?_, ?_⟩
    · rw [totalSize_eq, List.prod_cons]
      exact lt_of_lt_of_le (fold_bounds h i).2 (Nat.mul_le_mul_right _ hi)
    · intro js hjs e
      cases hjs with
      | @cons j _ js _ hj hjs =>
        simp only [tensorIndex, List.tail_cons] at e
        have e := Option.some.inj ((if_pos hjs.length_eq.le).symm.trans e)
        obtain ⟨rfl, rfl⟩ := fold_inj hjs h e
        rfl

/-- spec: the tensor has an entry for every index. -/
def Tensor.Full (t : Tensor X) : Prop := t.ns ≠ [] ∧ t.a.length = totalSize t.ns

/-- **C98** Every entry of a full tensor can be read; a filled tensor is full and has its value
everywhere. -/
theorem C98_tensor_at {t : Tensor X} (ht : t.Full) {is : List ℕ} (h : InRange t.ns is) : ∃ x, t.at is = some x := by
  obtain ⟨k, h1, h2, -⟩ := C98_tensor_index ht.1 h
  exact ⟨t.a[k]'(by rw [ht.2]; exact h2), by simp [Tensor.at, h1, ht.2, h2]⟩

theorem C98_tensor_filled {ns : List ℕ} (hn : ns ≠ []) (z : X) : (Tensor.filled ns z).Full ∧
    ∀ is, InRange ns is → (Tensor.filled ns z).at is = some z := by
  refine ⟨⟨hn, by simp [Tensor.filled]⟩, fun is h => ?_⟩
  obtain ⟨k, h1, h2, -⟩ := C98_tensor_index hn h
  simp [Tensor.at, Tensor.filled, h1, h2]

/-- **C98** Setting an entry changes that entry and no other. -/
theorem C98_tensor_set {t : Tensor X} (ht : t.Full) {is : List ℕ} (h : InRange t.ns is) (x : X) :
    ∃ t', t.set is x = some t' ∧ t'.Full ∧ t'.ns = t.ns ∧
      ∀ js, InRange t.ns js → t'.at js = if js = is then some x else t.at js := by
  obtain ⟨k, h1, h2, h3⟩ := C98_tensor_index ht.1 h
  have h2' : k < t.a.length := by rw [ht.2]; exact h2
  refine ⟨⟨t.ns, t.a.set k x⟩, by simp [Tensor.set, h1, h2'], ⟨ht.1, by simp [ht.2]⟩, rfl, fun js hj => ?_⟩
  obtain ⟨l, h4, h5, h6⟩ := C98_tensor_index ht.1 hj
  simp only [Tensor.at, h4, Option.bind_some, List.getElem?_set]
  by_cases e : js = is
  · subst e
    obtain rfl : k = l := Option.some.inj (h1.symm.trans h4)
    simp [h2']
  · have : k ≠ l := fun hkl => e (h3 js hj (by rw [h4, hkl]))
    simp [this, e]

theorem mem_indices2 {n m i j : ℕ} : (i, j) ∈ indices2 n m ↔ i < n ∧ j < m := by
  simp only [indices2, List.mem_flatMap, List.mem_range, List.mem_map, Prod.mk.injEq]
  constructor
  · rintro ⟨a, h1, b, h2, rfl, rfl⟩; exact ⟨h1, h2⟩
  · rintro ⟨h1, h2⟩; exact ⟨i, h1, j, h2, rfl, rfl⟩

theorem inRange2 {n m i j : ℕ} : InRange [n, m] [i, j] ↔ i < n ∧ j < m := by
  simp [InRange]

/-- Assigning values at a list of indices, one after another. -/
theorem assign_all {n m : ℕ} (g : ℕ → ℕ → Y) (l : List (ℕ × ℕ)) (hl : ∀ p ∈ l, p.1 < n ∧ p.2 < m) (t : Tensor Y)
    (ht : t.Full) (hns : t.ns = [n, m]) :
    ∃ t', l.foldlM (fun t p => t.set [p.1, p.2] (g p.1 p.2)) t = some t' ∧ t'.Full ∧ t'.ns = [n, m] ∧
      ∀ i < n, ∀ j < m, t'.at [i, j] = if (i, j) ∈ l then some (g i j) else t.at [i, j] := by
  induction l generalizing t with
  | nil => exact ⟨t, rfl, ht, hns, by simp⟩
  | cons p l ih =>
    have hp := hl p (by simp)
    obtain ⟨t1, h1, h2, h3, h4⟩ := C98_tensor_set ht (is := [p.1, p.2]) (by rw [hns]; exact inRange2.2 hp) (g p.1 p.2)
    obtain ⟨t2, h5, h6, h7, h8⟩ := ih (fun q hq => hl q (by simp [hq])) t1 h2 (h3.trans hns)
    refine ⟨t2, by rw [List.foldlM_cons, h1]; exact h5, h6, h7, fun i hi j hj => ?_⟩
    rw [h8 i hi j hj, h4 _ (by rw [hns]; exact inRange2.2 ⟨hi, hj⟩)]
    obtain ⟨a, b⟩ := p
    by_cases h9 : (i, j) ∈ l
    · simp [h9]
    · by_cases h10 : i = a ∧ j = b
      · obtain ⟨rfl, rfl⟩ := h10
        simp
      · simp [h9, h10]

/-- **C98** A tensor made from a function has its values. -/
theorem C98_tensor_generate (n m : ℕ) (g : ℕ → ℕ → X) :
    ∃ t, Tensor.generate n m g = some t ∧ t.Full ∧ t.ns = [n, m] ∧
      ∀ i < n, ∀ j < m, t.at [i, j] = some (g i j) := by
  obtain ⟨t, h1, h2, h3, h4⟩ := assign_all g (indices2 n m) (fun p hp => mem_indices2.1 hp)
    (Tensor.filled [n, m] (g 0 0)) (C98_tensor_filled (by simp) _).1 rfl
  refine ⟨t, ?_, h2, h3, fun i hi j hj => by rw [h4 i hi j hj, if_pos (mem_indices2.2 ⟨hi, hj⟩)]⟩
  rw [← h1]
  have key : ∀ (l : List (ℕ × ℕ)) (t : Tensor X), t.ns = [n, m] →
      l.foldlM (fun t p => if p.1 * m + p.2 < t.a.length then
        some (⟨t.ns, t.a.set (p.1 * m + p.2) (g p.1 p.2)⟩ : Tensor X) else none) t =
      l.foldlM (fun t p => t.set [p.1, p.2] (g p.1 p.2)) t := by
    intro l
    induction l with
    | nil => intro t _; rfl
    | cons p l ih =>
      intro t ht
      rw [List.foldlM_cons, List.foldlM_cons]
      have : t.set [p.1, p.2] (g p.1 p.2) = if p.1 * m + p.2 < t.a.length then
          some ⟨t.ns, t.a.set (p.1 * m + p.2) (g p.1 p.2)⟩ else none := by
        simp [Tensor.set, tensorIndex, ht]
      rw [this]
      split_ifs
      · exact ih _ ht
      · rfl
  exact key _ _ rfl

/-- **C98** `transform` applies the function to every entry, if the tensor is not empty. -/
theorem C98_tensor_transform {n m : ℕ} {t : Tensor X} (ht : t.Full) (hns : t.ns = [n, m]) (hn : 0 < n) (hm : 0 < m)
    (f : X → Y) : ∃ r, Tensor.transform n m f t = some r ∧ r.Full ∧ r.ns = [n, m] ∧
      ∀ i < n, ∀ j < m, r.at [i, j] = (t.at [i, j]).map f := by
  obtain ⟨x0, h0⟩ := C98_tensor_at ht (is := [0, 0]) (by rw [hns]; exact inRange2.2 ⟨hn, hm⟩)
  obtain ⟨r, h1, h2, h3, h4⟩ := assign_all (fun i j => f ((t.at [i, j]).getD x0)) (indices2 n m)
    (fun p hp => mem_indices2.1 hp) (Tensor.filled [n, m] (f x0)) (C98_tensor_filled (by simp) _).1 rfl
  refine ⟨r, ?_, h2, h3, fun i hi j hj => ?_⟩
  · rw [Tensor.transform, h0, Option.bind_some, ← h1]
    have key : ∀ (l : List (ℕ × ℕ)) (r : Tensor Y), (∀ p ∈ l, p.1 < n ∧ p.2 < m) →
        l.foldlM (fun r p => (t.at [p.1, p.2]).bind fun x => r.set [p.1, p.2] (f x)) r =
        l.foldlM (fun r p => r.set [p.1, p.2] (f ((t.at [p.1, p.2]).getD x0))) r := by
      intro l
      induction l with
      | nil => intro r _; rfl
      | cons p l ih =>
        intro r hl
        obtain ⟨x, hx⟩ := C98_tensor_at ht (is := [p.1, p.2]) (by rw [hns]; exact inRange2.2 (hl p (by simp)))
        rw [List.foldlM_cons, List.foldlM_cons, hx, Option.bind_some, Option.getD_some]
        rcases r.set [p.1, p.2] (f x) with _ | r'
        · rfl
        · exact ih r' fun q hq => hl q (by simp [hq])
    exact key _ _ fun p hp => mem_indices2.1 hp
  · obtain ⟨x, hx⟩ := C98_tensor_at ht (is := [i, j]) (by rw [hns]; exact inRange2.2 ⟨hi, hj⟩)
    rw [h4 i hi j hj, if_pos (mem_indices2.2 ⟨hi, hj⟩), hx]
    rfl

/-- **C98**, counterexample: transforming an empty tensor reads an entry which it does not have. -/
theorem C98_tensor_transform_empty_wrong (f : X → Y) (z : X) (m : ℕ) :
    Tensor.transform 0 m f (Tensor.filled [0, m] z) = none := by
  simp [Tensor.transform, Tensor.at, Tensor.filled, tensorIndex, totalSize_eq]

theorem writeEntries_pos (ns : List ℕ) (m p : ℕ) (hm : m ≤ ns.length) :
    (writeEntries ns m p).map Prod.snd = List.range' p (ns.take m).sum := by
  induction m generalizing p with
  | zero => simp [writeEntries]
  | succ m ih =>
    have hm' : m < ns.length := hm
    have e : ns.getD m 0 = ns[m] := by simp [List.getD_eq_getElem?_getD, hm']
    rw [writeEntries, List.map_append, ih _ (by omega), e, List.take_succ_eq_append_getElem hm', List.sum_append,
      List.sum_singleton, add_comm (ns.take m).sum ns[m], ← List.range'_append_1]
    congr 1
    rw [List.map_map, List.range'_eq_map_range]
    rfl

/-- **C98**, counterexample: for ranks above three, as many entries are printed as the sum of the sizes,
not their product; if the sum is greater, this reads beyond the end of the array. -/
theorem C98_tensor_write_wrong (t : Tensor X) :
    (t.a.length < t.ns.sum → t.write = none) ∧
      (t.ns.sum ≤ t.a.length → ∃ l, t.write = some l ∧ l.length = t.ns.sum) := by
  have hp := writeEntries_pos t.ns t.ns.length 0 le_rfl
  rw [List.take_length] at hp
  have hl : (writeEntries t.ns t.ns.length 0).length = t.ns.sum := by
    have := congrArg List.length hp
    simpa using this
  constructor
  · intro h
    have hmem : t.a.length ∈ (writeEntries t.ns t.ns.length 0).map Prod.snd := by
      rw [hp]; simp [h]
    obtain ⟨e, he, he'⟩ := List.mem_map.1 hmem
    unfold Tensor.write
    have key : ∀ l : List (List ℕ × ℕ), e ∈ l → (l.mapM fun e => (t.a[e.2]?).map fun x => (e.1, x)) = none := by
      intro l
      induction l with
      | nil => simp
      | cons d l ih =>
        intro h
        rw [List.mapM_cons]
        rcases List.mem_cons.1 h with rfl | h
        · rw [he']; simp
        · rw [ih h]
          rcases (t.a[d.2]?).map fun x => (d.1, x) with _ | _ <;> rfl
    exact key _ he
  · intro h
    have hlt : ∀ e ∈ writeEntries t.ns t.ns.length 0, e.2 < t.a.length := by
      intro e he
      have : e.2 ∈ (writeEntries t.ns t.ns.length 0).map Prod.snd := List.mem_map.2 ⟨e, he, rfl⟩
      rw [hp] at this
      simp at this
      omega
    rw [← hl]
    unfold Tensor.write
    generalize writeEntries t.ns t.ns.length 0 = l at hlt
    induction l with
    | nil => exact ⟨[], rfl, rfl⟩
    | cons d l ih =>
      obtain ⟨r, h1, h2⟩ := ih fun e he => hlt e (by simp [he])
      have := hlt d (by simp)
      exact ⟨_, by rw [List.mapM_cons, h1, List.getElem?_eq_getElem this]; rfl, by simp [h2]⟩

end Verif.Structured
