import Verif.Simplex.Model
import Verif.Matrix.Props
import Verif.TaylorModel.Compose
import Mathlib.LinearAlgebra.Matrix.NonsingularInverse
import Mathlib.Algebra.BigOperators.Fin
import Mathlib.Data.List.Nodup
import Mathlib.Algebra.BigOperators.Group.List.Basic
import Mathlib.Tactic.Linarith

/-!
# Lemmas on the validation of a basis
-/

namespace Verif.Simplex

open Ariadne Ariadne.Logical Ariadne.Logical.LV Verif.Matrix

variable {K : Type*} [Field K] [LinearOrder K] [IsStrictOrderedRing K] {m n : ℕ}

/-! ### Comparisons -/

theorem possibly_leq {X Y : Bounds K} : possibly (leq X Y) = false ↔ Ext.lt Y.u X.l = true := by
  unfold leq Bounds.lt
  cases Ext.lt Y.u X.l <;> cases Ext.le X.u Y.l <;> decide

theorem definitely_lt {X Y : Bounds K} : definitely (Bounds.lt X Y) = true ↔ Ext.lt X.u Y.l = true := by
  unfold Bounds.lt
  cases Ext.lt X.u Y.l <;> cases Ext.le Y.u X.l <;> decide

theorem definitely_leq {X Y : Bounds K} (h : definitely (leq X Y) = true) : Ext.le X.u Y.l = true := by
  unfold leq Bounds.lt at h
  revert h
  cases Ext.lt Y.u X.l <;> cases Ext.le X.u Y.l <;> decide

/-- `y < x` for an extended `y`. -/
theorem lt_of_lt_lower {X : Bounds K} {x : K} {y : Ext K} (hX : In X x) (h : Ext.lt y X.l = true) :
    Ext.lt y (.fin x) = true := by
  obtain ⟨l, u⟩ := X
  obtain ⟨⟨⟨a, ha⟩, _⟩, h1, _⟩ := hX
  simp only at ha h h1
  subst ha
  simp only [IsLower] at h1
  cases y <;> simp_all [Ext.lt]
  linarith

theorem lt_of_upper_lt {X : Bounds K} {x : K} {y : Ext K} (hX : In X x) (h : Ext.lt X.u y = true) :
    Ext.lt (.fin x) y = true := by
  obtain ⟨l, u⟩ := X
  obtain ⟨⟨_, ⟨a, ha⟩⟩, _, h1⟩ := hX
  simp only at ha h h1
  subst ha
  simp only [IsUpper] at h1
  cases y <;> simp_all [Ext.lt]
  linarith

theorem le_of_upper_le {X : Bounds K} {x : K} {y : Ext K} (hX : In X x) (h : Ext.le X.u y = true) :
    Ext.le (.fin x) y = true := by
  obtain ⟨l, u⟩ := X
  obtain ⟨⟨_, ⟨a, ha⟩⟩, _, h1⟩ := hX
  simp only at ha h h1
  subst ha
  simp only [IsUpper] at h1
  cases y <;> simp_all [Ext.le]
  linarith

theorem le_of_le_lower {X : Bounds K} {x : K} {y : Ext K} (hX : In X x) (h : Ext.le y X.l = true) :
    Ext.le y (.fin x) = true := by
  obtain ⟨l, u⟩ := X
  obtain ⟨⟨⟨a, ha⟩, _⟩, h1, _⟩ := hX
  simp only at ha h h1
  subst ha
  simp only [IsLower] at h1
  cases y <;> simp_all [Ext.le]
  linarith

theorem le_of_lt {x y : Ext K} (h : Ext.lt x y = true) : Ext.le x y = true := by
  cases x <;> cases y <;> simp_all [Ext.le, Ext.lt]
  exact h.le

theorem ext_le_trans {x z : K} {y : Ext K} (h : Ext.le (.fin x) y = true) (h' : Ext.le y (.fin z) = true) :
    x ≤ z := by
  cases y <;> simp only [Ext.le, decide_eq_true_eq, Bool.false_eq_true] at h h'
  exact h.trans h'

theorem ext_lt_of_lt_le {x z : K} {y : Ext K} (h : Ext.lt (.fin x) y = true)
    (h' : Ext.le y (.fin z) = true) : x < z := by
  cases y <;> simp only [Ext.le, Ext.lt, decide_eq_true_eq, Bool.false_eq_true] at h h'
  exact h.trans_le h'

theorem ext_lt_of_le_lt {x z : K} {y : Ext K} (h : Ext.le (.fin x) y = true)
    (h' : Ext.lt y (.fin z) = true) : x < z := by
  cases y <;> simp only [Ext.le, Ext.lt, decide_eq_true_eq, Bool.false_eq_true] at h h'
  exact h.trans_lt h'

/-! ### The two loops -/

theorem basicLoop_true {xl xu x : Fin n → Bounds K} {fs : LV} {l : List (Fin n)}
    (h : basicLoop xl xu x fs l = .true_) :
    fs = .true_ ∧ ∀ j ∈ l, possibly (leq (x j) (xl j)) = false ∧ possibly (leq (xu j) (x j)) = false := by
  induction l generalizing fs with
  | nil => exact ⟨h, by simp⟩
  | cons j l ih =>
    simp only [basicLoop] at h
    split_ifs at h with h1 h2
    · exact absurd (ih h).1 (by decide)
    · obtain ⟨h3, h4⟩ := ih h
      refine ⟨h3, fun i hi => ?_⟩
      rcases List.mem_cons.1 hi with rfl | hi
      · simpa [Bool.or_eq_true] using h1
      · exact h4 i hi

theorem basicLoop_false {xl xu x : Fin n → Bounds K} {fs : LV} {l : List (Fin n)}
    (h : basicLoop xl xu x fs l = .false_) :
    fs = .false_ ∨ ∃ j ∈ l, definitely (Bounds.lt (x j) (xl j)) = true ∨
      definitely (Bounds.lt (xu j) (x j)) = true := by
  induction l generalizing fs with
  | nil => exact .inl h
  | cons j l ih =>
    simp only [basicLoop] at h
    split_ifs at h with h1 h2
    · exact .inr ⟨j, by simp, by simpa [Bool.or_eq_true] using h2⟩
    · rcases ih h with h3 | ⟨i, hi, h3⟩
      · exact absurd h3 (by decide)
      · exact .inr ⟨i, List.mem_cons_of_mem _ hi, h3⟩
    · rcases ih h with h3 | ⟨i, hi, h3⟩
      · exact .inl h3
      · exact .inr ⟨i, List.mem_cons_of_mem _ hi, h3⟩

theorem nonbasicLoop_det {vt : Fin n → Slackness} {z : Fin n → Bounds K} {fs : LV} {l : List (Fin n)}
    (h : nonbasicLoop vt z fs l ≠ .indeterminate) :
    nonbasicLoop vt z fs l = fs ∧ ∀ j ∈ l,
      (vt j = .lower → possibly (leq (z j) (point (.fin 0))) = false) ∧
      (vt j = .upper → possibly (leq (point (.fin 0)) (z j)) = false) := by
  induction l with
  | nil => exact ⟨rfl, by simp⟩
  | cons j l ih =>
    simp only [nonbasicLoop] at h ⊢
    split_ifs at h ⊢ with h1 h2
    · exact absurd rfl h
    · exact absurd rfl h
    · obtain ⟨h3, h4⟩ := ih h
      refine ⟨h3, fun i hi => ?_⟩
      rcases List.mem_cons.1 hi with rfl | hi
      · exact ⟨fun hv => by simpa [hv] using h1, fun hv => by simpa [hv] using h2⟩
      · exact h4 i hi

/-! ### Values placed at the basic indices -/

/-- The function `x` with the values `f` at the indices `p`. -/
def place {α : Type*} (p : Fin m → Fin n) (f : Fin m → α) (x : Fin n → α) (l : List (Fin m)) :
    Fin n → α :=
  l.foldl (fun x k => Function.update x (p k) (f k)) x

theorem place_not {α : Type*} {p : Fin m → Fin n} {f : Fin m → α} {x : Fin n → α} {l : List (Fin m)}
    {j : Fin n} (h : ∀ k ∈ l, p k ≠ j) : place p f x l j = x j := by
  induction l generalizing x with
  | nil => rfl
  | cons k l ih =>
    rw [show place p f x (k :: l) = place p f (Function.update x (p k) (f k)) l from rfl,
      ih fun i hi => h i (List.mem_cons_of_mem _ hi), Function.update_of_ne (h k (by simp)).symm]

theorem place_at {α : Type*} {p : Fin m → Fin n} (hp : Function.Injective p) {f : Fin m → α}
    {x : Fin n → α} {l : List (Fin m)} {k : Fin m} (h : k ∈ l) : place p f x l (p k) = f k := by
  induction l generalizing x with
  | nil => simp at h
  | cons i l ih =>
    rw [show place p f x (i :: l) = place p f (Function.update x (p i) (f i)) l from rfl]
    by_cases hk : k ∈ l
    · exact ih hk
    · have hki : k = i := by simpa [hk] using h
      subst hki
      rw [place_not fun i' hi' he => hk ((hp he : i' = k) ▸ hi'), Function.update_self]

/-! ### The permutation -/

theorem computeP_perm (vt : Fin n → Slackness) : (computeP vt).Perm (List.finRange n) := by
  have h := List.filter_append_perm (fun j : Fin n => decide (vt j = .basis)) (List.finRange n)
  have e : (fun j : Fin n => !decide (vt j = .basis)) = fun j => decide (vt j ≠ .basis) := by
    funext j
    simp
  rw [e] at h
  exact h

theorem computeP_length (vt : Fin n → Slackness) : (computeP vt).length = n := by
  rw [(computeP_perm vt).length_eq, List.length_finRange]

theorem computeP_nodup (vt : Fin n → Slackness) : (computeP vt).Nodup :=
  (computeP_perm vt).nodup_iff.2 (List.nodup_finRange n)

/-- The first `m` indices `p` and the others `q` together are all indices, each once. -/
structure Split (p : Fin m → Fin n) (q : List (Fin n)) : Prop where
  inj : Function.Injective p
  disj : ∀ k, p k ∉ q
  cover : ∀ j, (∃ k, p k = j) ∨ j ∈ q
  sum : ∀ f : Fin n → K, ∑ j, f j = ∑ k, f (p k) + (q.map f).sum

theorem split_computeP (hmn : m ≤ n) (vt : Fin n → Slackness) :
    Split (K := K) (fun k : Fin m => (computeP vt).getD k ⟨k, k.2.trans_le hmn⟩)
      ((computeP vt).drop m) := by
  have hl := computeP_length vt
  have hn := computeP_nodup vt
  have hk : ∀ k : Fin m, (k : ℕ) < (computeP vt).length := fun k => by omega
  have e : ∀ k : Fin m, (computeP vt).getD k ⟨k, k.2.trans_le hmn⟩ = (computeP vt)[(k:ℕ)]'(hk k) :=
    fun k => by rw [List.getD_eq_getElem?_getD, List.getElem?_eq_getElem (hk k)]; rfl
  have ht : (computeP vt).take m =
      (List.finRange m).map fun k : Fin m => (computeP vt).getD k ⟨k, k.2.trans_le hmn⟩ := by
    refine List.ext_getElem (by simp [hl, hmn]) fun i h1 h2 => ?_
    simp only [List.getElem_take, List.getElem_map, List.getElem_finRange]
    rw [e]
    rfl
  have hd : List.Disjoint ((computeP vt).take m) ((computeP vt).drop m) := List.disjoint_take_drop hn le_rfl
  refine ⟨fun a b hab => ?_, fun k hq => ?_, fun j => ?_, fun f => ?_⟩
  · simp only [e] at hab
    exact Fin.ext ((List.Nodup.getElem_inj_iff hn).1 hab)
  · exact hd (by rw [ht]; exact List.mem_map_of_mem (List.mem_finRange k)) hq
  · have hj : j ∈ computeP vt := (computeP_perm vt).mem_iff.2 (List.mem_finRange j)
    rw [← List.take_append_drop m (computeP vt), List.mem_append, ht] at hj
    rcases hj with hj | hj
    · obtain ⟨k, _, rfl⟩ := List.mem_map.1 hj
      exact .inl ⟨k, rfl⟩
    · exact .inr hj
  · have h1 : ∑ j, f j = ((computeP vt).map f).sum := by
      rw [((computeP_perm vt).map f).sum_eq, Fin.sum_univ_def]
    rw [h1]
    conv_lhs => rw [← List.take_append_drop m (computeP vt)]
    rw [List.map_append, List.sum_append, ht, List.map_map, Fin.sum_univ_def]
    rfl

/-! ### The cost vector -/

theorem computeC_spec {xl xu : Fin n → Ext K} {p : Fin m → Fin n} (hp : Function.Injective p)
    {x : Fin n → Bounds K} {c : Fin n → K} (h : computeC xl xu p x = some c) :
    (∀ j, (∀ k, p k ≠ j) → c j = 0) ∧ ∀ k, c (p k) =
      if possibly (leq (x (p k)) (point (xl (p k)))) then -1
      else if possibly (leq (point (xu (p k))) (x (p k))) then 1 else 0 := by
  unfold computeC at h
  have key : ∀ (l : List (Fin m)) (c0 : Fin n → K), l.Nodup →
      l.foldlM (fun c k =>
        let j := p k
        let c' := if possibly (leq (x j) (point (xl j))) then Function.update c j (-1)
          else if possibly (leq (point (xu j)) (x j)) then Function.update c j 1 else c
        if possibly (Bounds.lt (x j) (point (xl j))) && possibly (Bounds.lt (point (xu j)) (x j))
        then none else some c') c0 = some c →
      (∀ j, (∀ k ∈ l, p k ≠ j) → c j = c0 j) ∧ ∀ k ∈ l, c0 (p k) = 0 → c (p k) =
        if possibly (leq (x (p k)) (point (xl (p k)))) then -1
        else if possibly (leq (point (xu (p k))) (x (p k))) then 1 else 0 := by
    intro l
    induction l with
    | nil =>
      intro c0 _ h
      simp only [List.foldlM_nil, Option.pure_def, Option.some.injEq] at h
      subst h
      exact ⟨fun _ _ => rfl, by simp⟩
    | cons k l ih =>
      intro c0 hn h
      rw [List.nodup_cons] at hn
      rw [List.foldlM_cons] at h
      obtain ⟨c1, h1, h2⟩ := Option.bind_eq_some_iff.1 h
      simp only at h1
      split_ifs at h1 with ha hb hb'
      all_goals
        simp only [Option.some.injEq] at h1
        subst h1
        obtain ⟨h3, h4⟩ := ih _ hn.2 h2
        refine ⟨fun j hj => ?_, fun i hi hi0 => ?_⟩
        · have := h3 j fun i hi => hj i (List.mem_cons_of_mem _ hi)
          simp [this, Function.update_of_ne (hj k (by simp)).symm]
        · by_cases hik : i = k
          · subst hik
            have := h3 (p i) fun i' hi' he => hn.1 ((hp he : i' = i) ▸ hi')
            simp [*]
          · refine h4 i ((List.mem_cons.1 hi).resolve_left hik) ?_
            simp [Function.update_of_ne (fun he => hik (hp he) : p i ≠ p k), hi0]
  obtain ⟨h1, h2⟩ := key _ _ (List.nodup_finRange m) h
  exact ⟨fun j hj => h1 j fun k _ => hj k, fun k => h2 k (List.mem_finRange k) rfl⟩

/-! ### Enclosures -/

/-- The operations of the bounds enclose those of the numbers, in the sense of `mem`. -/
structure EnclB (R : XRounding K) (mem : Bounds K → K → Prop) : Prop extends Encl (boundsOps R) mem where
  point : ∀ a, mem (point (.fin a)) a
  mulFB : ∀ {X x} (a : K), mem X x → mem (Bounds.opMulFB R (.fin a) X) (a * x)
  mulBF : ∀ {X x} (a : K), mem X x → mem (Bounds.opMulBF R X (.fin a)) (x * a)
  toIn : ∀ {X x}, mem X x → In X x

variable {R : XRounding K} {mem : Bounds K → K → Prop}

theorem mem_computeW (he : EnclB R mem) {A : Mat m n K} {b : Fin m → K} {q : List (Fin n)}
    {x : Fin n → Bounds K} {v : Fin n → K} (hx : ∀ j ∈ q, mem (x j) (v j)) (i : Fin m) :
    mem (computeW R A b q x i) (b i - (q.map fun j => A i j * v j).sum) := by
  unfold computeW
  have key : ∀ (l : List (Fin n)) (S : Bounds K) (s : K), (∀ j ∈ l, mem (x j) (v j)) → mem S s →
      mem (l.foldl (fun s j => Bounds.sub R s (Bounds.opMulFB R (.fin (A i j)) (x j))) S)
        (s - (l.map fun j => A i j * v j).sum) := by
    intro l
    induction l with
    | nil => intro S s _ h; simpa using h
    | cons j l ih =>
      intro S s hl h
      have := ih _ _ (fun i hi => hl i (List.mem_cons_of_mem _ hi))
        (he.sub h (he.mulFB (A i j) (hl j (by simp))))
      rw [List.map_cons, List.sum_cons, ← sub_sub]
      exact this
  exact key q _ _ hx (he.point _)

theorem mem_rowTimes (he : EnclB R mem) {B : Mat m m (Bounds K)} {w : Fin m → Bounds K}
    {B' : Matrix (Fin m) (Fin m) K} {w' : Fin m → K} (hB : ∀ i j, mem (B i j) (B' i j))
    (hw : ∀ i, mem (w i) (w' i)) (k : Fin m) : mem (rowTimes R B w k) (∑ i, B' k i * w' i) := by
  unfold rowTimes
  have key : ∀ (l : List (Fin m)) (S : Bounds K) (s : K), mem S s →
      mem (l.foldl (fun s i => Bounds.add R s (Bounds.mul R (B k i) (w i))) S)
        (s + (l.map fun i => B' k i * w' i).sum) := by
    intro l
    induction l with
    | nil => intro S s h; simpa using h
    | cons i l ih =>
      intro S s h
      have := ih _ _ (he.add h (he.mul (hB k i) (hw i)))
      rw [List.map_cons, List.sum_cons, ← add_assoc]
      exact this
  have := key (List.finRange m) _ _ (he.point 0)
  rwa [zero_add, ← Fin.sum_univ_def] at this

theorem mem_computeY (he : EnclB R mem) {c : Fin n → K} {p : Fin m → Fin n} {B : Mat m m (Bounds K)}
    {B' : Matrix (Fin m) (Fin m) K} (hB : ∀ i j, mem (B i j) (B' i j)) (i : Fin m) :
    mem (computeY R c p B i) (∑ k, c (p k) * B' k i) := by
  unfold computeY
  have key : ∀ (l : List (Fin m)) (S : Bounds K) (s : K), mem S s →
      mem (l.foldl (fun s k => Bounds.add R s (Bounds.opMulFB R (.fin (c (p k))) (B k i))) S)
        (s + (l.map fun k => c (p k) * B' k i).sum) := by
    intro l
    induction l with
    | nil => intro S s h; simpa using h
    | cons k l ih =>
      intro S s h
      have := ih _ _ (he.add h (he.mulFB (c (p k)) (hB k i)))
      rw [List.map_cons, List.sum_cons, ← add_assoc]
      exact this
  have := key (List.finRange m) _ _ (he.mulFB 0 (he.point 0))
  rwa [zero_mul, zero_add, ← Fin.sum_univ_def] at this

theorem mem_computeZ (he : EnclB R mem) {A : Mat m n K} {c : Fin n → K} {y : Fin m → Bounds K}
    {y' : Fin m → K} (hy : ∀ i, mem (y i) (y' i)) (j : Fin n) :
    mem (computeZ R A c y j) (c j - ∑ i, y' i * A i j) := by
  unfold computeZ
  have key : ∀ (l : List (Fin m)) (S : Bounds K) (s : K), mem S s →
      mem (l.foldl (fun s i => Bounds.sub R s (Bounds.opMulBF R (y i) (.fin (A i j)))) S)
        (s - (l.map fun i => y' i * A i j).sum) := by
    intro l
    induction l with
    | nil => intro S s h; simpa using h
    | cons i l ih =>
      intro S s h
      have := ih _ _ (he.sub h (he.mulBF (A i j) (hy i)))
      rw [List.map_cons, List.sum_cons, ← sub_sub]
      exact this
  have := key (List.finRange m) _ _ (he.point (c j))
  rwa [← Fin.sum_univ_def] at this

/-! ### Basic solutions -/

section exact

variable {A : Mat m n K} {b : Fin m → K} {p : Fin m → Fin n} {q : List (Fin n)}

/-- The columns of `A` at the basic indices. -/
def basisOf (A : Mat m n K) (p : Fin m → Fin n) : Matrix (Fin m) (Fin m) K := Matrix.of fun i k => A i (p k)

/-- The basic solution for non-basic values `vN`. -/
noncomputable def basicSolution (A : Mat m n K) (b : Fin m → K) (p : Fin m → Fin n) (q : List (Fin n)) (vN : Fin n → K) :
    Fin n → K :=
  place p (fun k => ∑ i, (basisOf A p)⁻¹ k i * (b i - (q.map fun j => A i j * vN j).sum)) vN (List.finRange m)

theorem basicSolution_off (hs : Split (K := K) p q) (vN : Fin n → K) {j : Fin n} (hj : j ∈ q) :
    basicSolution A b p q vN j = vN j :=
  place_not fun k _ he => hs.disj k (he ▸ hj)

theorem basicSolution_solves (hs : Split (K := K) p q) (hu : IsUnit (basisOf A p).det) (vN : Fin n → K)
    (i : Fin m) : ∑ j, A i j * basicSolution A b p q vN j = b i := by
  rw [hs.sum]
  have h1 : (q.map fun j => A i j * basicSolution A b p q vN j) = q.map fun j => A i j * vN j :=
    List.map_congr_left fun j hj => by rw [basicSolution_off hs vN hj]
  have h2 : ∀ k, basicSolution A b p q vN (p k) =
      ((basisOf A p)⁻¹.mulVec fun i => b i - (q.map fun j => A i j * vN j).sum) k := fun k =>
    place_at hs.inj (List.mem_finRange k)
  have h3 : ∑ k, A i (p k) * basicSolution A b p q vN (p k) =
      b i - (q.map fun j => A i j * vN j).sum := by
    simp only [h2]
    have : (basisOf A p).mulVec ((basisOf A p)⁻¹.mulVec fun i => b i - (q.map fun j => A i j * vN j).sum) i =
        b i - (q.map fun j => A i j * vN j).sum := by
      rw [Matrix.mulVec_mulVec, Matrix.mul_nonsing_inv _ hu, Matrix.one_mulVec]
    exact this
  rw [h1, h3]
  ring

/-- The change of the cost between two solutions of `A x = b`, by the reduced costs. -/
theorem cost_change (hs : Split (K := K) p q) (hu : IsUnit (basisOf A p).det) {c : Fin n → K}
    (hc : ∀ j ∈ q, c j = 0) {u v : Fin n → K} (huv : ∀ i, ∑ j, A i j * u j = ∑ j, A i j * v j) :
    ∑ k, c (p k) * (u (p k) - v (p k)) =
      (q.map fun j => (c j - ∑ i, (∑ k, c (p k) * (basisOf A p)⁻¹ k i) * A i j) * (u j - v j)).sum := by
  set y : Fin m → K := fun i => ∑ k, c (p k) * (basisOf A p)⁻¹ k i with hy
  have h0 : ∑ j, (∑ i, y i * A i j) * (u j - v j) = 0 := by
    have : ∑ i, y i * (∑ j, A i j * u j - ∑ j, A i j * v j) = 0 :=
      Finset.sum_eq_zero fun i _ => by rw [huv i, sub_self, mul_zero]
    rw [← this]
    simp only [Finset.sum_mul, ← Finset.sum_sub_distrib, Finset.mul_sum]
    rw [Finset.sum_comm]
    exact Finset.sum_congr rfl fun i _ => Finset.sum_congr rfl fun j _ => by ring
  have hB : ∀ k, ∑ i, y i * A i (p k) = c (p k) := by
    intro k
    have : Matrix.vecMul (Matrix.vecMul (fun k => c (p k)) (basisOf A p)⁻¹) (basisOf A p) k = c (p k) := by
      rw [Matrix.vecMul_vecMul, Matrix.nonsing_inv_mul _ hu, Matrix.vecMul_one]
    exact this
  rw [hs.sum] at h0
  simp only [hB] at h0
  have h1 : (q.map fun j => (c j - ∑ i, y i * A i j) * (u j - v j)).sum =
      -(q.map fun j => (∑ i, y i * A i j) * (u j - v j)).sum := by
    clear h0
    have hq : ∀ l : List (Fin n), (∀ j ∈ l, c j = 0) →
        (l.map fun j => (c j - ∑ i, y i * A i j) * (u j - v j)).sum =
          -(l.map fun j => (∑ i, y i * A i j) * (u j - v j)).sum := by
      intro l
      induction l with
      | nil => simp
      | cons j l ih =>
        intro h
        rw [List.map_cons, List.sum_cons, List.map_cons, List.sum_cons,
          ih fun i hi => h i (List.mem_cons_of_mem _ hi), h j (by simp)]
        ring
    exact hq q hc
  rw [h1]
  linarith

end exact

end Verif.Simplex
