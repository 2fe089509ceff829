import Verif.Matrix.Model
import Mathlib.LinearAlgebra.Matrix.NonsingularInverse
import Mathlib.LinearAlgebra.Matrix.ToLinearEquiv
import Mathlib.Algebra.Order.Field.Basic
import Mathlib.Tactic.Linarith
import Mathlib.Tactic.FieldSimp
import Mathlib.Tactic.Ring

/-!
# Gaussian elimination is right whatever pivots are used

`Encl o mem` says that the number type with operations `o` encloses the field `K`
through `mem`.  An elimination over the number type is followed by an elimination
over `K` with the same pivot rows.
-/

namespace Verif.Matrix

open _root_.Matrix (vecMul)

variable {K : Type*} [Field K] {X : Type*} {n : ℕ}

/-- The operations `o` on `X` enclose those of `K`: `mem a x` says that `a` describes `x`. -/
structure Encl (o : Ops X) (mem : X → K → Prop) : Prop where
  zero : mem o.zero 0
  one : mem o.one 1
  add : ∀ {a b x y}, mem a x → mem b y → mem (o.add a b) (x + y)
  sub : ∀ {a b x y}, mem a x → mem b y → mem (o.sub a b) (x - y)
  mul : ∀ {a b x y}, mem a x → mem b y → mem (o.mul a b) (x * y)
  ne_zero : ∀ {a x}, o.gt a o.zero = true → mem a x → x ≠ 0
  recip : ∀ {a x}, o.gt a o.zero = true → mem a x → mem (o.recip a) x⁻¹
  trans : ∀ {a b}, o.gt a b = true → o.gt b o.zero = true → o.gt a o.zero = true

/-! ### The pivot search -/

theorem pivot_fold (o : Ops X) {mem : X → K → Prop} (h : Encl o mem) (A : Mat n n X) (k : Fin n)
    (l : List (Fin n)) (s : X × Option (Fin n))
    (hs : ∀ q, s.2 = some q → s.1 = A q k ∧ k ≤ q ∧ o.gt (A q k) o.zero = true)
    (hz : s.2 = none → s.1 = o.zero) :
    (∀ q, (l.foldl (pivotStep o A k) s).2 = some q → k ≤ q ∧ o.gt (A q k) o.zero = true) ∧
    ((l.foldl (pivotStep o A k) s).2 = none ↔
      s.2 = none ∧ ∀ i ∈ l, k ≤ i → o.gt (A i k) o.zero = false) := by
  induction l generalizing s with
  | nil => exact ⟨fun q hq => (hs q hq).2, by simp⟩
  | cons i l ih =>
    simp only [List.foldl_cons]
    by_cases hc : k ≤ i ∧ o.gt (A i k) s.1 = true
    · have hg : o.gt (A i k) o.zero = true := by
        rcases hq : s.2 with _ | q
        · rw [← hz hq]; exact hc.2
        · obtain ⟨h1, _, h3⟩ := hs q hq
          exact h.trans hc.2 (h1 ▸ h3)
      have e : pivotStep o A k s i = (A i k, some i) := if_pos hc
      have hi := ih (pivotStep o A k s i)
        (by rw [e]; intro q hq; simp only [Option.some.injEq] at hq; subst hq
            exact ⟨rfl, hc.1, hg⟩)
        (by rw [e]; simp)
      refine ⟨hi.1, hi.2.trans ?_⟩
      rw [e]
      simp only [reduceCtorEq, false_and, List.mem_cons, forall_eq_or_imp, false_iff, not_and,
        not_forall]
      intro _ hh
      exact absurd (hh hc.1) (by simp [hg])
    · have e : pivotStep o A k s i = s := if_neg hc
      have hi := ih s hs hz
      rw [e]
      refine ⟨hi.1, hi.2.trans ?_⟩
      simp only [List.mem_cons, forall_eq_or_imp]
      constructor
      · rintro ⟨h1, h2⟩
        refine ⟨h1, fun hk => ?_, h2⟩
        rw [hz h1] at hc
        simpa [hk] using hc
      · rintro ⟨h1, _, h2⟩
        exact ⟨h1, h2⟩

theorem pivot_some {o : Ops X} {mem : X → K → Prop} (h : Encl o mem) {A : Mat n n X} {k q : Fin n}
    (hq : pivot o A k = some q) : k ≤ q ∧ o.gt (A q k) o.zero = true :=
  (pivot_fold o h A k _ (o.zero, none) (by simp) (by simp)).1 q hq

theorem pivot_none {o : Ops X} {mem : X → K → Prop} (h : Encl o mem) {A : Mat n n X} {k : Fin n} :
    pivot o A k = none ↔ ∀ i, k ≤ i → o.gt (A i k) o.zero = false := by
  have := (pivot_fold o h A k (List.finRange n) (o.zero, none) (by simp) (by simp)).2
  simpa [pivot] using this

/-! ### Elimination over the field -/

/-- The operations of a field.  `gt` plays no part once the pivots are chosen. -/
def fieldOps (gt : K → K → Bool) : Ops K where
  zero := 0
  one := 1
  add := (· + ·)
  sub := (· - ·)
  mul := (· * ·)
  recip := fun x => x⁻¹
  gt := gt

/-- The rows of `A` are those of `B*M`; `A` is unit upper triangular in its first `k`
columns; what `A` annihilates, `M` annihilates. -/
structure Inv (M : Mat n n K) (k : ℕ) (S : State n K) : Prop where
  rows : ∀ i, S.A i = vecMul (S.B i) (Matrix.of M)
  low : ∀ i j : Fin n, j.val < k → j < i → S.A i j = 0
  diag : ∀ j : Fin n, j.val < k → S.A j j = 1
  ker : ∀ v : Fin n → K, (∀ i, S.A i ⬝ᵥ v = 0) → ∀ i, M i ⬝ᵥ v = 0

theorem inv_init (M : Mat n n K) (gt) : Inv M 0 ⟨M, identity (fieldOps gt)⟩ where
  rows := fun i => by
    have e : (identity (fieldOps gt) : Mat n n K) i = (1 : Matrix (Fin n) (Fin n) K) i := by
      funext j
      simp [identity, fieldOps, Matrix.one_apply]
    show M i = vecMul (identity (fieldOps gt) i) (Matrix.of M)
    rw [e]
    funext j
    show M i j = ((1 : Matrix (Fin n) (Fin n) K) * Matrix.of M) i j
    rw [one_mul]; rfl
  low := fun _ _ h => absurd h (by omega)
  diag := fun _ h => absurd h (by omega)
  ker := fun _ h => h

theorem inv_swap {M : Mat n n K} {k q : Fin n} {S : State n K} (h : Inv M k S) (hq : k ≤ q) :
    Inv M k (swapRows k q S) ∧ (swapRows k q S).A k k = S.A q k := by
  have hA : ∀ i, (swapRows k q S).A i = if i = k then S.A q else if i = q then S.A k else S.A i := by
    intro i
    funext j
    simp only [swapRows]
    split_ifs with h1 h2 h3 h4 h5
    · rfl
    · rfl
    · rfl
    · subst h4
      have hj : j < i := not_le.1 h1
      rw [h.low i j hj hj, h.low q j hj (lt_of_lt_of_le hj hq)]
    · subst h5
      have hj : j < k := not_le.1 h1
      rw [h.low i j hj (lt_of_lt_of_le hj hq), h.low k j hj hj]
    · rfl
  have hB : ∀ i, (swapRows k q S).B i = if i = k then S.B q else if i = q then S.B k else S.B i := by
    intro i
    funext j
    simp only [swapRows]
    split_ifs <;> rfl
  refine ⟨⟨?_, ?_, ?_, ?_⟩, by rw [hA]; simp⟩
  · intro i
    rw [hA, hB]
    split_ifs <;> exact h.rows _
  · intro i j hj hi
    rw [hA]
    have hjk : j < k := hj
    split_ifs with h1 h2
    · exact h.low q j hj (lt_of_lt_of_le hjk hq)
    · exact h.low k j hj hjk
    · exact h.low i j hj hi
  · intro j hj
    rw [hA]
    have hjk : j < k := hj
    rw [if_neg (ne_of_lt hjk), if_neg (ne_of_lt (lt_of_lt_of_le hjk hq))]
    exact h.diag j hj
  · intro v hv
    refine h.ker v fun i => ?_
    by_cases h1 : i = k
    · subst h1
      by_cases h2 : q = i
      · have := hv i; rw [hA] at this; simpa [h2] using this
      · have := hv q; rw [hA] at this; simpa [h2] using this
    · by_cases h2 : i = q
      · subst h2
        have := hv k; rw [hA] at this; simpa using this
      · have := hv i; rw [hA] at this; simpa [h1, h2] using this

theorem inv_eliminate {M : Mat n n K} {k : Fin n} {S : State n K} {gt} (h : Inv M k S)
    (h0 : S.A k k ≠ 0) :
    Inv M k (eliminate (fieldOps gt) k S) ∧
    (∀ i, k < i → (eliminate (fieldOps gt) k S).A i k = 0) ∧
    (eliminate (fieldOps gt) k S).A k k = S.A k k := by
  set T := eliminate (fieldOps gt) k S with hT
  have hA : ∀ i, T.A i = if k < i then S.A i - (S.A i k * (S.A k k)⁻¹) • S.A k else S.A i := by
    intro i
    funext j
    simp only [hT, eliminate, fieldOps]
    split_ifs with h1 h2 h3
    · simp
    · subst h3
      simp only [Pi.sub_apply, Pi.smul_apply, smul_eq_mul]
      field_simp
      simp
    · have hj : j < k := lt_of_le_of_ne (not_lt.1 h2) h3
      simp [h.low k j hj hj]
    · rfl
  have hB : ∀ i, T.B i = if k < i then S.B i - (S.A i k * (S.A k k)⁻¹) • S.B k else S.B i := by
    intro i
    funext j
    simp only [hT, eliminate, fieldOps]
    split_ifs with h1 <;> simp
  have hk : T.A k = S.A k := by rw [hA]; simp
  refine ⟨⟨?_, ?_, ?_, ?_⟩, ?_, by rw [hk]⟩
  · intro i
    rw [hA, hB]
    split_ifs
    · rw [Matrix.sub_vecMul, Matrix.smul_vecMul, ← h.rows, ← h.rows]
    · exact h.rows i
  · intro i j hj hi
    rw [hA]
    split_ifs
    · simp [h.low i j hj hi, h.low k j hj hj]
    · exact h.low i j hj hi
  · intro j hj
    rw [hA, if_neg (by have : j < k := hj; exact not_lt.2 this.le)]
    exact h.diag j hj
  · intro v hv
    refine h.ker v fun i => ?_
    have e := hv i
    rw [hA] at e
    split_ifs at e with h1
    · have ek := hv k
      rw [hk] at ek
      rw [sub_dotProduct, smul_dotProduct, ek] at e
      simpa using e
    · exact e
  · intro i hi
    rw [hA, if_pos hi]
    simp only [Pi.sub_apply, Pi.smul_apply, smul_eq_mul]
    field_simp
    simp

theorem inv_scale {M : Mat n n K} {k : Fin n} {S : State n K} {gt} (h : Inv M k S)
    (h0 : S.A k k ≠ 0) (hz : ∀ i, k < i → S.A i k = 0) :
    Inv M (k + 1) (scaleRow (fieldOps gt) k S) := by
  set T := scaleRow (fieldOps gt) k S with hT
  have hA : ∀ i, T.A i = if i = k then (S.A k k)⁻¹ • S.A k else S.A i := by
    intro i
    funext j
    simp only [hT, scaleRow, fieldOps]
    split_ifs with h1 h2 h3
    · simp [mul_comm]
    · subst h3; simp [h0]
    · have hj : j < k := lt_of_le_of_ne (not_lt.1 h2) h3
      subst h1
      simp [h.low i j hj hj]
    · rfl
  have hB : ∀ i, T.B i = if i = k then (S.A k k)⁻¹ • S.B k else S.B i := by
    intro i
    funext j
    simp only [hT, scaleRow, fieldOps]
    split_ifs with h1 <;> simp [mul_comm]
  refine ⟨?_, ?_, ?_, ?_⟩
  · intro i
    rw [hA, hB]
    split_ifs
    · rw [Matrix.smul_vecMul, ← h.rows]
    · exact h.rows i
  · intro i j hj hi
    rw [hA]
    by_cases hjk : j.val < k.val
    · split_ifs
      · simp [h.low k j hjk hjk]
      · exact h.low i j hjk hi
    · have : j = k := Fin.ext (by omega)
      subst this
      rw [if_neg (ne_of_gt hi)]
      exact hz i hi
  · intro j hj
    rw [hA]
    by_cases hjk : j.val < k.val
    · rw [if_neg (fun e => by subst e; omega)]
      exact h.diag j hjk
    · have : j = k := Fin.ext (by omega)
      subst this
      simp [h0]
  · intro v hv
    refine h.ker v fun i => ?_
    have e := hv i
    rw [hA] at e
    split_ifs at e with h1
    · subst h1
      rw [smul_dotProduct, smul_eq_mul] at e
      exact (mul_eq_zero.1 e).resolve_left (inv_ne_zero h0)
    · exact e

theorem inv_stage {M : Mat n n K} {k q : Fin n} {S : State n K} {gt} (h : Inv M k S) (hq : k ≤ q)
    (h0 : S.A q k ≠ 0) : Inv M (k + 1) (stage (fieldOps gt) k q S) := by
  obtain ⟨h1, e1⟩ := inv_swap h hq
  rw [← e1] at h0
  obtain ⟨h2, hz, e2⟩ := inv_eliminate (gt := gt) h1 h0
  exact inv_scale h2 (by rw [e2]; exact h0) hz

/-- A column whose pivot candidates all vanish makes the matrix singular. -/
theorem singular_of_column {M : Mat n n K} {k : Fin n} {S : State n K} (h : Inv M k S)
    (hz : ∀ i, k ≤ i → S.A i k = 0) : (Matrix.of M).det = 0 := by
  have hA : (Matrix.of S.A).det = 0 := by
    rw [Matrix.det_apply]
    refine Finset.sum_eq_zero fun σ _ => ?_
    have : ∃ i, S.A (σ i) i = 0 := by
      by_contra hne
      push Not at hne
      have hmap : ∀ i ∈ Finset.Iic k, σ i ∈ Finset.Iio k := by
        intro i hi
        rw [Finset.mem_Iic] at hi
        rw [Finset.mem_Iio]
        rcases eq_or_lt_of_le hi with e | hlt
        · subst e
          by_contra hc
          exact hne i (hz _ (not_lt.1 hc))
        · by_contra hc
          exact hne i (h.low _ i hlt (lt_of_lt_of_le hlt (not_lt.1 hc)))
      have := Finset.card_le_card_of_injOn σ hmap (fun a _ b _ e => σ.injective e)
      simp at this
    obtain ⟨i, hi⟩ := this
    have e : ∏ i, Matrix.of S.A (σ i) i = 0 := Finset.prod_eq_zero (Finset.mem_univ i) hi
    rw [e, smul_zero]
  obtain ⟨v, hv, e⟩ := Matrix.exists_mulVec_eq_zero_iff.2 hA
  refine Matrix.exists_mulVec_eq_zero_iff.1 ⟨v, hv, ?_⟩
  funext i
  exact h.ker v (fun i => congrFun e i) i

/-! ### Back-substitution over the field -/

/-- The rows of `A` are those of `B*M`; `A` is unit upper triangular and equal to the
identity in the columns from `k` on. -/
structure BInv (M : Mat n n K) (k : ℕ) (S : State n K) : Prop where
  rows : ∀ i, S.A i = vecMul (S.B i) (Matrix.of M)
  low : ∀ i j : Fin n, j < i → S.A i j = 0
  diag : ∀ j : Fin n, S.A j j = 1
  right : ∀ i j : Fin n, k ≤ j.val → i < j → S.A i j = 0

theorem binv_step {M : Mat n n K} {k : Fin n} {S : State n K} {gt} (h : BInv M (k + 1) S) :
    BInv M k (backStep (fieldOps gt) S k) := by
  set T := backStep (fieldOps gt) S k with hT
  have hrow : ∀ j, S.A k j = if j = k then 1 else 0 := by
    intro j
    split_ifs with h1
    · subst h1; exact h.diag j
    · rcases lt_or_gt_of_ne h1 with h2 | h2
      · exact h.low k j h2
      · exact h.right k j h2 h2
  have hA : ∀ i, T.A i = if i < k then S.A i - S.A i k • S.A k else S.A i := by
    intro i
    funext j
    simp only [hT, backStep, fieldOps]
    by_cases h1 : i < k
    · by_cases h2 : j = k
      · subst h2; simp [h1, h.diag]
      · simp [h1, h2, hrow]
    · simp [h1]
  have hB : ∀ i, T.B i = if i < k then S.B i - S.A i k • S.B k else S.B i := by
    intro i
    funext j
    simp only [hT, backStep, fieldOps]
    split_ifs with h1 <;> simp
  refine ⟨?_, ?_, ?_, ?_⟩
  · intro i
    rw [hA, hB]
    split_ifs
    · rw [Matrix.sub_vecMul, Matrix.smul_vecMul, ← h.rows, ← h.rows]
    · exact h.rows i
  · intro i j hij
    simp only [hT, backStep, fieldOps]
    split_ifs
    · rfl
    · exact h.low i j hij
  · intro j
    simp only [hT, backStep, fieldOps]
    rw [if_neg (fun hh => by have := hh.1; rw [hh.2] at this; exact lt_irrefl _ this)]
    exact h.diag j
  · intro i j hkj hij
    simp only [hT, backStep, fieldOps]
    split_ifs with h1
    · rfl
    · rcases Nat.eq_or_lt_of_le hkj with e | hlt
      · have e' : j = k := Fin.ext e.symm
        subst e'
        exact absurd ⟨hij, rfl⟩ h1
      · exact h.right i j hlt hij

/-! ### The elimination over `X` encloses the one over `K` -/

variable {o : Ops X} {mem : X → K → Prop} {gt : K → K → Bool}

/-- Entry by entry enclosure of the working matrices. -/
def Rel (mem : X → K → Prop) (S : State n X) (T : State n K) : Prop :=
  (∀ i j, mem (S.A i j) (T.A i j)) ∧ ∀ i j, mem (S.B i j) (T.B i j)

theorem rel_swap {S : State n X} {T : State n K} (k q : Fin n) (h : Rel mem S T) :
    Rel mem (swapRows k q S) (swapRows k q T) := by
  constructor
  · intro i j
    simp only [swapRows]
    split_ifs <;> exact h.1 _ _
  · intro i j
    simp only [swapRows]
    split_ifs <;> exact h.2 _ _

theorem rel_eliminate (he : Encl o mem) {S : State n X} {T : State n K} {k : Fin n}
    (h : Rel mem S T) (hg : o.gt (S.A k k) o.zero = true) :
    Rel mem (eliminate o k S) (eliminate (fieldOps gt) k T) := by
  have hr := he.recip hg (h.1 k k)
  constructor
  · intro i j
    simp only [eliminate, fieldOps]
    split_ifs
    · exact he.sub (h.1 _ _) (he.mul (he.mul (h.1 _ _) hr) (h.1 _ _))
    · exact he.zero
    · exact h.1 _ _
    · exact h.1 _ _
  · intro i j
    simp only [eliminate, fieldOps]
    split_ifs
    · exact he.sub (h.2 _ _) (he.mul (he.mul (h.1 _ _) hr) (h.2 _ _))
    · exact h.2 _ _

theorem rel_scale (he : Encl o mem) {S : State n X} {T : State n K} {k : Fin n}
    (h : Rel mem S T) (hg : o.gt (S.A k k) o.zero = true) :
    Rel mem (scaleRow o k S) (scaleRow (fieldOps gt) k T) := by
  have hr := he.recip hg (h.1 k k)
  constructor
  · intro i j
    simp only [scaleRow, fieldOps]
    split_ifs
    · exact he.mul (h.1 _ _) hr
    · exact he.one
    · exact h.1 _ _
    · exact h.1 _ _
  · intro i j
    simp only [scaleRow, fieldOps]
    split_ifs
    · exact he.mul (h.2 _ _) hr
    · exact h.2 _ _

theorem rel_stage (he : Encl o mem) {S : State n X} {T : State n K} {k q : Fin n}
    (h : Rel mem S T) (hg : o.gt (S.A q k) o.zero = true) :
    Rel mem (stage o k q S) (stage (fieldOps gt) k q T) := by
  have h1 := rel_swap k q h
  have e1 : (swapRows k q S).A k k = S.A q k := by simp [swapRows]
  have h2 := rel_eliminate (gt := gt) he h1 (by rw [e1]; exact hg)
  refine rel_scale he h2 ?_
  have e2 : (eliminate o k (swapRows k q S)).A k k = (swapRows k q S).A k k := by simp [eliminate]
  rw [e2, e1]; exact hg

theorem rel_back (he : Encl o mem) {S : State n X} {T : State n K} (k : Fin n)
    (h : Rel mem S T) : Rel mem (backStep o S k) (backStep (fieldOps gt) T k) := by
  constructor
  · intro i j
    simp only [backStep, fieldOps]
    split_ifs
    · exact he.zero
    · exact h.1 _ _
  · intro i j
    simp only [backStep, fieldOps]
    split_ifs
    · exact he.sub (h.2 _ _) (he.mul (h.1 _ _) (h.2 _ _))
    · exact h.2 _ _

theorem drop_cons {k : ℕ} (hk : k < n) :
    (List.finRange n).drop k = ⟨k, hk⟩ :: (List.finRange n).drop (k + 1) := by
  rw [List.drop_eq_getElem_cons (by simpa using hk)]
  simp

/-- The forward pass: it encloses an elimination of every enclosed matrix. -/
theorem forward_rel (he : Encl o mem) (gt : K → K → Bool) {M : Mat n n K} (d k : ℕ) (hd : d + k = n)
    {S S' : State n X} {T : State n K} (h : Rel mem S T) (hi : Inv M k T)
    (hf : forward o ((List.finRange n).drop k) S = some S') :
    ∃ T', Rel mem S' T' ∧ Inv M n T' := by
  induction d generalizing k S T with
  | zero =>
    have : k = n := by omega
    subst this
    rw [List.drop_eq_nil_of_le (by simp)] at hf
    simp only [forward, Option.some.injEq] at hf
    subst hf
    exact ⟨T, h, hi⟩
  | succ d ih =>
    have hk : k < n := by omega
    rw [drop_cons hk] at hf
    simp only [forward] at hf
    rcases hp : pivot o S.A ⟨k, hk⟩ with _ | q
    · rw [hp] at hf; cases hf
    · rw [hp] at hf
      obtain ⟨hq, hg⟩ := pivot_some he hp
      exact ih (k + 1) (by omega) (rel_stage (gt := gt) he h hg)
        (inv_stage (k := ⟨k, hk⟩) hi hq (he.ne_zero hg (h.1 _ _))) hf

/-- The backward pass. -/
theorem backward_rel (he : Encl o mem) (gt : K → K → Bool) {M : Mat n n K} (k : ℕ) (hk : k ≤ n)
    {S : State n X} {T : State n K} (h : Rel mem S T) (hi : BInv M k T) :
    ∃ T', Rel mem (((List.finRange n).take k).reverse.foldl (backStep o) S) T' ∧ BInv M 0 T' := by
  induction k generalizing S T with
  | zero => exact ⟨T, by simpa using h, hi⟩
  | succ k ih =>
    have e : (List.finRange n).take (k + 1) = (List.finRange n).take k ++ [⟨k, hk⟩] := by
      rw [List.take_add_one, List.getElem?_eq_getElem (by simpa using hk)]
      simp
    rw [e, List.reverse_append]
    simp only [List.reverse_cons, List.reverse_nil, List.nil_append, List.cons_append,
      List.foldl_cons]
    exact ih (by omega) (rel_back (gt := gt) he ⟨k, hk⟩ h) (binv_step (k := ⟨k, hk⟩) hi)

/-- C55: the inverse computed by elimination.  If `lu_inverse` returns a matrix, then
every matrix with entries described by the argument is invertible, and the entries of
its inverse are described by the result. -/
theorem C55_lu_inverse (he : Encl o mem) {M : Mat n n X} {B : Mat n n X}
    (hB : luInverse o M = some B) {m : Matrix (Fin n) (Fin n) K} (hm : ∀ i j, mem (M i j) (m i j)) :
    IsUnit m.det ∧ ∀ i j, mem (B i j) (m⁻¹ i j) := by
  unfold luInverse at hB
  rw [Option.map_eq_some_iff] at hB
  obtain ⟨S, hS, rfl⟩ := hB
  have hr0 : Rel mem (⟨M, identity o⟩ : State n X)
      (⟨m, identity (fieldOps fun _ _ => true)⟩ : State n K) := by
    refine ⟨hm, fun i j => ?_⟩
    simp only [identity, fieldOps]
    split_ifs
    · exact he.one
    · exact he.zero
  obtain ⟨T, h1, h2⟩ := forward_rel he (fun _ _ => true) n 0 (by omega) hr0 (inv_init m _)
    (by simpa using hS)
  have hb : BInv (n := n) m n T := ⟨h2.rows, fun i j => h2.low i j j.2, fun j => h2.diag j j.2,
    fun i j hj => absurd hj (by omega)⟩
  obtain ⟨T', h3, h4⟩ := backward_rel he (fun _ _ => true) n le_rfl h1 hb
  have hone : (Matrix.of T'.B) * m = 1 := by
    ext i j
    have e := congrFun (h4.rows i) j
    have e' : (Matrix.of T'.B * m) i j = T'.A i j := e.symm
    rw [e', Matrix.one_apply]
    split_ifs with hij
    · subst hij; exact h4.diag i
    · rcases lt_or_gt_of_ne hij with h | h
      · exact h4.right i j (by omega) h
      · exact h4.low i j h
  have hdet := congrArg Matrix.det hone
  rw [Matrix.det_mul, Matrix.det_one] at hdet
  refine ⟨IsUnit.of_mul_eq_one_right _ hdet, fun i j => ?_⟩
  rw [Matrix.inv_eq_left_inv hone]
  have := h3.2 i j
  rw [List.take_of_length_le (by simp)] at this
  exact this

end Verif.Matrix
