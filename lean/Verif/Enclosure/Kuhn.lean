import Verif.TaylorModel.Struct
import Verif.TaylorModel.Compose
import Verif.Bounds.Model
import Mathlib.Data.List.Sort
import Mathlib.Data.Prod.Lex

/-!
# Property C72, third part: Kuhn reconditioning

`source/dynamics/enclosure.cpp`, 1066-1206 (cited as "lines").  The parameters with the least influence are
discarded; their terms and the uniform error of each component become the coefficient of a new parameter.

Parameters are scaled to the unit box, as in the Taylor models of the functions (scaling acts on each
coordinate alone, and the sides of the kept parameters are kept by lines 1168-1176).
-/

namespace Verif.Enclosure

open Ariadne (Rounding Bounds)
open Ariadne.Rounding
open Verif.Expansion Verif.TaylorModel

variable {K : Type*} [Field K] [LinearOrder K] [IsStrictOrderedRing K]

/-! ## Model -/

/-- Whether all discarded exponents of an index are zero (lines 1106-1112). -/
def keepIndex (dvs : List Nat) (a : List Nat) : Bool := dvs.all fun k => a.getD k 0 = 0

/-- The error collected on lines 1100 and 1108. -/
def discardedError (R : Rounding K) (dvs : List Nat) (t : TM K) : K :=
  t.terms.foldl (fun e u => if keepIndex dvs u.1 then e else R.up (e + |u.2|)) (R.up (0 + t.err))

/-- `recondition(tm,discarded_variables,number_of_error_variables,index_of_error)` (lines 1066-1122).
Simplification: the preconditions on lines 1068-1072 are hypotheses of the theorems. -/
def reconditionModel (R : Rounding K) (n : Nat) (dvs : List Nat) (ne idx : Nat) (t : TM K) : TM K :=
  let kept := complement n dvs
  let terms := (t.terms.filter fun u => keepIndex dvs u.1).map fun u =>
    (kept.map (fun k => u.1.getD k 0) ++ List.replicate ne 0, u.2)
  let error := discardedError R dvs t
  if ne = idx then ⟨terms, error⟩
  else ⟨(List.replicate kept.length 0 ++ (List.replicate ne 0).set idx 1, error) :: terms, 0⟩

/-- A set given by Taylor models on the unit box. -/
structure TSet (K : Type*) [Field K] [LinearOrder K] [IsStrictOrderedRing K] where
  n : Nat
  fn : List (TM K)
  time : TM K
  dwell : TM K
  cs : List (TM K × Bounds K)

/-- An entry of `dependencies` (lines 1143-1152): `near` is the rounding of approximate arithmetic. -/
def dependency (near : K → K) (t : TM K) (j : Nat) : K :=
  t.terms.foldl (fun s u => if u.1.getD j 0 ≠ 0 then near (s + |u.2|) else s) 0

/-- `column_max_dependencies` (lines 1153-1159). -/
def columnMax (near : K → K) (ts : List (TM K)) (j : Nat) : K :=
  ts.foldl (fun s t => max s (dependency near t j)) 0

/-- The sorted pairs of line 1160. -/
def sortedColumns (near : K → K) (ts : List (TM K)) (n : Nat) : List (K ×ₗ Nat) :=
  ((List.range n).map fun j => toLex (columnMax near ts j, j)).insertionSort (· ≥ ·)

/-- `kept_parameters` and `discarded_parameters` (lines 1162-1167). -/
def keptParameters (near : K → K) (ts : List (TM K)) (n keep : Nat) : List Nat :=
  (((sortedColumns near ts n).take keep).map fun q => (ofLex q).2).insertionSort (· ≤ ·)

@[inherit_doc keptParameters]
def discardedParameters (near : K → K) (ts : List (TM K)) (n keep : Nat) : List Nat :=
  (((sortedColumns near ts n).drop keep).map fun q => (ofLex q).2).insertionSort (· ≤ ·)

/-- `kuhn_recondition()` (lines 1129-1206), for Taylor functions: `none` stands for the call of
`uniform_error_recondition` on lines 1139-1142. -/
def kuhn (R : Rounding K) (blocks : Nat) (s : TSet K) : Option (TSet K) :=
  let keep := (blocks - 1) * s.fn.length
  if s.n ≤ keep then none
  else
    let dvs := discardedParameters R.near s.fn s.n keep
    let ne := s.fn.length
    some
      { n := keep + ne, fn := s.fn.mapIdx fun i t => reconditionModel R s.n dvs ne i t,
        time := reconditionModel R s.n dvs ne ne s.time, dwell := reconditionModel R s.n dvs ne ne s.dwell,
        cs := s.cs.map fun c => (reconditionModel R s.n dvs ne ne c.1, c.2) }

/-! ## Specification -/

/-- A value allowed by a Taylor model. -/
def Allows (t : TM K) (x : List K) (y : K) : Prop := |y - value (monomial x) t.terms| ≤ t.err

/-- The points given by a parameter. -/
structure TSet.At (s : TSet K) (x : List K) (y : List K) (t d : K) : Prop where
  mem : InBox s.n x
  fn : List.Forall₂ (fun f v => Allows f x v) s.fn y
  time : Allows s.time x t
  dwell : Allows s.dwell x d
  cs : ∀ c ∈ s.cs, ∃ v, Allows c.1 x v ∧ c.2.Contains v

/-- The points of the set. -/
def TSet.pts (s : TSet K) : Set (List K × K × K) := {q | ∃ x, s.At x q.1 q.2.1 q.2.2}

/-- All indices have the right length. -/
structure TSet.WF (s : TSet K) : Prop where
  fn : ∀ t ∈ s.fn, TaylorModel.WF s.n t
  time : TaylorModel.WF s.n s.time
  dwell : TaylorModel.WF s.n s.dwell
  cs : ∀ c ∈ s.cs, TaylorModel.WF s.n c.1

/-! ## One model -/

theorem monomial_append (x y : List K) (a b : List Nat) (h : x.length = a.length) :
    monomial (x ++ y) (a ++ b) = monomial x a * monomial y b := by
  unfold monomial
  rw [List.zipWith_append h, List.prod_append]

theorem monomial_replicate (x : List K) (n : Nat) : monomial x (List.replicate n 0) = 1 := by
  induction x generalizing n with
  | nil => simp [monomial]
  | cons y x ih =>
    cases n with
    | zero => simp [monomial]
    | succ n =>
      have := ih n
      unfold monomial at this ⊢
      simp [List.replicate_succ, this]

theorem monomial_unit (y : List K) (n i : Nat) (hy : y.length = n) (hi : i < n) :
    monomial y ((List.replicate n 0).set i 1) = y.getD i 0 := by
  induction y generalizing n i with
  | nil => subst hy; simp at hi
  | cons z y ih =>
    cases n with
    | zero => simp at hy
    | succ n =>
      cases i with
      | zero =>
        have := monomial_replicate y n
        unfold monomial at this ⊢
        simp [List.replicate_succ, this]
      | succ i =>
        have := ih n i (by simpa using hy) (by omega)
        unfold monomial at this ⊢
        simpa [List.replicate_succ] using this

/-- The kept coordinates of a parameter. -/
def keptOf (n : Nat) (dvs : List Nat) (x : List K) : List K :=
  ((List.range n).filter fun i => decide (i ∉ dvs)).map fun i => x.getD i 0

theorem keptTerms_value {n : Nat} {dvs : List Nat} (hs : dvs.Pairwise (· < ·)) {t : TM K} (ht : TaylorModel.WF n t)
    {x : List K} (hx : InBox n x) (ne : Nat) (e : List K) :
    value (monomial (keptOf n dvs x ++ e)) ((t.terms.filter fun u => keepIndex dvs u.1).map fun u =>
      ((complement n dvs).map (fun k => u.1.getD k 0) ++ List.replicate ne 0, u.2)) =
      value (monomial x) (t.terms.filter fun u => keepIndex dvs u.1) := by
  rw [complement_eq n dvs hs, value_map_index _ (fun a => ((List.range n).filter
    (fun i => decide (i ∉ dvs))).map (fun k => a.getD k 0) ++ List.replicate ne 0)]
  apply value_congr
  intro u hu
  obtain ⟨hu1, hu2⟩ := List.mem_filter.1 hu
  rw [monomial_append _ _ _ _ (by simp [keptOf]), monomial_replicate, mul_one]
  rw [monomial_range n x u.1 hx.1 (ht u hu1)]
  rw [← prod_filter_of_one (List.range n) _ (fun i => decide (i ∉ dvs))]
  · unfold monomial keptOf
    rw [List.zipWith_map]
    congr 1
    generalize ((List.range n).filter (fun i => decide (i ∉ dvs))) = l
    induction l with
    | nil => rfl
    | cons i l ih => simp [List.zipWith_cons_cons, ih]
  · intro i _ hi
    have hi : i ∈ dvs := by simpa using hi
    have := List.all_eq_true.1 hu2 i hi
    simp only [decide_eq_true_eq] at this
    rw [this, pow_zero]

/-- The collected error bounds the discarded terms together with the old error. -/
theorem discardedError_ok (R : Rounding K) (dvs : List Nat) {n : Nat} {t : TM K} {x : List K} (hx : InBox n x) {y : K}
    (hy : Allows t x y) :
    |y - value (monomial x) (t.terms.filter fun u => keepIndex dvs u.1)| ≤ discardedError R dvs t := by
  have h2 := discard_sum_ok R (monomial x) (abs_monomial_le x hx.2) (keepIndex dvs) t.terms (R.up (0 + t.err))
  have h4 := R.le_up (0 + t.err)
  unfold Allows at hy
  unfold discardedError
  rw [abs_le] at hy h2 ⊢
  constructor <;> linarith [hy.1, hy.2, h2.1, h2.2]

/-- **C72**: a reconditioned model without an error parameter allows the same values, whatever the new
parameters. -/
theorem C72_recondition_uniform (R : Rounding K) {n : Nat} {dvs : List Nat} (hs : dvs.Pairwise (· < ·)) {t : TM K}
    (ht : TaylorModel.WF n t) {x : List K} (hx : InBox n x) (ne : Nat) (e : List K) {y : K} (hy : Allows t x y) :
    Allows (reconditionModel R n dvs ne ne t) (keptOf n dvs x ++ e) y := by
  unfold Allows reconditionModel
  simp only [if_pos trivial]
  rw [keptTerms_value hs ht hx]
  exact discardedError_ok R dvs hx hy

/-- **C72**: a reconditioned model with an error parameter takes the value exactly, for some value of that
parameter in `[-1,1]`. -/
theorem C72_recondition_error (R : Rounding K) {n : Nat} {dvs : List Nat} (hs : dvs.Pairwise (· < ·)) {t : TM K}
    (ht : TaylorModel.WF n t) {x : List K} (hx : InBox n x) {ne idx : Nat} (hi : idx < ne) {y : K} (hy : Allows t x y) :
    ∃ c : K, |c| ≤ 1 ∧ ∀ e : List K, e.length = ne → e.getD idx 0 = c →
      Allows (reconditionModel R n dvs ne idx t) (keptOf n dvs x ++ e) y := by
  have h := discardedError_ok R dvs hx hy
  have key : ∀ c : K, y = c * discardedError R dvs t + value (monomial x) (t.terms.filter fun u => keepIndex dvs u.1) →
      ∀ e : List K, e.length = ne → e.getD idx 0 = c →
      Allows (reconditionModel R n dvs ne idx t) (keptOf n dvs x ++ e) y := by
    intro c hc e he1 he2
    unfold Allows reconditionModel
    simp only [if_neg (by omega : ne ≠ idx)]
    rw [value_cons, keptTerms_value hs ht hx, monomial_append _ _ _ _
      (by simp [keptOf, complement_eq n dvs hs]), monomial_replicate, one_mul, monomial_unit _ _ _ he1 hi, he2, hc]
    simp [mul_comm]
  by_cases h0 : discardedError R dvs t = 0
  · refine ⟨0, by simp, key 0 ?_⟩
    rw [h0] at h
    have := abs_nonpos_iff.1 h
    linarith
  · have hpos : 0 < discardedError R dvs t := lt_of_le_of_ne ((abs_nonneg _).trans h) (Ne.symm h0)
    refine ⟨(y - value (monomial x) (t.terms.filter fun u => keepIndex dvs u.1)) / discardedError R dvs t, ?_, key _ ?_⟩
    · rw [abs_div, abs_of_pos hpos]
      exact (div_le_one hpos).2 h
    · rw [div_mul_cancel₀ _ h0]
      ring

/-- **C72**: without rounding the collected error is the old error and the sizes of the discarded coefficients,
and nothing else. -/
theorem C72_recondition_error_exact (dvs : List Nat) (t : TM K) :
    discardedError TaylorModel.exactRounding dvs t =
      t.err + ((t.terms.filter fun u => !keepIndex dvs u.1).map fun u => |u.2|).sum := by
  have key : ∀ (p : Terms (List Nat) K) (e : K),
      p.foldl (fun e u => if keepIndex dvs u.1 then e else e + |u.2|) e =
        e + ((p.filter fun u => !keepIndex dvs u.1).map fun u => |u.2|).sum := by
    intro p
    induction p with
    | nil => intro e; simp
    | cons u p ih =>
      intro e
      rw [List.foldl_cons, ih]
      by_cases h : keepIndex dvs u.1 = true
      · simp [h, List.filter_cons]
      · simp [h, List.filter_cons, add_assoc]
  have := key t.terms (0 + t.err)
  rw [zero_add] at this
  rw [← this]
  unfold discardedError
  show List.foldl _ (0 + t.err) _ = _
  rw [zero_add]
  rfl

/-! ## The choice of parameters -/

theorem sortedColumns_perm (near : K → K) (ts : List (TM K)) (n : Nat) :
    ((sortedColumns near ts n).map fun q => (ofLex q).2).Perm (List.range n) := by
  have h := (List.perm_insertionSort (· ≥ ·) ((List.range n).map fun j => toLex (columnMax near ts j, j))).map
    (fun q => (ofLex q).2)
  refine h.trans ?_
  rw [List.map_map]
  have : ((fun q : K ×ₗ Nat => (ofLex q).2) ∘ fun j => toLex (columnMax near ts j, j)) = id := rfl
  rw [this, List.map_id]

/-- **C72**: the kept and the discarded parameters are all parameters, each once, in increasing order; as many
are kept as asked. -/
theorem C72_kept_discarded (near : K → K) (ts : List (TM K)) (n keep : Nat) (hk : keep ≤ n) :
    (keptParameters near ts n keep ++ discardedParameters near ts n keep).Perm (List.range n) ∧
    (keptParameters near ts n keep).Pairwise (· < ·) ∧ (discardedParameters near ts n keep).Pairwise (· < ·) ∧
    (keptParameters near ts n keep).length = keep := by
  have h1 : (keptParameters near ts n keep ++ discardedParameters near ts n keep).Perm (List.range n) := by
    refine ((List.perm_insertionSort _ _).append (List.perm_insertionSort _ _)).trans ?_
    rw [← List.map_append, List.take_append_drop]
    exact sortedColumns_perm near ts n
  have hnd : (keptParameters near ts n keep ++ discardedParameters near ts n keep).Nodup :=
    h1.nodup_iff.2 List.nodup_range
  have hstrict : ∀ l : List Nat, (l.insertionSort (· ≤ ·)).Nodup → (l.insertionSort (· ≤ ·)).Pairwise (· < ·) := by
    intro l hl
    have := List.pairwise_insertionSort (· ≤ ·) l
    exact (this.and hl).imp fun h => lt_of_le_of_ne h.1 h.2
  refine ⟨h1, hstrict _ (List.Nodup.of_append_left hnd), hstrict _ (List.Nodup.of_append_right hnd), ?_⟩
  have hlen : (sortedColumns near ts n).length = n := by
    have := (sortedColumns_perm near ts n).length_eq
    simpa using this
  rw [keptParameters, (List.perm_insertionSort _ _).length_eq, List.length_map, List.length_take, hlen]
  exact min_eq_left hk

/-- **C72**: no discarded parameter has more influence than a kept one. -/
theorem C72_kept_dominant (near : K → K) (ts : List (TM K)) (n keep : Nat) (i j : Nat)
    (hi : i ∈ keptParameters near ts n keep) (hj : j ∈ discardedParameters near ts n keep) :
    columnMax near ts j ≤ columnMax near ts i := by
  have hq : ∀ q ∈ sortedColumns near ts n, q = toLex (columnMax near ts (ofLex q).2, (ofLex q).2) := by
    intro q hq
    have := (List.perm_insertionSort (· ≥ ·) _).subset hq
    obtain ⟨j, -, rfl⟩ := List.mem_map.1 this
    rfl
  have hs : (sortedColumns near ts n).Pairwise (· ≥ ·) := List.pairwise_insertionSort _ _
  obtain ⟨a, ha, rfl⟩ := List.mem_map.1 ((List.perm_insertionSort _ _).subset hi)
  obtain ⟨b, hb, rfl⟩ := List.mem_map.1 ((List.perm_insertionSort _ _).subset hj)
  have hab : a ≥ b := by
    rw [← List.take_append_drop keep (sortedColumns near ts n)] at hs
    exact (List.pairwise_append.1 hs).2.2 a ha b hb
  rw [hq a (List.mem_of_mem_take ha), hq b (List.mem_of_mem_drop hb)] at hab
  rcases Prod.Lex.toLex_le_toLex.1 hab with h | h
  · exact h.le
  · exact h.1.le

/-- The kept parameters are the complement of the discarded ones. -/
theorem kept_eq (near : K → K) (ts : List (TM K)) (n keep : Nat) (hk : keep ≤ n) :
    keptParameters near ts n keep =
      (List.range n).filter fun i => decide (i ∉ discardedParameters near ts n keep) := by
  obtain ⟨h1, h2, h3, -⟩ := C72_kept_discarded near ts n keep hk
  have hnd := h1.nodup_iff.2 List.nodup_range
  refine List.Perm.eq_of_pairwise (le := (· < ·)) (fun a b _ _ hab hba => (lt_asymm hab hba).elim) h2
    (List.Pairwise.filter _ List.pairwise_lt_range) ?_
  refine (List.perm_ext_iff_of_nodup (List.Nodup.of_append_left hnd) (List.nodup_range.filter _)).2 fun a => ?_
  rw [List.mem_filter, ← h1.mem_iff, List.mem_append]
  simp only [decide_eq_true_eq]
  constructor
  · intro h
    exact ⟨Or.inl h, fun h' => (List.nodup_append.1 hnd).2.2 a h a h' rfl⟩
  · rintro ⟨h | h, h'⟩
    · exact h
    · exact (h' h).elim

/-! ## The set -/

theorem getD_lt {x : List K} {i : Nat} (h : i < x.length) : x.getD i 0 = x[i] := by
  simp [List.getD, h]

theorem forall₂_mapIdx {ne : Nat} {α : Type*} (F : Nat → α → TM K) (l : List α) (y : List K) (P : α → K → Prop)
    (h : List.Forall₂ P l y) (Q : Nat → TM K → K → K → Prop) :
    (∀ i a v, a ∈ l → i < ne → P a v → ∃ c : K, |c| ≤ 1 ∧ Q i (F i a) v c) →
    ∀ k, k + l.length ≤ ne → ∃ e : List K, e.length = l.length ∧ (∀ c ∈ e, |c| ≤ 1) ∧
      ∀ i (hi : i < l.length) (hy : i < y.length) (he : i < e.length), Q (k + i) (F (k + i) l[i]) y[i] e[i] := by
  induction h with
  | nil => intro _ k _; exact ⟨[], rfl, by simp, by simp⟩
  | @cons a v l y hav _ ih =>
    intro hQ k hk
    simp only [List.length_cons] at hk
    obtain ⟨c, hc, hq⟩ := hQ k a v (by simp) (by omega) hav
    obtain ⟨e, he1, he2, he3⟩ := ih (fun i a v ha hi => hQ i a v (List.mem_cons_of_mem _ ha) hi) (k + 1) (by omega)
    refine ⟨c :: e, by simp [he1], ?_, ?_⟩
    · intro d hd
      rcases List.mem_cons.1 hd with rfl | hd
      · exact hc
      · exact he2 d hd
    · intro i hi hy he
      cases i with
      | zero => simpa using hq
      | succ i =>
        have := he3 i (by simpa using hi) (by simpa using hy) (by simpa using he)
        simpa [show k + (i + 1) = k + 1 + i by omega] using this

/-- **C72**: Kuhn reconditioning keeps every point of the set. -/
theorem C72_kuhn (R : Rounding K) (blocks : Nat) (s s' : TSet K) (hs : s.WF) (h : kuhn R blocks s = some s') :
    s.pts ⊆ s'.pts := by
  simp only [kuhn] at h
  split_ifs at h with hn
  obtain rfl := Option.some.inj h
  obtain ⟨h1, h2, h3, h4⟩ := C72_kept_discarded R.near s.fn s.n ((blocks - 1) * s.fn.length) (by omega)
  have hk := kept_eq R.near s.fn s.n ((blocks - 1) * s.fn.length) (by omega)
  rintro ⟨y, t, d⟩ ⟨x, hx⟩
  set dvs := discardedParameters R.near s.fn s.n ((blocks - 1) * s.fn.length) with hd
  obtain ⟨e, he1, he2, he3⟩ := forall₂_mapIdx (ne := s.fn.length) (fun i t => reconditionModel R s.n dvs s.fn.length i t) s.fn y _ hx.fn
    (fun i t v c => ∀ e : List K, e.length = s.fn.length → e.getD i 0 = c → Allows t (keptOf s.n dvs x ++ e) v)
    (fun i a v ha hi hav => C72_recondition_error R h3 (hs.fn a ha) hx.mem hi hav) 0 (by simp)
  have hu : ∀ t : TM K, TaylorModel.WF s.n t → ∀ v, Allows t x v →
      Allows (reconditionModel R s.n dvs s.fn.length s.fn.length t) (keptOf s.n dvs x ++ e) v :=
    fun t ht v hv => C72_recondition_uniform R h3 ht hx.mem _ e hv
  refine ⟨keptOf s.n dvs x ++ e, ⟨?_, ?_⟩, ?_, hu _ hs.time _ hx.time, hu _ hs.dwell _ hx.dwell, ?_⟩
  · rw [List.length_append, he1, keptOf, List.length_map, ← hk, h4]
  · intro c hc
    rcases List.mem_append.1 hc with hc | hc
    · obtain ⟨i, hi, rfl⟩ := List.mem_map.1 hc
      have hin : i < s.n := List.mem_range.1 (List.mem_filter.1 hi).1
      have hx' : i < x.length := by rw [hx.mem.1]; exact hin
      rw [getD_lt hx']
      exact hx.mem.2 _ (List.getElem_mem _)
    · exact he2 c hc
  · have hl := hx.fn.length_eq
    refine List.forall₂_iff_get.2 ⟨by simpa using hl, fun i hi hy => ?_⟩
    have hi' : i < s.fn.length := by simpa using hi
    have := he3 i hi' hy (by omega) e he1
      (by rw [zero_add]; exact getD_lt (by omega))
    simpa using this
  · intro c hc
    obtain ⟨c0, hc0, rfl⟩ := List.mem_map.1 hc
    obtain ⟨v, hv, hb⟩ := hx.cs c0 hc0
    exact ⟨v, hu _ (hs.cs c0 hc0) _ hv, hb⟩

/-- The new models are well formed, so that reconditioning can be repeated. -/
theorem reconditionModel_wf (R : Rounding K) {n : Nat} (dvs : List Nat) (ne idx : Nat) (t : TM K) :
    TaylorModel.WF ((complement n dvs).length + ne) (reconditionModel R n dvs ne idx t) := by
  intro u hu
  unfold reconditionModel at hu
  simp only at hu
  have key : ∀ u ∈ (t.terms.filter fun u => keepIndex dvs u.1).map fun u =>
      ((complement n dvs).map (fun k => u.1.getD k 0) ++ List.replicate ne 0, u.2),
      u.1.length = (complement n dvs).length + ne := by
    intro u hu
    obtain ⟨v, -, rfl⟩ := List.mem_map.1 hu
    simp
  split_ifs at hu
  · exact key u hu
  · rcases List.mem_cons.1 hu with rfl | hu
    · simp
    · exact key u hu

/-- **C72**: the result of Kuhn reconditioning is again a set of the same kind. -/
theorem C72_kuhn_wf (R : Rounding K) (blocks : Nat) (s s' : TSet K) (h : kuhn R blocks s = some s') :
    s'.WF ∧ s'.n = blocks * s.fn.length - (if blocks = 0 then 0 else s.fn.length) + s.fn.length ∧
      s'.fn.length = s.fn.length := by
  simp only [kuhn] at h
  split_ifs at h with hn
  obtain rfl := Option.some.inj h
  obtain ⟨h1, h2, h3, h4⟩ := C72_kept_discarded R.near s.fn s.n ((blocks - 1) * s.fn.length) (by omega)
  have hk := kept_eq R.near s.fn s.n ((blocks - 1) * s.fn.length) (by omega)
  have hc : (complement s.n (discardedParameters R.near s.fn s.n ((blocks - 1) * s.fn.length))).length =
      (blocks - 1) * s.fn.length := by
    rw [complement_eq _ _ h3, ← hk, h4]
  have hw := fun idx t => reconditionModel_wf R (n := s.n)
    (discardedParameters R.near s.fn s.n ((blocks - 1) * s.fn.length)) s.fn.length idx t
  rw [hc] at hw
  refine ⟨⟨fun t ht => ?_, hw _ _, hw _ _, fun c hcs => ?_⟩, ?_, by simp⟩
  · obtain ⟨i, hi, rfl⟩ := List.mem_mapIdx.1 ht
    exact hw _ _
  · obtain ⟨c0, -, rfl⟩ := List.mem_map.1 hcs
    exact hw _ _
  · cases blocks with
    | zero => simp
    | succ b => simp [Nat.add_mul]

/-! ## A concrete case -/

/-- Two state components with three parameters. -/
def kuhnSet : TSet ℚ :=
  ⟨3, [⟨[([0, 0, 0], 1), ([1, 0, 0], 2), ([0, 1, 0], 1 / 4)], 1 / 8⟩, ⟨[([0, 1, 0], 3), ([0, 0, 1], 1 / 2)], 0⟩],
    ⟨[], 0⟩, ⟨[], 0⟩, []⟩

/-- The terms and the errors after reconditioning. -/
def kuhnShow (blocks : Nat) : List (List (List Nat × ℚ) × ℚ) :=
  ((kuhn TaylorModel.exactRounding blocks kuhnSet).map fun r => r.fn.map fun t => (t.terms, t.err)).getD []

example : kuhnSet.WF ∧ (([1 + 2 + 1 / 4 + 1 / 8, 3 + 1 / 2] : List ℚ), (0 : ℚ), (0 : ℚ)) ∈ kuhnSet.pts := by
  refine ⟨⟨fun t ht u hu => ?_, by simp [kuhnSet, TaylorModel.WF], by simp [kuhnSet, TaylorModel.WF],
    by simp [kuhnSet]⟩, [1, 1, 1], ⟨rfl, by simp⟩, ?_, ?_, ?_, by simp [kuhnSet]⟩
  · simp only [kuhnSet, List.mem_cons, List.not_mem_nil, or_false] at ht
    rcases ht with rfl | rfl <;> simp only [List.mem_cons, List.not_mem_nil, or_false] at hu
    · rcases hu with rfl | rfl | rfl <;> rfl
    · rcases hu with rfl | rfl <;> rfl
  · simp only [kuhnSet]
    refine .cons ?_ (.cons ?_ .nil) <;> norm_num [Allows, monomial, value]
  · norm_num [Allows, kuhnSet, value]
  · norm_num [Allows, kuhnSet, value]

/-- With two blocks the parameter with the least influence is discarded, with one block all of them. -/
example :
    kuhnShow 2 = [([([0, 0, 1, 0], 1 / 8), ([0, 0, 0, 0], 1), ([1, 0, 0, 0], 2), ([0, 1, 0, 0], 1 / 4)], 0),
        ([([0, 0, 0, 1], 1 / 2), ([0, 1, 0, 0], 3)], 0)] ∧
    kuhnShow 1 = [([([1, 0], 19 / 8), ([0, 0], 1)], 0), ([([0, 1], 7 / 2)], 0)] := by
  decide +kernel

end Verif.Enclosure
