import Verif.TaylorModel.Mul
import Verif.Bounds.Props

/-!
# Properties C27 and C28: ranges, norms and relations of Taylor models
-/

namespace Verif.TaylorModel

open Ariadne (Rounding XRounding Bounds Ext)
open Ariadne.Rounding
open Verif.Expansion

variable {K : Type*} [Field K] [LinearOrder K] [IsStrictOrderedRing K]

/-! ## Model of `range` -/

/-- The variables of the first loop of `TaylorModel::range`,
`source/function/taylor_model.tpl.hpp` lines 1327-1330. -/
structure RangeTerms (K : Type*) where
  const : K
  lin : List K
  quad : List K
  err : K

/-- One iteration of the first loop of `range`, lines 1331-1346. -/
def rangeStep (R : Rounding K) (s : RangeTerms K) (t : List Nat × K) : RangeTerms K :=
  if degree t.1 = 0 then { s with const := t.2 }
  else if degree t.1 = 1 then
    match t.1.findIdx? (fun k => k = 1) with
    | some j => { s with lin := s.lin.set j t.2 }
    | none => s
  else if degree t.1 = 2 then
    match t.1.findIdx? (fun k => k = 2 ∨ k = 1) with
    | some j =>
      if t.1.getD j 0 = 2 then { s with quad := s.quad.set j t.2 }
      else { s with err := R.up (s.err + |t.2|) }
    | none => s
  else { s with err := R.up (s.err + |t.2|) }

/-- The interval added for one variable with quadratic coefficient `a` and linear coefficient `b`,
lines 1355-1363.  The operations are those of `Bounds`, to which intervals are converted; `refinement` is
`source/geometry/interval.inl.hpp` lines 175-176. -/
def rangeVar (R : XRounding K) (a b : K) : Bounds K :=
  let unit : Bounds K := ⟨.fin (-1), .fin 1⟩
  let ql := Bounds.add R (Bounds.opMulFB R (.fin |a|) unit) (Bounds.opMulFB R (.fin |b|) unit)
  if a ≠ 0 then
    let two : Bounds K := ⟨.fin 2, .fin 2⟩
    let four : Bounds K := ⟨.fin 4, .fin 4⟩
    let shift := Bounds.div R (Bounds.divF R (.fin b) (.fin a)) two
    let sb := Bounds.div R (Bounds.opDivBF R (Bounds.mulF R (.fin b) (.fin b)) (.fin a)) four
    let qf := Bounds.sub R (Bounds.opMulFB R (.fin a) (Bounds.sqr R (Bounds.add R unit shift))) sb
    Bounds.refinement ql qf
  else ql

/-- The second loop of `range`, lines 1354-1364. -/
def rangeLoop (R : XRounding K) : List K → List K → Bounds K → Bounds K
  | a :: as, b :: bs, r => rangeLoop R as bs (Bounds.add R r (rangeVar R a b))
  | _, _, r => r

/-- `TaylorModel::range`, lines 1322-1369, for a model in `n` variables. -/
def range (R : Rounding K) (n : Nat) (t : TM K) : Bounds K :=
  let s := t.terms.foldl (rangeStep R) ⟨0, List.replicate n 0, List.replicate n 0, 0⟩
  let err := R.up (s.err + t.err)
  let r : Bounds K := Bounds.addBF (XRounding.ofRounding R) ⟨.fin (-err), .fin err⟩ (.fin s.const)
  rangeLoop (XRounding.ofRounding R) s.quad s.lin r

/-! ## Grouping of the terms -/

/-- The linear form `Σ lⱼxⱼ`. -/
def lin (l x : List K) : K := (List.zipWith (· * ·) l x).sum

/-- The diagonal quadratic form `Σ lⱼxⱼ²`. -/
def quad (l x : List K) : K := (List.zipWith (fun a y => a * y ^ 2) l x).sum

theorem lin_set (l x : List K) (j : Nat) (v : K) (hl : l.length = x.length) (hj : j < x.length)
    (h0 : l.getD j 0 = 0) : lin (l.set j v) x = lin l x + v * x.getD j 0 := by
  induction l generalizing x j with
  | nil => simp at hl; omega
  | cons a l ih =>
    cases x with
    | nil => simp at hl
    | cons y x =>
      cases j with
      | zero =>
        simp only [List.getD_cons_zero] at h0
        subst h0
        simp [lin]; ring
      | succ j =>
        simp only [List.length_cons, Nat.add_right_cancel_iff] at hl hj
        have := ih x j hl (by omega) (by simpa using h0)
        unfold lin at this ⊢
        simp only [List.set_cons_succ, List.zipWith_cons_cons, List.sum_cons, this,
          List.getD_cons_succ]
        ring

theorem quad_set (l x : List K) (j : Nat) (v : K) (hl : l.length = x.length) (hj : j < x.length)
    (h0 : l.getD j 0 = 0) : quad (l.set j v) x = quad l x + v * x.getD j 0 ^ 2 := by
  induction l generalizing x j with
  | nil => simp at hl; omega
  | cons a l ih =>
    cases x with
    | nil => simp at hl
    | cons y x =>
      cases j with
      | zero =>
        simp only [List.getD_cons_zero] at h0
        subst h0
        simp [quad]; ring
      | succ j =>
        simp only [List.length_cons, Nat.add_right_cancel_iff] at hl hj
        have := ih x j hl (by omega) (by simpa using h0)
        unfold quad at this ⊢
        simp only [List.set_cons_succ, List.zipWith_cons_cons, List.sum_cons, this,
          List.getD_cons_succ]
        ring

/-- The unit index `k·eⱼ`. -/
def unitIdx (n j k : Nat) : List Nat := (List.replicate n 0).set j k

theorem sum_zero_replicate {a : List Nat} (h : a.sum = 0) : a = List.replicate a.length 0 := by
  induction a with
  | nil => rfl
  | cons x a ih =>
    rw [List.sum_cons] at h
    rw [List.length_cons, List.replicate_succ, ← ih (by omega)]
    congr 1
    omega

theorem monomial_unitIdx (x : List K) (j k : Nat) (hj : j < x.length) :
    monomial x (unitIdx x.length j k) = x.getD j 0 ^ k := by
  induction x generalizing j with
  | nil => simp at hj
  | cons y x ih =>
    cases j with
    | zero =>
      simp only [unitIdx, List.length_cons, List.replicate_succ, List.set_cons_zero,
        List.getD_cons_zero]
      rw [monomial_cons, monomial_zero, mul_one]
    | succ j =>
      simp only [unitIdx, List.length_cons, List.replicate_succ, List.set_cons_succ,
        List.getD_cons_succ]
      rw [monomial_cons, pow_zero, one_mul]
      exact ih j (by simpa using hj)

/-- An index of degree one is a unit index. -/
theorem idx_degree_one {a : List Nat} (h : a.sum = 1) :
    ∃ j, j < a.length ∧ a.findIdx? (fun k => k = 1) = some j ∧ a = unitIdx a.length j 1 := by
  induction a with
  | nil => simp at h
  | cons x a ih =>
    rw [List.sum_cons] at h
    by_cases hx : x = 1
    · subst hx
      refine ⟨0, by simp, by simp [List.findIdx?_cons], ?_⟩
      have := sum_zero_replicate (a := a) (by omega)
      simp only [unitIdx, List.length_cons, List.replicate_succ, List.set_cons_zero]
      rw [← this]
    · have hx0 : x = 0 := by omega
      subst hx0
      obtain ⟨j, h1, h2, h3⟩ := ih (by omega)
      refine ⟨j + 1, by simpa using h1, by simp [List.findIdx?_cons, h2], ?_⟩
      simp only [unitIdx, List.length_cons, List.replicate_succ, List.set_cons_succ]
      congr 1

/-- An index of degree two is twice a unit index or has a component equal to one. -/
theorem idx_degree_two {a : List Nat} (h : a.sum = 2) :
    ∃ j, j < a.length ∧ a.findIdx? (fun k => decide (k = 2 ∨ k = 1)) = some j ∧
      (a.getD j 0 = 2 → a = unitIdx a.length j 2) := by
  induction a with
  | nil => simp at h
  | cons x a ih =>
    rw [List.sum_cons] at h
    by_cases hx : x = 2 ∨ x = 1
    · refine ⟨0, by simp, by simp [List.findIdx?_cons, hx], ?_⟩
      intro h2
      simp only [List.getD_cons_zero] at h2
      subst h2
      have := sum_zero_replicate (a := a) (by omega)
      simp only [unitIdx, List.length_cons, List.replicate_succ, List.set_cons_zero]
      rw [← this]
    · have hx0 : x = 0 := by omega
      subst hx0
      obtain ⟨j, h1, h2, h3⟩ := ih (by omega)
      refine ⟨j + 1, by simpa using h1, by simp only [List.findIdx?_cons, h2]; simp, ?_⟩
      intro h4
      simp only [unitIdx, List.length_cons, List.replicate_succ, List.set_cons_succ]
      congr 1
      exact h3 (by simpa using h4)

/-- Invariant of the first loop: the processed terms are accounted for, and a variable that is not
zero has its index among them. -/
structure RangeInv (n : Nat) (x : List K) (p : Terms (List Nat) K) (s : RangeTerms K) : Prop where
  sum : |value (monomial x) p - (s.const + lin s.lin x + quad s.quad x)| ≤ s.err
  len1 : s.lin.length = n
  len2 : s.quad.length = n
  const0 : List.replicate n 0 ∉ p.map Prod.fst → s.const = 0
  lin0 : ∀ j, unitIdx n j 1 ∉ p.map Prod.fst → s.lin.getD j 0 = 0
  quad0 : ∀ j, unitIdx n j 2 ∉ p.map Prod.fst → s.quad.getD j 0 = 0

theorem getD_set_zero (l : List K) (i j : Nat) (v : K) (h : l.getD j 0 = 0) (hij : i ≠ j) :
    (l.set i v).getD j 0 = 0 := by
  rw [List.getD_eq_getElem?_getD] at h ⊢
  rw [List.getElem?_set_ne hij]
  exact h

theorem rangeInv_step (R : Rounding K) (n : Nat) (x : List K) (hx : InBox n x)
    (p : Terms (List Nat) K) (s : RangeTerms K) (t : List Nat × K) (ht : t.1.length = n)
    (hfit : Fits t.1) (hnew : t.1 ∉ p.map Prod.fst) (h : RangeInv n x p s) :
    RangeInv n x (p ++ [t]) (rangeStep R s t) := by
  obtain ⟨a, c⟩ := t
  simp only at ht hfit hnew
  obtain ⟨h1, h2, h3, h4, h5, h6⟩ := h
  have hm := abs_monomial_le x hx.2
  have hlen := hx.1
  have habs : ∀ (e : K), |value (monomial x) p - (s.const + lin s.lin x + quad s.quad x)| ≤ e →
      |value (monomial x) (p ++ [(a, c)]) - (s.const + lin s.lin x + quad s.quad x)| ≤
        R.up (e + |c|) := by
    intro e he
    rw [value_append, value_cons, value_nil, add_zero]
    have h7 : |c * monomial x a| ≤ |c| := by
      rw [abs_mul]; exact mul_le_of_le_one_right (abs_nonneg _) (hm a)
    have h8 := R.le_up (e + |c|)
    have h9 := abs_add_le (value (monomial x) p - (s.const + lin s.lin x + quad s.quad x))
      (c * monomial x a)
    have e1 : value (monomial x) p + c * monomial x a - (s.const + lin s.lin x + quad s.quad x) =
      value (monomial x) p - (s.const + lin s.lin x + quad s.quad x) + c * monomial x a := by ring
    rw [e1]
    linarith
  have hmem : ∀ b, b ∉ (p ++ [(a, c)]).map Prod.fst → b ∉ p.map Prod.fst ∧ b ≠ a := by
    intro b hb
    simp only [List.map_append, List.map_cons, List.map_nil, List.mem_append, List.mem_singleton,
      not_or] at hb
    exact hb
  unfold rangeStep
  simp only
  rw [degree_of_fits hfit]
  by_cases d0 : a.sum = 0
  · rw [if_pos d0]
    have ha : a = List.replicate n 0 := by rw [sum_zero_replicate d0, ht]
    have hc : s.const = 0 := h4 (ha ▸ hnew)
    refine ⟨?_, h2, h3, ?_, fun j hj => h5 j (hmem _ hj).1, fun j hj => h6 j (hmem _ hj).1⟩
    · rw [value_append, value_cons, value_nil, add_zero]
      simp only
      rw [ha, monomial_zero]
      rw [hc] at h1
      have : value (monomial x) p + c * 1 - (c + lin s.lin x + quad s.quad x) =
        value (monomial x) p - (0 + lin s.lin x + quad s.quad x) := by ring
      rw [this]
      exact h1
    · intro hb
      exact absurd ha.symm (hmem _ hb).2
  · rw [if_neg d0]
    by_cases d1 : a.sum = 1
    · rw [if_pos d1]
      obtain ⟨j, hj, e1, e2⟩ := idx_degree_one d1
      rw [e1]
      simp only
      rw [ht] at hj e2
      have hl0 : s.lin.getD j 0 = 0 := h5 j (e2 ▸ hnew)
      refine ⟨?_, by simpa using h2, h3, fun hb => h4 (hmem _ hb).1, ?_,
        fun j hj => h6 j (hmem _ hj).1⟩
      · rw [value_append, value_cons, value_nil, add_zero]
        simp only
        rw [lin_set s.lin x j c (by omega) (by omega) hl0]
        have : monomial x a = x.getD j 0 := by
          rw [e2, ← hlen, monomial_unitIdx x j 1 (by omega), pow_one]
        rw [this]
        have : value (monomial x) p + c * x.getD j 0 -
            (s.const + (lin s.lin x + c * x.getD j 0) + quad s.quad x) =
          value (monomial x) p - (s.const + lin s.lin x + quad s.quad x) := by ring
        rw [this]
        exact h1
      · intro i hi
        obtain ⟨i1, i2⟩ := hmem _ hi
        apply getD_set_zero _ _ _ _ (h5 i i1)
        rintro rfl
        exact i2 e2.symm
    · rw [if_neg d1]
      by_cases d2 : a.sum = 2
      · rw [if_pos d2]
        obtain ⟨j, hj, e1, e2⟩ := idx_degree_two d2
        rw [e1]
        simp only
        by_cases hg : a.getD j 0 = 2
        · rw [if_pos hg]
          replace e2 := e2 hg
          rw [ht] at hj e2
          have hl0 : s.quad.getD j 0 = 0 := h6 j (e2 ▸ hnew)
          refine ⟨?_, h2, by simpa using h3, fun hb => h4 (hmem _ hb).1,
            fun j hj => h5 j (hmem _ hj).1, ?_⟩
          · rw [value_append, value_cons, value_nil, add_zero]
            simp only
            rw [quad_set s.quad x j c (by omega) (by omega) hl0]
            have : monomial x a = x.getD j 0 ^ 2 := by
              rw [e2, ← hlen, monomial_unitIdx x j 2 (by omega)]
            rw [this]
            have : value (monomial x) p + c * x.getD j 0 ^ 2 -
                (s.const + lin s.lin x + (quad s.quad x + c * x.getD j 0 ^ 2)) =
              value (monomial x) p - (s.const + lin s.lin x + quad s.quad x) := by ring
            rw [this]
            exact h1
          · intro i hi
            obtain ⟨i1, i2⟩ := hmem _ hi
            apply getD_set_zero _ _ _ _ (h6 i i1)
            rintro rfl
            exact i2 e2.symm
        · rw [if_neg hg]
          exact ⟨habs _ h1, h2, h3, fun hb => h4 (hmem _ hb).1, fun j hj => h5 j (hmem _ hj).1,
            fun j hj => h6 j (hmem _ hj).1⟩
      · rw [if_neg d2]
        exact ⟨habs _ h1, h2, h3, fun hb => h4 (hmem _ hb).1, fun j hj => h5 j (hmem _ hj).1,
          fun j hj => h6 j (hmem _ hj).1⟩

theorem rangeInv (R : Rounding K) (n : Nat) (x : List K) (hx : InBox n x)
    (q : Terms (List Nat) K) : ∀ (p : Terms (List Nat) K) (s : RangeTerms K),
    (∀ t ∈ q, t.1.length = n ∧ Fits t.1) → Distinct (p ++ q) → RangeInv n x p s →
    RangeInv n x (p ++ q) (q.foldl (rangeStep R) s) := by
  induction q with
  | nil => intro p s _ _ h; simpa using h
  | cons t q ih =>
    intro p s hq hd h
    rw [List.foldl_cons]
    have e : p ++ t :: q = (p ++ [t]) ++ q := by simp
    rw [e] at hd ⊢
    apply ih _ _ (fun u hu => hq u (by simp [hu])) hd
    apply rangeInv_step R n x hx p s t (hq t (by simp)).1 (hq t (by simp)).2 _ h
    unfold Distinct at hd
    rw [List.map_append, List.map_append, List.nodup_append, List.nodup_append] at hd
    intro hmem
    exact hd.1.2.2 t.1 hmem t.1 (by simp) rfl

/-! ## The interval for one variable -/

section Interval
variable (R : Rounding K)

local notation "X" => XRounding.ofRounding R

theorem finite_opMulFB (a : K) {B : Bounds K} (h : B.Finite) :
    (Bounds.opMulFB X (.fin a) B).Finite := by
  obtain ⟨⟨l, hl⟩, u, hu⟩ := h
  obtain ⟨bl, bu⟩ := B
  simp only at hl hu
  subst hl hu
  unfold Bounds.opMulFB
  split_ifs <;> exact ⟨⟨_, rfl⟩, ⟨_, rfl⟩⟩

theorem finite_add {A B : Bounds K} (hA : A.Finite) (hB : B.Finite) : (Bounds.add X A B).Finite := by
  obtain ⟨⟨l, hl⟩, u, hu⟩ := hA
  obtain ⟨⟨l', hl'⟩, u', hu'⟩ := hB
  refine ⟨⟨R.down (l + l'), ?_⟩, ⟨R.up (u + u'), ?_⟩⟩
  · simp [Bounds.add, hl, hl', Ext.add, XRounding.ofRounding]
  · simp [Bounds.add, hu, hu', Ext.add, XRounding.ofRounding]

theorem finite_sqr {B : Bounds K} (h : B.Finite) : (Bounds.sqr X B).Finite := by
  obtain ⟨⟨l, hl⟩, u, hu⟩ := h
  obtain ⟨bl, bu⟩ := B
  simp only at hl hu
  subst hl hu
  unfold Bounds.sqr
  split_ifs
  · exact ⟨⟨_, rfl⟩, ⟨_, rfl⟩⟩
  · exact ⟨⟨_, rfl⟩, ⟨_, rfl⟩⟩
  · refine ⟨⟨_, rfl⟩, ?_⟩
    simp only [Ext.max]
    split_ifs <;> exact ⟨_, rfl⟩

theorem finite_divF (a b : K) (hb : b ≠ 0) : (Bounds.divF X (.fin a) (.fin b)).Finite := by
  refine ⟨⟨R.down (a / b), ?_⟩, ⟨R.up (a / b), ?_⟩⟩ <;>
    simp [Bounds.divF, Ext.div, hb, XRounding.ofRounding]

theorem finite_div_pos {B : Bounds K} (h : B.Finite) (c : K) (hc : 0 < c) :
    (Bounds.div X B ⟨.fin c, .fin c⟩).Finite := by
  obtain ⟨⟨l, hl⟩, u, hu⟩ := h
  obtain ⟨bl, bu⟩ := B
  simp only at hl hu
  subst hl hu
  have hc' : c ≠ 0 := hc.ne'
  have hc2 : ¬ c ≤ 0 := not_le.2 hc
  unfold Bounds.div
  simp only [Ext.lt, Ext.le, Ext.div, hc', hc, hc2, XRounding.ofRounding]
  split_ifs <;> first | exact ⟨⟨_, rfl⟩, ⟨_, rfl⟩⟩ | simp_all

theorem contains_rangeVar (a b y : K) (hy : |y| ≤ 1) :
    (rangeVar X a b).Contains (a * y ^ 2 + b * y) := by
  have hu : (⟨.fin (-1), .fin 1⟩ : Bounds K).Finite := ⟨⟨_, rfl⟩, ⟨_, rfl⟩⟩
  have hy2 : |y ^ 2| ≤ 1 := by rw [abs_pow]; exact pow_le_one₀ (abs_nonneg _) hy
  have hunit : ∀ z : K, |z| ≤ 1 → (⟨.fin (-1), .fin 1⟩ : Bounds K).Contains z :=
    fun z hz => abs_le.1 hz
  -- the simple bound
  have hterm : ∀ c z : K, |z| ≤ 1 →
      (Bounds.opMulFB X (.fin |c|) ⟨.fin (-1), .fin 1⟩).Contains (c * z) := by
    intro c z hz
    rcases le_total 0 c with h | h
    · have := (Bounds.C05_op_mul_mixed X hu (hunit z hz) |c|).2
      rwa [abs_of_nonneg h] at this ⊢
    · have := (Bounds.C05_op_mul_mixed X hu (hunit (-z) (by rwa [abs_neg])) |c|).2
      rw [abs_of_nonpos h] at this ⊢
      rwa [neg_mul_neg] at this
  have hql := Bounds.C05_add X (hterm a (y ^ 2) hy2) (hterm b y hy)
  unfold rangeVar
  simp only
  by_cases ha : a ≠ 0
  · rw [if_pos ha]
    -- the completed square
    have h1 : (Bounds.divF X (.fin b) (.fin a)).Contains (b / a) :=
      (Bounds.C05_exact_arguments X b a).2.2.2 ha
    have h2 := Bounds.C06_div X h1 (Y := ⟨.fin 2, .fin 2⟩) (y := 2) ⟨le_rfl, le_rfl⟩
    have f2 := finite_div_pos R (finite_divF R b a ha) 2 (by norm_num)
    have h3 := Bounds.C05_sqr X (Bounds.C05_add X (hunit y hy) h2)
    have f3 := finite_sqr R (finite_add R hu f2)
    have h4 := (Bounds.C05_op_mul_mixed X f3 h3 a).2
    have h5 : (Bounds.mulF X (.fin b) (.fin b)).Contains (b * b) :=
      (Bounds.C05_exact_arguments X b b).2.2.1
    have f5 : (Bounds.mulF X (.fin b) (.fin b)).Finite := ⟨⟨_, rfl⟩, ⟨_, rfl⟩⟩
    have h6 := (Bounds.C06_op_div_mixed X f5 h5 a).1
    have h7 := Bounds.C06_div X h6 (Y := ⟨.fin 4, .fin 4⟩) (y := 4) ⟨le_rfl, le_rfl⟩
    have h8 := Bounds.C05_sub X h4 h7
    have e : a * (y + b / a / 2) ^ 2 - b * b / a / 4 = a * y ^ 2 + b * y := by
      field_simp
      ring
    rw [e] at h8
    exact ⟨Ext.isLower_max hql.1 h8.1, Ext.isUpper_min hql.2 h8.2⟩
  · rw [if_neg ha]
    exact hql

theorem contains_rangeLoop (as bs x : List K) (h1 : as.length = x.length)
    (h2 : bs.length = x.length) (hx : ∀ y ∈ x, |y| ≤ 1) (r : Bounds K) (v : K)
    (hr : r.Contains v) : (rangeLoop X as bs r).Contains (v + lin bs x + quad as x) := by
  induction x generalizing as bs r v with
  | nil =>
    rw [List.length_nil, List.length_eq_zero_iff] at h1 h2
    subst h1 h2
    simpa [rangeLoop, lin, quad] using hr
  | cons y x ih =>
    match as, bs with
    | a :: as, b :: bs =>
      unfold rangeLoop
      simp only [List.length_cons, Nat.add_right_cancel_iff] at h1 h2
      have := ih as bs h1 h2 (fun z hz => hx z (by simp [hz]))
        (Bounds.add X r (rangeVar X a b)) (v + (a * y ^ 2 + b * y))
        (Bounds.C05_add X hr (contains_rangeVar R a b y (hx y (by simp))))
      have e : v + lin (b :: bs) (y :: x) + quad (a :: as) (y :: x) =
          v + (a * y ^ 2 + b * y) + lin bs x + quad as x := by
        simp [lin, quad]; ring
      rw [e]
      exact this
    | [], _ => simp at h1
    | _ :: _, [] => simp at h2

end Interval

/-! ## C27 -/

section C27
variable (R : Rounding K)

/-- **C27** (range): every value of every enclosed function lies in the computed range. -/
theorem C27_range (n : Nat) (t : TM K) (hwf : WF n t) (hfit : ∀ u ∈ t.terms, Fits u.1)
    (hd : Distinct t.terms) (f : List K → K) (h : Encloses n t f) (x : List K) (hx : InBox n x) :
    (range R n t).Contains (f x) := by
  have h0 : RangeInv n x ([] : Terms (List Nat) K)
      (⟨0, List.replicate n 0, List.replicate n 0, 0⟩ : RangeTerms K) := by
    have hl : ∀ (k : Nat) (x : List K), lin (List.replicate k 0) x = 0 := by
      intro k
      induction k with
      | zero => intro x; simp [lin]
      | succ k ih =>
        intro x
        cases x with
        | nil => simp [lin]
        | cons y x => simpa [lin, List.replicate_succ] using ih x
    have hq : ∀ (k : Nat) (x : List K), quad (List.replicate k 0) x = 0 := by
      intro k
      induction k with
      | zero => intro x; simp [quad]
      | succ k ih =>
        intro x
        cases x with
        | nil => simp [quad]
        | cons y x => simpa [quad, List.replicate_succ] using ih x
    have hg : ∀ (k j : Nat), (List.replicate k (0 : K)).getD j 0 = 0 := by
      intro k j
      rw [List.getD_eq_getElem?_getD, List.getElem?_replicate]
      split_ifs <;> rfl
    refine ⟨?_, by simp, by simp, fun _ => rfl, fun j _ => hg n j, fun j _ => hg n j⟩
    simp [hl, hq]
  have h1 := rangeInv R n x hx t.terms [] _ (fun u hu => ⟨hwf u hu, hfit u hu⟩)
    (by simpa using hd) h0
  rw [List.nil_append] at h1
  have h2 := h x hx
  unfold range
  simp only
  generalize t.terms.foldl (rangeStep R) ⟨0, List.replicate n 0, List.replicate n 0, 0⟩ = s at *
  obtain ⟨e1, l1, l2, -, -, -⟩ := h1
  have h3 := R.le_up (s.err + t.err)
  have h4 := abs_add_le (f x - value (monomial x) t.terms)
    (value (monomial x) t.terms - (s.const + lin s.lin x + quad s.quad x))
  have e2 : f x - value (monomial x) t.terms +
    (value (monomial x) t.terms - (s.const + lin s.lin x + quad s.quad x)) =
    f x - s.const - lin s.lin x - quad s.quad x := by ring
  rw [e2] at h4
  have h5 : (⟨.fin (-R.up (s.err + t.err)), .fin (R.up (s.err + t.err))⟩ : Bounds K).Contains
      (f x - s.const - lin s.lin x - quad s.quad x) := by
    have : |f x - s.const - lin s.lin x - quad s.quad x| ≤ R.up (s.err + t.err) := by linarith
    exact abs_le.1 this
  have h6 := (Bounds.C05_mixed (XRounding.ofRounding R) h5 s.const).1
  have h7 := contains_rangeLoop R s.quad s.lin x (l2.trans hx.1.symm) (l1.trans hx.1.symm) hx.2 _ _ h6
  have e3 : f x - s.const - lin s.lin x - quad s.quad x + s.const + lin s.lin x + quad s.quad x =
    f x := by ring
  rwa [e3] at h7

/-- **C27** (norm): the norm bounds the magnitude of every enclosed function. -/
theorem C27_norm (n : Nat) (t : TM K) (f : List K → K) (h : Encloses n t f) (x : List K)
    (hx : InBox n x) : |f x| ≤ norm R t := by
  have h1 := abs_value_le_magSum R (monomial x) (abs_monomial_le x hx.2) t.terms
  have h2 := h x hx
  have h3 := R.le_up (magSum R t.terms + t.err)
  have h4 := abs_add_le (f x - value (monomial x) t.terms) (value (monomial x) t.terms)
  rw [sub_add_cancel] at h4
  unfold norm
  linarith

/-- The value of a polynomial at the origin is its constant coefficient. -/
theorem value_origin (n : Nat) (p : Terms (List Nat) K) (hp : ∀ u ∈ p, u.1.length = n) :
    value (monomial (List.replicate n 0)) p = coeff p (List.replicate n 0) := by
  have hmono : ∀ (a : List Nat), monomial (List.replicate a.length (0 : K)) a =
      if a = List.replicate a.length 0 then 1 else 0 := by
    intro a
    induction a with
    | nil => simp [monomial]
    | cons k a ih =>
      rw [List.length_cons, List.replicate_succ, monomial_cons, ih, List.replicate_succ]
      by_cases hk : k = 0
      · subst hk; simp
      · simp [hk]
  induction p with
  | nil => simp
  | cons t p ih =>
    rw [value_cons, coeff_cons, ih (fun u hu => hp u (by simp [hu]))]
    have hl := hp t (by simp)
    have := hmono t.1
    rw [hl] at this
    rw [this]
    split_ifs <;> simp

/-- **C27** (radius): the radius bounds the distance of every enclosed function from the constant
coefficient. -/
theorem C27_radius (n : Nat) (t : TM K) (hwf : WF n t) (hfit : ∀ u ∈ t.terms, Fits u.1)
    (hd : Distinct t.terms) (f : List K → K) (h : Encloses n t f) (x : List K) (hx : InBox n x) :
    |f x - constantTerm n t| ≤ radius R t := by
  have hm := abs_monomial_le x hx.2
  have key : ∀ (p : Terms (List Nat) K) (r : K), (∀ u ∈ p, u.1.length = n ∧ Fits u.1) →
      r + |value (monomial x) p - coeff p (List.replicate n 0)| ≤
        p.foldl (fun r t => if degree t.1 ≠ 0 then R.up (r + |t.2|) else r) r := by
    intro p
    induction p with
    | nil => intro r _; simp
    | cons t p ih =>
      intro r hp
      rw [List.foldl_cons, value_cons, coeff_cons]
      have hp' : ∀ u ∈ p, u.1.length = n ∧ Fits u.1 := fun u hu => hp u (by simp [hu])
      obtain ⟨hl, hf⟩ := hp t (by simp)
      by_cases h0 : degree t.1 ≠ 0
      · rw [if_pos h0]
        have hne : t.1 ≠ List.replicate n 0 := by
          intro e
          apply h0
          rw [degree_zero_iff hf, hl]
          exact e
        rw [if_neg hne, zero_add]
        have h1 := ih (R.up (r + |t.2|)) hp'
        have h2 := R.le_up (r + |t.2|)
        have h3 : |t.2 * monomial x t.1| ≤ |t.2| := by
          rw [abs_mul]; exact mul_le_of_le_one_right (abs_nonneg _) (hm _)
        have h4 := abs_add_le (t.2 * monomial x t.1)
          (value (monomial x) p - coeff p (List.replicate n 0))
        rw [add_sub_assoc]
        linarith
      · rw [if_neg h0]
        have he : t.1 = List.replicate n 0 := by
          rw [← hl]; exact (degree_zero_iff hf).1 (not_not.1 h0)
        rw [if_pos he, he, monomial_zero, mul_one, add_sub_add_left_eq_sub]
        exact ih r hp'
  have h1 := key t.terms 0 (fun u hu => ⟨hwf u hu, hfit u hu⟩)
  rw [zero_add] at h1
  have h2 := h x hx
  unfold constantTerm radius termsRadius
  rw [C23_get t.terms hd]
  have h3 := R.le_up (t.terms.foldl (fun r t => if degree t.1 ≠ 0 then R.up (r + |t.2|) else r) 0
    + t.err)
  have h4 := abs_add_le (f x - value (monomial x) t.terms)
    (value (monomial x) t.terms - coeff t.terms (List.replicate n 0))
  rw [sub_add_sub_cancel] at h4
  linarith

/-- Non-vacuity of C27: the range of `s²+s` is `[-1/4,2]`, tighter than the norm. -/
example : range (Ariadne.PBit.rounding 53 (by norm_num)) 1
    (⟨[([2], 1), ([1], 1)], 0⟩ : TM ℚ) = ⟨.fin (-1 / 4), .fin 2⟩ ∧
    norm (Ariadne.PBit.rounding 53 (by norm_num)) (⟨[([2], 1), ([1], 1)], 0⟩ : TM ℚ) = 2 := by
  constructor <;> decide +kernel

/-! ## C28 -/

/-- **C28** (refines): if one model is reported to refine another, then every function it encloses
is enclosed by the other. -/
theorem C28_refines (n : Nat) (s : Sweeper K) (x y : TM K) (hx : WF n x) (hy : WF n y)
    (hr : refines R s x y = true) (f : List K → K) (hf : Encloses n x f) : Encloses n y f := by
  intro z hz
  have h0 : Encloses n (⟨y.terms, 0⟩ : TM K) (fun z => value (monomial z) y.terms) := by
    intro z _; simp
  have h1 := C24_sub R n s ⟨y.terms, 0⟩ x hy hx _ f h0 hf
  have h2 := C27_norm R n _ _ h1 z hz
  have h3 : norm R (sub R s ⟨y.terms, 0⟩ x) ≤ y.err := by simpa [refines] using hr
  rw [abs_sub_comm]
  exact h2.trans h3

/-- **C28** (inconsistent): if two models are reported inconsistent, no function is enclosed by
both. -/
theorem C28_inconsistent (n : Nat) (x y : TM K) (hx : WF n x) (hy : WF n y)
    (dx : Distinct x.terms) (dy : Distinct y.terms)
    (hr : inconsistent R n x y = true) (f : List K → K) (hf : Encloses n x f) :
    ¬ Encloses n y f := by
  intro hg
  have hz : InBox n (List.replicate n (0 : K)) := ⟨by simp, fun y hy => by
    rw [(List.mem_replicate.1 hy).2]; simp⟩
  have h1 := hf _ hz
  have h2 := hg _ hz
  rw [value_origin n x.terms hx, ← C23_get x.terms dx] at h1
  rw [value_origin n y.terms hy, ← C23_get y.terms dy] at h2
  have h3 := abs_sub_le (get x.terms (List.replicate n 0)) (f (List.replicate n 0))
    (get y.terms (List.replicate n 0))
  rw [abs_sub_comm (get x.terms _) (f _)] at h3
  unfold inconsistent at hr
  replace hr := of_decide_eq_true hr
  simp only [Num.mag, constantTerm] at hr
  generalize get x.terms (List.replicate n 0) - get y.terms (List.replicate n 0) = d at *
  have h4 : |d| ≤ x.err + y.err := h3.trans (add_le_add h1 h2)
  have h5 := abs_le.1 h4
  have h6 : R.up d ≤ R.up (x.err + y.err) := up_mono R h5.2
  have h7 : R.up (-d) ≤ R.up (x.err + y.err) := up_mono R (by linarith)
  rw [up_neg] at h7
  exact absurd hr (not_lt.2 (max_le h7 h6))

theorem refineBall_ok {xv xe yv ye v d z : K} (h : refineBall R xv xe yv ye = some (v, d))
    (hx : |z - xv| ≤ xe) (hy : |z - yv| ≤ ye) : |z - v| ≤ d := by
  unfold refineBall at h
  simp only at h
  split_ifs at h with hlt
  simp only [Option.some.injEq, Prod.mk.injEq] at h
  obtain ⟨rfl, rfl⟩ := h
  rw [abs_le] at hx hy
  apply error_ok
  have a1 := R.down_le (xv - xe)
  have a2 := R.down_le (yv - ye)
  have a3 := R.le_up (xv + xe)
  have a4 := R.le_up (yv + ye)
  exact ⟨max_le (by linarith) (by linarith), le_min (by linarith) (by linarith)⟩

theorem refineBall_ne_none {xv xe yv ye z : K} (hx : |z - xv| ≤ xe) (hy : |z - yv| ≤ ye) :
    refineBall R xv xe yv ye ≠ none := by
  unfold refineBall
  simp only
  rw [abs_le] at hx hy
  have a1 := R.down_le (xv - xe)
  have a2 := R.down_le (yv - ye)
  have a3 := R.le_up (xv + xe)
  have a4 := R.le_up (yv + ye)
  have h1 := error_ok R ⟨max (R.down (xv - xe)) (R.down (yv - ye)),
    min (R.up (xv + xe)) (R.up (yv + ye))⟩ z
    ⟨max_le (by linarith) (by linarith), le_min (by linarith) (by linarith)⟩
  rw [if_neg (not_lt.2 ((abs_nonneg _).trans h1))]
  simp

/-- **C28** (refinement, partial): for constant models, the refinement of two models that enclose a
common function exists and encloses that function.  The statement for arbitrary models is false:
see `C28_refinement_counterexample`. -/
theorem C28_refinement_partial (n : Nat) (xv xe yv ye : K) (f : List K → K)
    (hf : Encloses n ⟨[(List.replicate n 0, xv)], xe⟩ f)
    (hg : Encloses n ⟨[(List.replicate n 0, yv)], ye⟩ f) :
    ∃ r, refinement R ⟨[(List.replicate n 0, xv)], xe⟩ ⟨[(List.replicate n 0, yv)], ye⟩ = some r ∧
      Encloses n r f := by
  have hfz : ∀ z, InBox n z → |f z - xv| ≤ xe := by
    intro z hz; have := hf z hz; simpa [monomial_zero] using this
  have hgz : ∀ z, InBox n z → |f z - yv| ≤ ye := by
    intro z hz; have := hg z hz; simpa [monomial_zero] using this
  have hz0 : InBox n (List.replicate n (0 : K)) := ⟨by simp, fun y hy => by
    rw [(List.mem_replicate.1 hy).2]; simp⟩
  cases hb : refineBall R xv xe yv ye with
  | none => exact absurd hb (refineBall_ne_none R (hfz _ hz0) (hgz _ hz0))
  | some vd =>
    obtain ⟨v, d⟩ := vd
    refine ⟨⟨if v ≠ 0 then [(List.replicate n 0, v)] else [], max 0 d⟩, ?_, ?_⟩
    · unfold refinement
      simp only [List.length_cons, List.length_nil]
      unfold refinementF
      simp only [if_true]
      rw [hb]
      simp only [refinementF]
      by_cases hv : v ≠ 0 <;> simp [hv]
    · intro z hz
      have h1 := refineBall_ok R hb (hfz z hz) (hgz z hz)
      have h2 : value (monomial z) (if v ≠ 0 then [(List.replicate n 0, v)] else []) = v := by
        by_cases hv : v ≠ 0
        · rw [if_pos hv]; simp [monomial_zero]
        · rw [if_neg hv]; simpa using (not_not.1 hv).symm
      simp only
      rw [h2]
      exact h1.trans (le_max_right _ _)

/-- **C28** (refinement) fails: `0±1` and `1+s±1` both enclose `s`, but their refinement
`1/2+s/2±1/2` does not. -/
theorem C28_refinement_counterexample :
    ∃ (R : Rounding ℚ) (x y r : TM ℚ) (f : List ℚ → ℚ), WF 1 x ∧ WF 1 y ∧
      Encloses 1 x f ∧ Encloses 1 y f ∧ refinement R x y = some r ∧ ¬ Encloses 1 r f := by
  refine ⟨Ariadne.PBit.rounding 53 (by norm_num), ⟨[], 1⟩, ⟨[([1], 1), ([0], 1)], 1⟩,
    ⟨[([1], 1 / 2), ([0], 1 / 2)], 1 / 2⟩, fun z => z.headD 0, by simp [WF], by simp [WF],
    ?_, ?_, ?_, ?_⟩
  · intro x hx
    obtain ⟨y, rfl⟩ := List.length_eq_one_iff.1 hx.1
    simpa using hx.2 y (by simp)
  · intro x hx
    obtain ⟨y, rfl⟩ := List.length_eq_one_iff.1 hx.1
    simp [monomial]
  · have : (refinement (Ariadne.PBit.rounding 53 (by norm_num)) (⟨[], 1⟩ : TM ℚ)
        ⟨[([1], 1), ([0], 1)], 1⟩).map (fun r => (r.terms, r.err)) =
        some ([([1], 1 / 2), ([0], 1 / 2)], 1 / 2) := by decide +kernel
    rw [Option.map_eq_some_iff] at this
    obtain ⟨r, h1, h2⟩ := this
    rw [h1]
    cases r
    simp only [Prod.mk.injEq] at h2
    rw [h2.1, h2.2]
  · intro h
    have := h [-1] ⟨rfl, by simp⟩
    simp [monomial] at this
    norm_num at this

/-- Non-vacuity of C28: `s/2±1/4` refines `s/2+1/8±1/2` and is inconsistent with `2±1`. -/
example : refines (Ariadne.PBit.rounding 53 (by norm_num)) trivialSweeper
      (⟨[([1], 1 / 2)], 1 / 4⟩ : TM ℚ) ⟨[([1], 1 / 2), ([0], 1 / 8)], 1 / 2⟩ = true ∧
    inconsistent (Ariadne.PBit.rounding 53 (by norm_num)) 1
      (⟨[([1], 1 / 2)], 1 / 4⟩ : TM ℚ) ⟨[([0], 2)], 1⟩ = true := by
  constructor <;> decide +kernel

end C27

end Verif.TaylorModel
