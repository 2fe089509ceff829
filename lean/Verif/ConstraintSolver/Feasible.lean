import Verif.ConstraintSolver.Props

/-!
# C56: repeated reduction, and the feasibility test
-/

namespace Verif.ConstraintSolver

open Ariadne Ariadne.Logical
open Ariadne.Ext (fin)

variable {n m : ℕ} {K : Type*} [Field K] [LinearOrder K] [IsStrictOrderedRing K]

/-- A bounded box whose end points are floating-point numbers. -/
def RepBox (R : Rounding K) (B : Box n K) : Prop :=
  ∀ i, ∃ a b, B i = ⟨fin a, fin b⟩ ∧ R.Rep a ∧ R.Rep b

variable {R : Rounding K}

theorem rep_near (x : K) : R.Rep (R.near x) := by
  rcases R.near_cases x with h | h <;> rw [h]
  · exact R.rep_down x
  · exact R.rep_up x

theorem rep_eight {x : K} (h : R.Rep x) : R.Rep (x * 8) := by
  have := R.rep_two _ (R.rep_two _ (R.rep_two _ h))
  have e : 2 * (2 * (2 * x)) = x * 8 := by ring
  rwa [e] at this

/-- Without overflow, the cutting points of a bounded interval are good. -/
theorem goodPts_rep {B : Box n K} (h : RepBox R B) (v : Fin n) : GoodPts (.ofRounding R) (B v) := by
  obtain ⟨a, b, e, ha, hb⟩ := h v
  rw [e]
  exact C56_good_points ha hb (rep_eight ha) (rep_eight hb)

theorem affinePt_rep (a b : K) (i : ℕ) :
    ∃ c, affinePt (.ofRounding R) (fin a) (fin b) i 8 = fin c ∧ R.Rep c := by
  simp only [affinePt, Ext.mul, XRounding.ofRounding, Ext.add, Ext.div]
  rw [if_neg (by norm_num)]
  exact ⟨_, rfl, rep_near _⟩

theorem boxReduce_rep {F : Fn n K} {b : Bounds K} {v : Fin n} {B : Box n K} {r : Bool × Box n K}
    (hB : RepBox R B) (h : boxReduce (.ofRounding R) F b v B = some r) (hr : boxEmpty r.2 = false) :
    RepBox R r.2 := by
  obtain ⟨a0, b0, e0, ha0, hb0⟩ := hB v
  rw [boxReduce] at h
  split_ifs at h with h0
  · cases h; exact hB
  simp only at h
  split_ifs at h with h1 h2
  · cases h
    exfalso
    simp only [boxEmpty, List.any_eq_false, List.mem_finRange, true_implies] at hr
    have := hr v
    simp [isEmpty, emptyInterval, Ext.lt] at this
  · cases h
    have key1 : ∀ (k i : ℕ) (lo : Ext K), (∃ c, lo = fin c ∧ R.Rep c) →
        ∃ c, (lowPass (.ofRounding R) F b v B k i lo).2 = fin c ∧ R.Rep c := by
      intro k
      induction k with
      | zero => intro i lo h; exact h
      | succ k ih =>
        intro i lo h
        rw [lowPass]
        split_ifs
        · refine ih _ _ ?_
          rw [e0]
          exact affinePt_rep _ _ _
        · exact h
    have key2 : ∀ (imax k : ℕ) (up : Ext K), (∃ c, up = fin c ∧ R.Rep c) →
        ∃ c, highPass (.ofRounding R) F b v B imax k up = fin c ∧ R.Rep c := by
      intro imax k
      induction k with
      | zero => intro lo h; exact h
      | succ k ih =>
        intro lo h
        rw [highPass]
        split_ifs
        · refine ih _ ?_
          rw [e0]
          exact affinePt_rep _ _ _
        · exact h
    intro i
    by_cases hi : i = v
    · subst hi
      obtain ⟨c, hc1, hc2⟩ := key1 8 0 (B i).l ⟨a0, by rw [e0], ha0⟩
      obtain ⟨d, hd1, hd2⟩ := key2 (lowPass (.ofRounding R) F b i B 8 0 (B i).l).1
        (7 - (lowPass (.ofRounding R) F b i B 8 0 (B i).l).1) (B i).u ⟨b0, by rw [e0], hb0⟩
      exact ⟨c, d, by simp [hc1, hd1], hc2, hd2⟩
    · obtain ⟨a, b, e, ha, hb⟩ := hB i
      exact ⟨a, b, by simpa [hi] using e, ha, hb⟩

theorem boxReduceAll_sound {p : Fin n → K} :
    ∀ (l : List (Fn n K × Bounds K × Fin n)) (B : Box n K) (r : Bool × Box n K),
      (∀ j ∈ l, ∀ B, Mem B p → isEmpty (Bounds.refinement (j.1 B) j.2.1) = false) →
      Mem B p → RepBox R B → boxReduceAll (.ofRounding R) l B = some r →
      r.1 = false ∧ Mem r.2 p ∧ RepBox R r.2 := by
  intro l
  induction l with
  | nil =>
    intro B r _ hp hB h
    simp only [boxReduceAll, Option.some.injEq] at h
    subst h
    exact ⟨rfl, hp, hB⟩
  | cons j l ih =>
    intro B r hl hp hB h
    obtain ⟨F, b, v⟩ := j
    simp only [boxReduceAll, Option.bind_eq_some_iff] at h
    obtain ⟨r1, h1, h2⟩ := h
    obtain ⟨e1, e2⟩ := boxReduce_sound (hl (F, b, v) (by simp)) hp (goodPts_rep hB v) h1
    have e3 := boxEmpty_false e2
    rw [e3, if_neg (by simp)] at h2
    exact ih _ _ (fun j hj => hl j (List.mem_cons_of_mem _ hj)) e2 (boxReduce_rep hB h1 e3) h2

theorem reduceLoop_sound {H : Contractor n K} {cs : List (Fn n K × Bounds K)} {p : Fin n → K}
    (hH : ∀ B, Mem B p → Mem (H B) p)
    (hR : ∀ B, RepBox R B → boxEmpty (H B) = false → RepBox R (H B))
    (hc : ∀ c ∈ cs, ∀ B, Mem B p → isEmpty (Bounds.refinement (c.1 B) c.2) = false) :
    ∀ (fuel : ℕ) (B : Box n K) (mag : Ext K) (r : Bool × Box n K), Mem B p → RepBox R B →
      reduceLoop (.ofRounding R) H cs fuel B mag = some r → r.1 = false ∧ Mem r.2 p := by
  intro fuel
  induction fuel with
  | zero => intro B mag r _ _ h; simp [reduceLoop] at h
  | succ fuel ih =>
    intro B mag r hp hB h
    rw [reduceLoop] at h
    have h1 := boxEmpty_false (hH B hp)
    simp only [h1, Bool.false_eq_true, if_false, Option.bind_eq_some_iff] at h
    obtain ⟨r1, e1, e2⟩ := h
    have hj : ∀ j ∈ jobs cs, ∀ B, Mem B p → isEmpty (Bounds.refinement (j.1 B) j.2.1) = false := by
      intro j hj
      simp only [jobs, List.mem_flatMap, List.mem_map] at hj
      obtain ⟨c, hc1, v, -, rfl⟩ := hj
      exact hc c hc1
    obtain ⟨f1, f2, f3⟩ := boxReduceAll_sound (jobs cs) (H B) r1 hj (hH B hp) (hR B hB h1) e1
    rw [f1, if_neg (by simp), boxEmpty_false f2, if_neg (by simp)] at e2
    split_ifs at e2
    · exact ih _ _ _ f2 f3 e2
    · cases e2; exact ⟨rfl, f2⟩

/-- **C56**: reducing a bounded box with respect to a vector constraint `f(x) ∈ C`, however many rounds
are made, loses no point that satisfies the constraint; and if the value returned is true there is no
such point.  `H` is the hull contractor (C34). -/
theorem C56_reduce {F : Fin m → Fn n K} {f : Fin m → (Fin n → K) → K} {c : Fin m → Bounds K}
    {H : Contractor n K} {B : Box n K} {fuel : ℕ} {r : Bool × Box n K}
    (hF : ∀ j p, EnclosesAt (F j) (f j p) p)
    (hH : ∀ B p, Mem B p → (∀ j, (c j).Contains (f j p)) → Mem (H B) p)
    (hR : ∀ B, RepBox R B → boxEmpty (H B) = false → RepBox R (H B)) (hB : RepBox R B)
    (h : reduce (.ofRounding R) H (List.ofFn fun j => (F j, c j)) fuel B = some r)
    (p : Fin n → K) (hp : Mem B p) (hc : ∀ j, (c j).Contains (f j p)) :
    r.1 = false ∧ Mem r.2 p := by
  rw [reduce, boxEmpty_false hp, if_neg (by simp)] at h
  refine reduceLoop_sound (fun B hp => hH B p hp hc) hR ?_ fuel B _ r hp hB h
  intro d hd
  rw [List.mem_ofFn] at hd
  obtain ⟨j, rfl⟩ := hd
  exact enclosed_not_empty (hF j p) (hc j)

/-- **C56**: the value returned is true exactly if the domain has become empty. -/
theorem C56_reduce_flag {X : XRounding K} {cs : List (Fn n K × Bounds K)} {H : Contractor n K} {B : Box n K}
    {fuel : ℕ} {r : Bool × Box n K} (h : reduce X H cs fuel B = some r) : r.1 = boxEmpty r.2 := by
  have loop : ∀ (fuel : ℕ) (B : Box n K) (mag : Ext K), reduceLoop X H cs fuel B mag = some r →
      r.1 = boxEmpty r.2 := by
    intro fuel
    induction fuel with
    | zero => intro B mag h; simp [reduceLoop] at h
    | succ fuel ih =>
      intro B mag h
      rw [reduceLoop] at h
      by_cases h1 : boxEmpty (H B) = true
      · simp only [h1, if_true, Option.some.injEq] at h
        rw [← h, h1]
      · simp only [Bool.not_eq_true] at h1
        simp only [h1, Bool.false_eq_true, if_false, Option.bind_eq_some_iff] at h
        obtain ⟨q, hq, h⟩ := h
        by_cases h2 : q.1 = true
        · simp only [h2, if_true, Option.some.injEq] at h
          have key : ∀ (l : List (Fn n K × Bounds K × Fin n)) (B : Box n K),
              boxReduceAll X l B = some q → q.1 = true → boxEmpty q.2 = true := by
            intro l
            induction l with
            | nil => intro B e h; simp only [boxReduceAll, Option.some.injEq] at e; rw [← e] at h; simp at h
            | cons c l ih =>
              intro B e h
              obtain ⟨F, b, v⟩ := c
              simp only [boxReduceAll, Option.bind_eq_some_iff] at e
              obtain ⟨s, -, e⟩ := e
              by_cases h3 : boxEmpty s.2 = true
              · simp only [h3, if_true, Option.some.injEq] at e
                rw [← e, h3]
              · simp only [h3, Bool.false_eq_true, if_false] at e
                exact ih _ e h
          rw [← h]
          exact (key _ _ hq h2).symm
        · simp only [h2, Bool.false_eq_true, if_false] at h
          by_cases h3 : boxEmpty q.2 = true
          · simp only [h3, if_true, Option.some.injEq] at h
            rw [← h, h3]
          · simp only [h3, Bool.false_eq_true, if_false] at h
            split_ifs at h
            · exact ih _ _ h
            · simp only [Option.some.injEq] at h
              rw [← h]
              simpa using h3
  rw [reduce] at h
  split_ifs at h with h0
  · simp only [Option.some.injEq] at h
    rw [← h, h0]
  · exact loop _ _ _ h

/-- **C56**: the same for a list of constraints, each with its own contractor. -/
theorem C56_reduce_list {X : XRounding K} {feas : (Fin n → K) → Prop} {Hs : List (Contractor n K)}
    {B : Box n K} {fuel : ℕ} {r : Bool × Box n K}
    (hH : ∀ H ∈ Hs, ∀ B p, Mem B p → feas p → Mem (H B) p)
    (h : reduceList X Hs fuel B = some r) (p : Fin n → K) (hp : Mem B p) (hc : feas p) :
    r.1 = false ∧ Mem r.2 p := by
  have key : ∀ (Hs : List (Contractor n K)), (∀ H ∈ Hs, ∀ B p, Mem B p → feas p → Mem (H B) p) →
      ∀ B, Mem B p → Mem (Hs.foldl (fun D H => H D) B) p := by
    intro Hs
    induction Hs with
    | nil => intro _ B h; exact h
    | cons H Hs ih =>
      intro hs B h
      exact ih (fun H hH => hs H (List.mem_cons_of_mem _ hH)) _ (hs H (by simp) _ _ h hc)
  have loop : ∀ (fuel : ℕ) (B : Box n K) (mag : Ext K) (r : Bool × Box n K), Mem B p →
      reduceListLoop X Hs fuel B mag = some r → r.1 = false ∧ Mem r.2 p := by
    intro fuel
    induction fuel with
    | zero => intro B mag r _ h; simp [reduceListLoop] at h
    | succ fuel ih =>
      intro B mag r hp h
      rw [reduceListLoop] at h
      have h1 := key Hs hH B hp
      rw [boxEmpty_false h1, if_neg (by simp)] at h
      simp only at h
      split_ifs at h
      · exact ih _ _ _ h1 h
      · cases h; exact ⟨rfl, h1⟩
  rw [reduceList, boxEmpty_false hp, if_neg (by simp)] at h
  exact loop _ _ _ _ hp h

/-- The list version makes no progress check other than the total width; contractors that only shrink
give a box inside the given one. -/
theorem C56_reduce_list_contracts {X : XRounding K} {Hs : List (Contractor n K)}
    {B : Box n K} {fuel : ℕ} {r : Bool × Box n K}
    (hH : ∀ H ∈ Hs, ∀ B p, Mem (H B) p → Mem B p)
    (h : reduceList X Hs fuel B = some r) (p : Fin n → K) (hp : Mem r.2 p) : Mem B p := by
  have key : ∀ (Hs : List (Contractor n K)), (∀ H ∈ Hs, ∀ B p, Mem (H B) p → Mem B p) →
      ∀ B, Mem (Hs.foldl (fun D H => H D) B) p → Mem B p := by
    intro Hs
    induction Hs with
    | nil => intro _ B h; exact h
    | cons H Hs ih =>
      intro hs B h
      exact hs H (by simp) _ _ (ih (fun H hH => hs H (List.mem_cons_of_mem _ hH)) _ h)
  have loop : ∀ (fuel : ℕ) (B : Box n K) (mag : Ext K) (r : Bool × Box n K), Mem r.2 p →
      reduceListLoop X Hs fuel B mag = some r → Mem B p := by
    intro fuel
    induction fuel with
    | zero => intro B mag r _ h; simp [reduceListLoop] at h
    | succ fuel ih =>
      intro B mag r hp h
      rw [reduceListLoop] at h
      simp only at h
      split_ifs at h
      · cases h; exact key _ hH _ hp
      · exact key _ hH _ (ih _ _ _ hp h)
      · cases h; exact key _ hH _ hp
  rw [reduceList] at h
  split_ifs at h
  · cases h; exact hp
  · exact loop _ _ _ _ hp h

/-! ## `check_feasibility` -/

/-- The number `y` is strictly between the bounds. -/
def Strictly (X : Bounds K) (y : K) : Prop := ¬ IsLower X.u y ∧ ¬ IsUpper X.l y

theorem checkLoop_true (fy c : Fin m → Bounds K) : ∀ (l : List (Fin m)) (res : LV),
    checkLoop fy c l res = .true_ → res = .true_ ∧
      ∀ j ∈ l, Ext.le (c j).u (fy j).u = false ∧ Ext.le (fy j).l (c j).l = false := by
  intro l
  induction l with
  | nil => intro res h; exact ⟨h, by simp⟩
  | cons j l ih =>
    intro res h
    rw [checkLoop] at h
    split_ifs at h with h1 h2
    · exact absurd (ih _ h).1 (by simp)
    · obtain ⟨e1, e2⟩ := ih _ h
      refine ⟨e1, fun k hk => ?_⟩
      rcases List.mem_cons.1 hk with rfl | hk
      · simpa using h2
      · exact e2 k hk

theorem checkLoop_false (fy c : Fin m → Bounds K) : ∀ (l : List (Fin m)) (res : LV),
    checkLoop fy c l res = .false_ → res ≠ .false_ →
      ∃ j ∈ l, Ext.lt (c j).u (fy j).l = true ∨ Ext.lt (fy j).u (c j).l = true := by
  intro l
  induction l with
  | nil => intro res h h1; exact absurd h h1
  | cons j l ih =>
    intro res h h0
    rw [checkLoop] at h
    split_ifs at h with h1 h2
    · exact ⟨j, by simp, by simpa using h1⟩
    · obtain ⟨k, hk, e⟩ := ih _ h (by simp)
      exact ⟨k, by simp [hk], e⟩
    · obtain ⟨k, hk, e⟩ := ih _ h h0
      exact ⟨k, by simp [hk], e⟩

theorem mem_point (y : Fin n → K) : Mem (fun i => (⟨fin (y i), fin (y i)⟩ : Bounds K)) y :=
  fun _ => ⟨le_rfl, le_rfl⟩

/-- **C56**: `check_feasibility` answers true only if the point is in the domain and its image is
strictly inside the codomain, and false only if the point is outside the domain or its image is
outside the codomain. -/
theorem C56_check_feasibility {d : Box n K} {F : Fin m → Fn n K} {f : Fin m → (Fin n → K) → K}
    {c : Fin m → Bounds K} {y : Fin n → K} (hF : ∀ j, EnclosesAt (F j) (f j y) y)
    (hd : ∀ i, (d i).NoNaN) (hc : ∀ j, (c j).NoNaN) :
    (checkFeasibility d F c y = .true_ → Mem d y ∧ ∀ j, Strictly (c j) (f j y)) ∧
    (checkFeasibility d F c y = .false_ → ¬ (Mem d y ∧ ∀ j, (c j).Contains (f j y))) := by
  have hfy : ∀ j, (F j fun i => ⟨fin (y i), fin (y i)⟩).Contains (f j y) :=
    fun j => hF j _ (mem_point y)
  constructor
  · intro h
    rw [checkFeasibility] at h
    split_ifs at h with h1
    have h2 := (checkLoop_true _ _ _ _ h).2
    simp only [List.any_eq_true, List.mem_finRange, true_and, not_exists, Bool.or_eq_true] at h1
    refine ⟨fun i => ?_, fun j => ?_⟩
    · have h3 := h1 i
      obtain ⟨n1, n2⟩ := hd i
      rw [not_or] at h3
      obtain ⟨h3, h4⟩ := h3
      constructor
      · cases hl : (d i).l <;> rw [hl] at h3 n1 <;> simp [Ext.lt, IsLower] at h3 n1 ⊢
        exact h3
      · cases hl : (d i).u <;> rw [hl] at h4 n2 <;> simp [Ext.lt, IsUpper] at h4 n2 ⊢
        exact h4
    · obtain ⟨h3, h4⟩ := h2 j (List.mem_finRange j)
      obtain ⟨g1, g2⟩ := hfy j
      obtain ⟨n1, n2⟩ := hc j
      constructor
      · intro h5
        revert h3 g2 h5
        cases (c j).u <;> cases (F j fun i => ⟨fin (y i), fin (y i)⟩).u <;>
          simp [Ext.le, IsLower, IsUpper]
        intro a b
        linarith
      · intro h5
        revert h4 g1 h5
        cases (c j).l <;> cases (F j fun i => ⟨fin (y i), fin (y i)⟩).l <;>
          simp [Ext.le, IsLower, IsUpper]
        intro a b
        linarith
  · intro h ⟨hy, hcy⟩
    rw [checkFeasibility] at h
    split_ifs at h with h1
    · simp only [List.any_eq_true, List.mem_finRange, true_and, Bool.or_eq_true] at h1
      obtain ⟨i, h1⟩ := h1
      obtain ⟨g1, g2⟩ := hy i
      rcases h1 with h1 | h1
      · cases hl : (d i).l <;> rw [hl] at h1 g1 <;> simp [Ext.lt, IsLower] at h1 g1
        linarith
      · cases hl : (d i).u <;> rw [hl] at h1 g2 <;> simp [Ext.lt, IsUpper] at h1 g2
        linarith
    · obtain ⟨j, -, h2⟩ := checkLoop_false _ _ _ _ h (by simp)
      have h3 := disjoint_false (hfy j) (hcy j)
      simp only [disjoint, Bool.or_eq_false_iff] at h3
      rcases h2 with h2 | h2
      · rw [h2] at h3; exact absurd h3.1 (by simp)
      · rw [h2] at h3; exact absurd h3.2 (by simp)

theorem contains_of_strictly {X : Bounds K} {y : K} (hX : X.NoNaN) (h : Strictly X y) : X.Contains y :=
  ⟨lower_of_not_upper hX.1 h.2, upper_of_not_lower hX.2 h.1⟩

/-- An equality constraint is never found to be satisfied, whatever the function and the point. -/
theorem C56_check_equality {d : Box n K} {F : Fin m → Fn n K} {f : Fin m → (Fin n → K) → K}
    {c : Fin m → Bounds K} {y : Fin n → K} (hF : ∀ j, EnclosesAt (F j) (f j y) y)
    (hd : ∀ i, (d i).NoNaN) (hc : ∀ j, (c j).NoNaN) (j : Fin m) (hj : (c j).l = (c j).u) :
    checkFeasibility d F c y ≠ .true_ := by
  intro h
  have h1 := ((C56_check_feasibility hF hd hc).1 h).2 j
  have h2 := contains_of_strictly (hc j) h1
  exact h1.1 (hj ▸ h2.1)

/-! ## Splitting -/

/-- A bounded box with floating-point end points in order. -/
def GoodBox (R : Rounding K) (B : Box n K) : Prop :=
  ∀ i, ∃ a b, B i = ⟨fin a, fin b⟩ ∧ R.Rep a ∧ R.Rep b ∧ a ≤ b

theorem GoodBox.rep {B : Box n K} (h : GoodBox R B) : RepBox R B := fun i => by
  obtain ⟨a, b, e, ha, hb, _⟩ := h i
  exact ⟨a, b, e, ha, hb⟩

theorem GoodBox.noNaN {B : Box n K} (h : GoodBox R B) (i : Fin n) : (B i).NoNaN := by
  obtain ⟨a, b, e, -⟩ := h i
  rw [e]
  exact ⟨by simp, by simp⟩

/-- **C56**: the two parts of a box split at any coordinate cover it and are contained in it. -/
theorem C56_split_at {B : Box n K} (h : GoodBox R B) (k : Fin n) :
    GoodBox R (splitAt (.ofRounding R) B k).1 ∧ GoodBox R (splitAt (.ofRounding R) B k).2 ∧
    ∀ p, Mem B p ↔ Mem (splitAt (.ofRounding R) B k).1 p ∨ Mem (splitAt (.ofRounding R) B k).2 p := by
  obtain ⟨a, b, e, ha, hb, hab⟩ := h k
  obtain ⟨v, hv, h1, h2⟩ := Bounds.C08_value_mem R hab ha hb
  have hvr : R.Rep v := by
    have : v = R.near (a + b) / 2 := by
      have h3 : Bounds.value (.ofRounding R) ⟨fin a, fin b⟩ = fin (R.near (a + b) / 2) := rfl
      rw [hv] at h3
      exact Ext.fin.inj h3
    rw [this]
    exact R.rep_half _ (rep_near _)
  simp only [splitAt, e, hv]
  refine ⟨fun i => ?_, fun i => ?_, fun p => ⟨fun hp => ?_, fun hp => ?_⟩⟩
  · by_cases hi : i = k
    · subst hi; exact ⟨a, v, by simp, ha, hvr, h1⟩
    · simpa [hi] using h i
  · by_cases hi : i = k
    · subst hi; exact ⟨v, b, by simp, hvr, hb, h2⟩
    · simpa [hi] using h i
  · have hk := hp k
    rw [e] at hk
    rcases le_total (p k) v with h3 | h3
    · exact Or.inl (mem_update hp ⟨hk.1, h3⟩)
    · exact Or.inr (mem_update hp ⟨h3, hk.2⟩)
  · intro i
    by_cases hi : i = k
    · subst hi
      rw [e]
      rcases hp with hp | hp
      · have := hp i
        simp only [Function.update_self] at this
        exact ⟨this.1, le_trans (show p i ≤ v from this.2) h2⟩
      · have := hp i
        simp only [Function.update_self] at this
        exact ⟨le_trans h1 (show v ≤ p i from this.1), this.2⟩
    · rcases hp with hp | hp <;> simpa [hi] using hp i

/-- **C56**: the two halves of a box cover it and are contained in it. -/
theorem C56_split {B : Box n K} (h : GoodBox R B) {s : Box n K × Box n K}
    (hs : split (.ofRounding R) B = some s) :
    GoodBox R s.1 ∧ GoodBox R s.2 ∧ ∀ p, Mem B p ↔ Mem s.1 p ∨ Mem s.2 p := by
  simp only [split, Option.map_eq_some_iff] at hs
  obtain ⟨k, -, rfl⟩ := hs
  exact C56_split_at h k

theorem irmax_some [NeZero n] (X : XRounding K) (B : Box n K) : ∃ k, irmax X B = some k := by
  have : ∀ (l : List (Fin n)) (r : Option (Fin n)), r.isSome ∨ l ≠ [] →
      (l.foldl (fun r i =>
        match r with
        | none => some i
        | some k => if Ext.lt (width X (B k)) (width X (B i)) then some i else some k) r).isSome := by
    intro l
    induction l with
    | nil => intro r h; simpa using h
    | cons i l ih =>
      intro r _
      refine ih _ (Or.inl ?_)
      cases r with
      | none => rfl
      | some k => simp only; split_ifs <;> rfl
  refine Option.isSome_iff_exists.1 (this _ none (Or.inr ?_))
  simp [NeZero.ne n]

/-! ## `feasible` -/

theorem boxReduceVars_sound {F : Fn n K} {b : Bounds K} {p : Fin n → K}
    (hF : ∀ B, Mem B p → isEmpty (Bounds.refinement (F B) b) = false) :
    ∀ (l : List (Fin n)) (B : Box n K) (r : Bool × Box n K), Mem B p → RepBox R B →
      boxReduceVars (.ofRounding R) F b l B = some r → r.1 = false ∧ Mem r.2 p := by
  intro l
  induction l with
  | nil =>
    intro B r hp _ h
    simp only [boxReduceVars, Option.some.injEq] at h
    subst h
    exact ⟨rfl, hp⟩
  | cons v l ih =>
    intro B r hp hB h
    simp only [boxReduceVars, Option.bind_eq_some_iff] at h
    obtain ⟨r1, h1, h2⟩ := h
    obtain ⟨e1, e2⟩ := boxReduce_sound hF hp (goodPts_rep hB v) h1
    have e3 := boxEmpty_false e2
    rw [e3, if_neg (by simp)] at h2
    exact ih _ _ e2 (boxReduce_rep hB h1 e3) h2

/-- A feasible point: in the domain, with image in the codomain. -/
def Feasible (d : Box n K) (f : Fin m → (Fin n → K) → K) (c : Fin m → Bounds K) (p : Fin n → K) : Prop :=
  Mem d p ∧ ∀ j, (c j).Contains (f j p)

/-- The combined function may be used to prove infeasibility: at a feasible point its evaluation is
never found to be negative, and the contractor does not remove the point. -/
structure DualSound (R : Rounding K) (opt : Box n K → OptResult n m K)
    (txg : Box n K → (Fin ((m + n) * 2) → K) → Fn n K)
    (H : Box n K → (Fin ((m + n) * 2) → K) → Contractor n K)
    (f : Fin m → (Fin n → K) → K) (c : Fin m → Bounds K) : Prop where
  fn : ∀ d x p, GoodBox R d → opt d = .dual x → Feasible d f c p → ∀ B, Mem B p →
    isEmpty (Bounds.refinement (txg d x B) ⟨fin 0, .pinf⟩) = false
  hull : ∀ d x p, GoodBox R d → opt d = .dual x → Feasible d f c p → Mem (H d x d) p
  rep : ∀ d x, GoodBox R d → boxEmpty (H d x d) = false → RepBox R (H d x d)

/-- **C56**: the answer true of the feasibility test is given only if some point of the domain is mapped
strictly inside the codomain, the answer false only if no point of the domain is mapped into it, whatever
the optimiser does and however often the domain is split; and a point returned with the answer true is
such a point. -/
theorem C56_feasible_strict {opt : Box n K → OptResult n m K}
    {txg : Box n K → (Fin ((m + n) * 2) → K) → Fn n K}
    {H : Box n K → (Fin ((m + n) * 2) → K) → Contractor n K}
    {F : Fin m → Fn n K} {f : Fin m → (Fin n → K) → K} {c : Fin m → Bounds K}
    (hF : ∀ j p, EnclosesAt (F j) (f j p) p) (hc : ∀ j, (c j).NoNaN)
    (hD : DualSound R opt txg H f c) :
    ∀ (fuel : ℕ) (d : Box n K) (r : LV × Option (Fin n → K)), GoodBox R d →
      feasible (.ofRounding R) opt txg H F c fuel d = some r →
      (r.1 = .true_ → ∃ p, Mem d p ∧ ∀ j, Strictly (c j) (f j p)) ∧ (r.1 = .false_ → ¬ ∃ p, Feasible d f c p) ∧
      (r.1 = .true_ → ∀ y, r.2 = some y → Mem d y ∧ ∀ j, Strictly (c j) (f j y)) := by
  intro fuel
  induction fuel with
  | zero => intro d r _ h; simp [feasible] at h
  | succ fuel ih =>
    intro d r hd h
    rw [feasible] at h
    split_ifs at h with h0 h1
    · cases h
      refine ⟨by simp, fun _ => ?_, by simp⟩
      rintro ⟨p, hp, hcp⟩
      simp only [List.any_eq_true, List.mem_finRange, true_and, apply_eq hp] at h1
      obtain ⟨i, h1⟩ := h1
      rw [disjoint_false (hF i p d hp) (hcp i)] at h1
      exact absurd h1 (by simp)
    · cases ho : opt d with
      | hit y =>
        rw [ho] at h
        simp only at h
        split_ifs at h with h2
        · cases h
          have h3 := (C56_check_feasibility (fun j => hF j y) hd.noNaN hc).1 h2
          refine ⟨fun _ => ⟨y, h3⟩, by simp, ?_⟩
          rintro - z hz
          cases hz
          exact h3
        · cases h
          exact ⟨by simp, by simp, by simp⟩
      | stuck =>
        rw [ho] at h
        cases h
        exact ⟨by simp, by simp, by simp⟩
      | dual x =>
        rw [ho] at h
        simp only at h
        split_ifs at h with h2
        · cases h
          refine ⟨by simp, fun _ => ?_, by simp⟩
          rintro ⟨p, hp⟩
          rw [boxEmpty_false (hD.hull d x p hd ho hp)] at h2
          exact absurd h2 (by simp)
        · simp only [Option.bind_eq_some_iff] at h
          obtain ⟨r0, e0, h3⟩ := h
          split_ifs at h3 with h4
          · cases h3
            refine ⟨by simp, fun _ => ?_, by simp⟩
            rintro ⟨p, hp⟩
            have h5 := (boxReduceVars_sound (hD.fn d x p hd ho hp) _ _ _ (hD.hull d x p hd ho hp)
              (hD.rep d x hd (by simpa using h2)) e0).1
            rw [h4] at h5
            exact absurd h5 (by simp)
          · simp only [Option.bind_eq_some_iff, Option.map_eq_some_iff] at h3
            obtain ⟨s, hs, r1, e1, r2, e2, rfl⟩ := h3
            obtain ⟨g1, g2, g3⟩ := C56_split hd hs
            obtain ⟨i1, i2, -⟩ := ih _ _ g1 e1
            obtain ⟨j1, j2, -⟩ := ih _ _ g2 e2
            have o1 : ∀ a b : LV, LV.or_ a b = .true_ → a = .true_ ∨ b = .true_ := by
              intro a b; cases a <;> cases b <;> decide
            have o2 : ∀ a b : LV, LV.or_ a b = .false_ → a = .false_ ∧ b = .false_ := by
              intro a b; cases a <;> cases b <;> decide
            refine ⟨fun ht => ?_, fun hf => ?_, by simp⟩
            · rcases o1 _ _ ht with ht | ht
              · obtain ⟨p, hp, hcp⟩ := i1 ht
                exact ⟨p, (g3 p).2 (Or.inl hp), hcp⟩
              · obtain ⟨p, hp, hcp⟩ := j1 ht
                exact ⟨p, (g3 p).2 (Or.inr hp), hcp⟩
            · obtain ⟨hf1, hf2⟩ := o2 _ _ hf
              rintro ⟨p, hp, hcp⟩
              rcases (g3 p).1 hp with hp | hp
              · exact i2 hf1 ⟨p, hp, hcp⟩
              · exact j2 hf2 ⟨p, hp, hcp⟩

/-- **C56**: the answer of the feasibility test is never definitely wrong, whatever the optimiser does
and however often the domain is split; and a point returned with the answer true is feasible. -/
theorem C56_feasible {opt : Box n K → OptResult n m K}
    {txg : Box n K → (Fin ((m + n) * 2) → K) → Fn n K}
    {H : Box n K → (Fin ((m + n) * 2) → K) → Contractor n K}
    {F : Fin m → Fn n K} {f : Fin m → (Fin n → K) → K} {c : Fin m → Bounds K}
    (hF : ∀ j p, EnclosesAt (F j) (f j p) p) (hc : ∀ j, (c j).NoNaN)
    (hD : DualSound R opt txg H f c) :
    ∀ (fuel : ℕ) (d : Box n K) (r : LV × Option (Fin n → K)), GoodBox R d →
      feasible (.ofRounding R) opt txg H F c fuel d = some r →
      (r.1 = .true_ → ∃ p, Feasible d f c p) ∧ (r.1 = .false_ → ¬ ∃ p, Feasible d f c p) ∧
      (r.1 = .true_ → ∀ y, r.2 = some y → Mem d y ∧ ∀ j, Strictly (c j) (f j y)) := by
  intro fuel d r hd h
  obtain ⟨h1, h2, h3⟩ := C56_feasible_strict hF hc hD fuel d r hd h
  refine ⟨fun ht => ?_, h2, h3⟩
  obtain ⟨p, hp, hs⟩ := h1 ht
  exact ⟨p, hp, fun j => contains_of_strictly (hc j) (hs j)⟩

end Verif.ConstraintSolver
