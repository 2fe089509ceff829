import Verif.Paver.Others

/-!
# C71: the pavings are tight

Every point added lies in a cell as fine as was asked for, and near the image of a point of the domain.
-/

namespace Verif.Paver

open Ariadne Ariadne.Logical Ariadne.BinaryTree Verif.ConstraintSolver Verif.FunctionSet
open Ariadne.Ext (fin)
open Verif.Grid (Cell Paving gridMap spaceBox cellSubset)

variable {n m k : ℕ} {K : Type*} [Field K] [LinearOrder K] [IsStrictOrderedRing K] {R : Rounding K}

theorem depth_split (m : ℕ) (c : Cell) (b : Bool) : depth m (c.split b) = depth m c + 1 := by
  simp [depth, Cell.split]
  ring

/-- A cell of the depth asked for has cells of the width asked for. -/
theorem width_depth [NeZero m] {c : Cell} {f : ℕ} (h : depth m c = ((f * m : ℕ) : ℤ)) (j : Fin m) :
    (Grid.Cell.box K m c j).2 - (Grid.Cell.box K m c j).1 = 1 / 2 ^ f := by
  refine Grid.width_finest c.extent f c.word ?_ j
  rw [Grid.treeDepth, Nat.add_mul]
  simp only [depth] at h
  push_cast at h
  zify
  linarith

/-- The lower corner of a box. -/
def corner (B : Box n K) : Fin n → K := fun i => num (B i).l

theorem corner_mem {B : Box n K} (h : GoodBox R B) : Mem B (corner B) := fun i => by
  obtain ⟨u, v, e, -, -, hle⟩ := h i
  simp only [corner, e, num]
  exact ⟨le_refl u, hle⟩

/-- Two intervals not shown to be disjoint. -/
theorem disjoint_fin {a b c d : K} : disjoint (⟨fin a, fin b⟩ : Bounds K) ⟨fin c, fin d⟩ = false ↔ a ≤ d ∧ c ≤ b := by
  simp [disjoint, Ext.lt]

theorem disjointBox_fin {A B : Box m K} {a b c d : Fin m → K} (hA : ∀ i, A i = ⟨fin (a i), fin (b i)⟩)
    (hB : ∀ i, B i = ⟨fin (c i), fin (d i)⟩) (h : disjointBox A B = false) (i : Fin m) : a i ≤ d i ∧ c i ≤ b i := by
  simp only [disjointBox, List.any_eq_false] at h
  have := h i (List.mem_finRange i)
  rw [hA, hB] at this
  exact disjoint_fin.1 (by simpa using this)

theorem ext_max_fin (a b : K) : Ext.max (fin a) (fin b) = fin (max a b) := by
  rw [Ext.max, max_def]
  by_cases h : a < b
  · simp [Ext.lt, h, h.le]
  · rcases (not_lt.1 h).eq_or_lt with e | e
    · subst e; simp [Ext.lt]
    · simp [Ext.lt, h, not_le.2 e]

theorem foldl_max {ι : Type*} (g : ι → Ext K) (v : ι → K) (hg : ∀ i, g i = fin (v i)) : ∀ (is : List ι) (s : K),
    ∃ w, is.foldl (fun r i => Ext.max (g i) r) (fin s) = fin w ∧ s ≤ w ∧ ∀ i ∈ is, v i ≤ w := by
  intro is
  induction is with
  | nil => intro s; exact ⟨s, rfl, le_rfl, by simp⟩
  | cons i is ih =>
    intro s
    obtain ⟨w, h1, h2, h3⟩ := ih (max (v i) s)
    refine ⟨w, ?_, (le_max_right _ _).trans h2, ?_⟩
    · rw [List.foldl_cons, ← h1, hg, ext_max_fin]
    · intro j hj
      rcases List.mem_cons.1 hj with rfl | hj
      exacts [(le_max_left _ _).trans h2, h3 j hj]

theorem foldl_max' {ι : Type*} (g : ι → Ext K) (v : ι → K) (hg : ∀ i, g i = fin (v i)) : ∀ (is : List ι) (s : K),
    ∃ w, is.foldl (fun r i => Ext.max r (g i)) (fin s) = fin w ∧ s ≤ w ∧ ∀ i ∈ is, v i ≤ w := by
  intro is
  induction is with
  | nil => intro s; exact ⟨s, rfl, le_rfl, by simp⟩
  | cons i is ih =>
    intro s
    obtain ⟨w, h1, h2, h3⟩ := ih (max s (v i))
    refine ⟨w, ?_, (le_max_left _ _).trans h2, ?_⟩
    · rw [List.foldl_cons, ← h1, hg, ext_max_fin]
    · intro j hj
      rcases List.mem_cons.1 hj with rfl | hj
      exacts [(le_max_right _ _).trans h2, h3 j hj]

/-- The radius of a bounded interval is at least half its width. -/
theorem radius_fin (a b : K) : ∃ r, VSet.radius (.ofRounding R) (⟨fin a, fin b⟩ : Bounds K) = fin r ∧ b - a ≤ 2 * r := by
  obtain ⟨v, hv⟩ : ∃ v, Bounds.value (.ofRounding R) (⟨fin a, fin b⟩ : Bounds K) = fin v := by
    simp [Bounds.value, Ext.add, Ext.hlf, XRounding.ofRounding]
  refine ⟨max (R.up (b - v)) (R.up (v - a)), ?_, ?_⟩
  · rw [VSet.radius, hv, ← ext_max_fin]
    simp [Ext.sub, Ext.neg, Ext.add, XRounding.ofRounding, sub_eq_add_neg]
  · have h1 := R.le_up (b - v)
    have h2 := R.le_up (v - a)
    have h3 := le_max_left (R.up (b - v)) (R.up (v - a))
    have h4 := le_max_right (R.up (b - v)) (R.up (v - a))
    linarith

theorem boxRadius_fin [NeZero m] {B : Box m K} {a b : Fin m → K} (h : ∀ i, B i = ⟨fin (a i), fin (b i)⟩) :
    ∃ r, boxRadius R B = fin r ∧ ∀ i, b i - a i ≤ 2 * r := by
  choose v h1 h2 using fun i => radius_fin (R := R) (a i) (b i)
  obtain ⟨w, g1, -, g3⟩ := foldl_max' (fun i => VSet.radius (.ofRounding R) (B i)) v (fun i => by rw [h, h1])
    (List.finRange m) (v 0)
  refine ⟨w, ?_, fun i => (h2 i).trans ?_⟩
  · rw [boxRadius, ← g1, h 0, h1]
  · linarith [g3 i (List.mem_finRange i)]

theorem scaledWidth_fin {l : Fin m → K} (hl : ∀ j, 0 < l j) {B : Box m K} {a b : Fin m → K}
    (h : ∀ i, B i = ⟨fin (a i), fin (b i)⟩) :
    ∃ w, maximumScaledWidth R B l = fin w ∧ ∀ i, b i - a i ≤ w * l i := by
  obtain ⟨w, g1, -, g3⟩ := foldl_max
    (fun i => Ext.div (XRounding.ofRounding R).up (width (.ofRounding R) (B i)) (fin (l i)))
    (fun i => R.up (R.up (b i - a i) / l i)) (fun i => by
      simp [h, width, Ext.sub, Ext.neg, Ext.add, XRounding.ofRounding, sub_eq_add_neg, Ext.div, (hl i).ne'])
    (List.finRange m) 0
  refine ⟨w, g1, fun i => ?_⟩
  have h1 := R.le_up (b i - a i)
  have h2 := (R.le_up (R.up (b i - a i) / l i)).trans (g3 i (List.mem_finRange i))
  exact h1.trans ((div_le_iff₀ (hl i)).1 h2)

/-! ## The constraint paver -/

section
variable [NeZero m] {o l : Fin m → K}

/-- The cells added by the constraint paver. -/
theorem constraintRec_tight {P : Problem n m k K} (hφ : ∀ j, Monotone (gridMap R o l j)) {rc : Box k K}
    {fineness : ℕ} : ∀ (fuel : ℕ) (p : Paving) (B : Box n K) (c : Cell) (q : Paving), p.WF → GoodBox R B →
      constraintRec R o l P rc fineness fuel p B c = some q →
      q.WF ∧ ∀ y ∈ q.closed (gridMap R o l), y ∈ p.closed (gridMap R o l) ∨
        ∃ c' B', y ∈ cellSet (gridMap R o l) c' ∧ cellSet (gridMap R o l) c' ⊆ cellSet (gridMap R o l) c ∧
          depth m c' = max (depth m c) ((fineness * m : ℕ) : ℤ) ∧ GoodBox R B' ∧ (∀ x, Mem B' x → Mem B x) ∧
          disjointBox (image P.f B') (cellBox (gridMap R o l) c') = false ∧ disjointBox (image P.g B') rc = false ∧
          Ext.lt (boxRadius R (cellBox (gridMap R o l) c')) (boxRadius R (image P.f B')) = false := by
  intro fuel
  induction fuel with
  | zero => intro p B c q _ _ h; simp [constraintRec] at h
  | succ fuel ih =>
    intro p B c q hp hB h
    rw [constraintRec] at h
    split_ifs at h with h1 h2 h3 h4
    · cases h
      exact ⟨hp, fun y hy => Or.inl hy⟩
    · cases h
      exact ⟨hp, fun y hy => Or.inl hy⟩
    · simp only [Option.bind_eq_some_iff] at h
      obtain ⟨s, hs, p', h7, h8⟩ := h
      obtain ⟨s1, s2, s3⟩ := C56_split hB hs
      obtain ⟨a1, a2⟩ := ih p _ c p' hp s1 h7
      obtain ⟨b1, b2⟩ := ih p' _ c q a1 s2 h8
      refine ⟨b1, fun y hy => ?_⟩
      rcases b2 y hy with hy | ⟨c', B', e1, e2, e3, e4, e5, e6⟩
      · rcases a2 y hy with hy | ⟨c', B', e1, e2, e3, e4, e5, e6⟩
        · exact Or.inl hy
        · exact Or.inr ⟨c', B', e1, e2, e3, e4, fun x hx => (s3 x).2 (Or.inl (e5 x hx)), e6⟩
      · exact Or.inr ⟨c', B', e1, e2, e3, e4, fun x hx => (s3 x).2 (Or.inr (e5 x hx)), e6⟩
    · obtain ⟨a1, a2⟩ := adjoinCell_closed hφ hp h
      refine ⟨a1, fun y hy => ?_⟩
      rw [a2] at hy
      rcases hy with hy | hy
      · exact Or.inl hy
      · simp only [Bool.or_eq_true, not_or, Bool.not_eq_true] at h2
        exact Or.inr ⟨c, B, hy, subset_rfl, (max_eq_left h4).symm, hB, fun _ hx => hx, h2.1, h2.2, by simpa using h3⟩
    · simp only [Option.bind_eq_some_iff] at h
      obtain ⟨p', h7, h8⟩ := h
      obtain ⟨a1, a2⟩ := ih p _ _ p' hp hB h7
      obtain ⟨b1, b2⟩ := ih p' _ _ q a1 hB h8
      have hd : ∀ b, max (depth m (c.split b)) ((fineness * m : ℕ) : ℤ) = max (depth m c) ((fineness * m : ℕ) : ℤ) := by
        intro b
        rw [depth_split, max_eq_right (by omega), max_eq_right (by omega)]
      refine ⟨b1, fun y hy => ?_⟩
      rcases b2 y hy with hy | ⟨c', B', e1, e2, e3, e4⟩
      · rcases a2 y hy with hy | ⟨c', B', e1, e2, e3, e4⟩
        · exact Or.inl hy
        · exact Or.inr ⟨c', B', e1, by rw [cellSet_split hφ c]; exact e2.trans Set.subset_union_left, by rw [e3, hd], e4⟩
      · exact Or.inr ⟨c', B', e1, by rw [cellSet_split hφ c]; exact e2.trans Set.subset_union_right, by rw [e3, hd], e4⟩

theorem rootCell_depth {fuel : ℕ} {B : Box m K} {c : Cell} (h : rootCell R o l fuel B = some c) : depth m c ≤ 0 := by
  rw [rootCell] at h
  split_ifs at h
  · cases h; simp [depth]
  · simp only [Option.bind_eq_some_iff, Option.map_eq_some_iff] at h
    obtain ⟨_, _, e, _, rfl⟩ := h
    simp only [depth, List.length_nil]
    push_cast
    nlinarith [Int.natCast_nonneg e, Int.natCast_nonneg m]

/-- **C71**: every point added by the constraint paver lies in a cell whose sides are `1/2^fineness` units of the
grid, and within four radii of this cell of the image of a point of the domain, in a part of the domain on which
the constraints may hold. -/
theorem C71_constraint_tight [Archimedean K] {P : Problem n m k K} (hP : Sound R P) (hl : ∀ j, 0 < l j)
    (hfin : ∀ i B, GoodBox R B → ∃ a b, (P.f i).ev B = ⟨fin a, fin b⟩) {gfuel fineness fuel : ℕ} {p q : Paving}
    (hp : p.WF) {d : Box n K} (hd : GoodBox R d) (h : constraintPaver R o l gfuel P fineness fuel p d = some q)
    {y : Fin m → K} (hy : y ∈ q.closed (gridMap R o l)) (hn : y ∉ p.closed (gridMap R o l)) :
    ∃ (c : Cell) (x : Fin n → K) (B : Box n K) (ρ : K), y ∈ cellSet (gridMap R o l) c ∧
      (∀ j, (Grid.Cell.box K m c j).2 - (Grid.Cell.box K m c j).1 = 1 / 2 ^ fineness) ∧
      Mem d x ∧ Mem B x ∧ (∀ z, Mem B z → Mem d z) ∧ disjointBox (image P.g B) (reducedCodomain R P d) = false ∧
      boxRadius R (cellBox (gridMap R o l) c) = fin ρ ∧ ∀ j, |y j - vval P.f x j| ≤ 4 * ρ := by
  have hφ := Grid.gridMap_mono R o l fun j => (hl j).le
  simp only [constraintPaver, Option.bind_eq_some_iff] at h
  obtain ⟨b, h1, h2⟩ := h
  rcases (constraintRec_tight hφ fuel p d b q hp hd h2).2 y hy with h | ⟨c, B, e1, -, e3, e4, e5, e6, e7, e8⟩
  · exact absurd h hn
  have hx := corner_mem e4
  choose a b' hab using fun i => hfin i B e4
  have him : ∀ i, image P.f B i = ⟨fin (a i), fin (b' i)⟩ := fun i => by rw [image, apply_eq hx, hab]
  obtain ⟨ρ, r1, r2⟩ := boxRadius_fin (R := R) (B := cellBox (gridMap R o l) c) fun i => rfl
  obtain ⟨σ, t1, t2⟩ := boxRadius_fin (R := R) him
  have hle : σ ≤ ρ := by
    rw [r1, t1] at e8
    simpa [Ext.lt] using e8
  refine ⟨c, corner B, B, ρ, e1, width_depth ?_, e5 _ hx, hx, e5, e7, r1, fun j => ?_⟩
  · rw [e3, max_eq_right]
    exact (rootCell_depth h1).trans (by positivity)
  · obtain ⟨g1, g2⟩ := disjointBox_fin him (fun i => rfl) e6 j
    have g3 := image_mem hP.fOk hx j
    rw [him] at g3
    obtain ⟨g3, g4⟩ := g3
    obtain ⟨g5, g6⟩ := (mem_cellBox.2 e1) j
    simp only [cellBox, IsLower, IsUpper] at g3 g4 g5 g6
    have := r2 j
    have := t2 j
    rw [abs_le]
    constructor <;> linarith

/-! ## The paver by contraction -/

/-- The contractors only remove points. -/
structure Contracts (R : Rounding K) (P : Problem n m k K) : Prop where
  pts : ∀ a b, R.Rep a → R.Rep b → a ≤ b → MonoPts (.ofRounding R) (⟨fin a, fin b⟩ : Bounds K)
  hull : ∀ F b B x, Mem (P.hull F b B) x → Mem B x

omit [NeZero m] in
theorem good_of_rep {B : Box n K} (h : RepBox R B) (he : boxEmpty B = false) : GoodBox R B := fun i => by
  obtain ⟨a, b, e, ha, hb⟩ := h i
  refine ⟨a, b, e, ha, hb, ?_⟩
  by_contra hc
  rw [boxEmpty, List.any_eq_false] at he
  exact he i (List.mem_finRange i) (by rw [e, ConstraintSolver.isEmpty_iff]; exact not_le.1 hc)

omit [NeZero m] in
theorem boxReduceAll_contracts (hm : ∀ a b, R.Rep a → R.Rep b → a ≤ b → MonoPts (.ofRounding R) (⟨fin a, fin b⟩ : Bounds K)) :
    ∀ (js : List (Fn n K × Bounds K × Fin n)) (B : Box n K) (r : Bool × Box n K), GoodBox R B →
      boxReduceAll (.ofRounding R) js B = some r → r.1 = false → GoodBox R r.2 ∧ ∀ x, Mem r.2 x → Mem B x := by
  intro js
  induction js with
  | nil => intro B r hB h _; cases h; exact ⟨hB, fun _ hx => hx⟩
  | cons j js ih =>
    obtain ⟨F, b, v⟩ := j
    intro B r hB h hr
    simp only [boxReduceAll, Option.bind_eq_some_iff] at h
    obtain ⟨s, h1, h2⟩ := h
    split_ifs at h2 with h3
    · cases h2; cases hr
    obtain ⟨a', b', e, ha, hb, hab⟩ := hB v
    obtain ⟨s', g1, g2⟩ := C56_box_reduce_contracts (F := F) (b := b) (v := v) (B := B) (by rw [e]; exact hm _ _ ha hb hab)
    rw [h1] at g1
    cases g1
    obtain ⟨t1, t2⟩ := ih s.2 r (good_of_rep (boxReduce_rep hB.rep h1 (by simpa using h3)) (by simpa using h3)) h2 hr
    exact ⟨t1, fun x hx => g2 x (t2 x hx)⟩

omit [NeZero m] in
theorem hullPass_contracts {P : Problem n m k K} (hP : Sound R P) (hc : Contracts R P) :
    ∀ (cs : List (Func n K × Bounds K)) (B : Box n K), GoodBox R B → (hullPass P.hull cs B).1 = false →
      GoodBox R (hullPass P.hull cs B).2 ∧ ∀ x, Mem (hullPass P.hull cs B).2 x → Mem B x := by
  intro cs
  induction cs with
  | nil => intro B hB _; exact ⟨hB, fun _ hx => hx⟩
  | cons c cs ih =>
    intro B hB h
    simp only [hullPass] at h ⊢
    split_ifs at h ⊢ with h3
    obtain ⟨t1, t2⟩ := ih _ (good_of_rep (hP.hullRep _ _ B hB.rep (by simpa using h3)) (by simpa using h3)) h
    exact ⟨t1, fun x hx => hc.hull _ _ _ _ (t2 x hx)⟩

omit [NeZero m] in
theorem hullLoop_contracts {P : Problem n m k K} (hP : Sound R P) (hc : Contracts R P)
    (cs : List (Func n K × Bounds K)) : ∀ (fuel : ℕ) (B : Box n K) (w : Ext K) (r : Bool × Box n K), GoodBox R B →
      hullLoop R P.hull cs fuel B w = some r → r.1 = false → GoodBox R r.2 ∧ ∀ x, Mem r.2 x → Mem B x := by
  intro fuel
  induction fuel with
  | zero => intro B w r _ h; simp [hullLoop] at h
  | succ fuel ih =>
    intro B w r hB h hr
    simp only [hullLoop] at h
    by_cases h1 : (hullPass P.hull cs B).1 = true
    · rw [if_pos h1] at h
      cases h
      rw [h1] at hr
      cases hr
    rw [if_neg h1] at h
    obtain ⟨g1, g2⟩ := hullPass_contracts hP hc cs B hB (by simpa using h1)
    split_ifs at h with h3
    · obtain ⟨t1, t2⟩ := ih _ _ r g1 h hr
      exact ⟨t1, fun x hx => g2 x (t2 x hx)⟩
    · cases h
      exact ⟨g1, g2⟩

omit [NeZero m] in
theorem contract_contracts {P : Problem n m k K} (hP : Sound R P) (hc : Contracts R P) {b : Box m K} {fuel : ℕ}
    {B : Box n K} (hB : GoodBox R B) {r : Bool × Box n K} (h : contract R P b fuel B = some r) (hr : r.1 = false) :
    GoodBox R r.2 ∧ ∀ x, Mem r.2 x → Mem B x := by
  simp only [contract, Option.bind_eq_some_iff] at h
  obtain ⟨s, h1, h2⟩ := h
  by_cases h3 : s.1 = true
  · rw [if_pos h3] at h2
    cases h2
    rw [h3] at hr
    cases hr
  rw [if_neg h3] at h2
  obtain ⟨g1, g2⟩ := boxReduceAll_contracts hc.pts _ B s hB h1 (by simpa using h3)
  obtain ⟨t1, t2⟩ := hullLoop_contracts hP hc _ fuel s.2 _ r g1 h2 hr
  exact ⟨t1, fun x hx => g2 x (t2 x hx)⟩

/-- The cells added by the paver by contraction. -/
theorem reduceRec_tight {P : Problem n m k K} (hP : Sound R P) (hcon : Contracts R P)
    (hφ : ∀ j, Monotone (gridMap R o l j)) {md : ℤ} :
    ∀ (fuel : ℕ) (p : Paving) (B : Box n K) (c : Cell) (q : Paving), p.WF → GoodBox R B →
      reduceRec R o l P md fuel p B c = some q →
      q.WF ∧ ∀ y ∈ q.closed (gridMap R o l), y ∈ p.closed (gridMap R o l) ∨
        ∃ c' B', y ∈ cellSet (gridMap R o l) c' ∧ cellSet (gridMap R o l) c' ⊆ cellSet (gridMap R o l) c ∧
          depth m c' = max (depth m c) md ∧ GoodBox R B' ∧ (∀ x, Mem B' x → Mem B x) ∧
          disjointBox (image P.f B') (cellBox (gridMap R o l) c') = false ∧ disjointBox P.c (image P.g B') = false ∧
          Ext.lt (maximumScaledWidth R (cellBox (gridMap R o l) c') l) (maximumScaledWidth R (image P.f B') l) = false := by
  intro fuel
  induction fuel with
  | zero => intro p B c q _ _ h; simp [reduceRec] at h
  | succ fuel ih =>
    intro p B c q hp hB h
    rw [reduceRec] at h
    by_cases h1 : cellSubset m c p.sub = true
    · rw [if_pos h1] at h
      cases h
      exact ⟨hp, fun y hy => Or.inl hy⟩
    rw [if_neg h1] at h
    simp only [Option.bind_eq_some_iff] at h
    obtain ⟨r, h2, h⟩ := h
    by_cases h3 : r.1 = true
    · rw [if_pos h3] at h
      cases h
      exact ⟨hp, fun y hy => Or.inl hy⟩
    rw [if_neg h3] at h
    obtain ⟨k1, k2⟩ := contract_contracts hP hcon hB h2 (by simpa using h3)
    split_ifs at h with h4 h5 h6
    · cases h
      exact ⟨hp, fun y hy => Or.inl hy⟩
    · simp only [Option.bind_eq_some_iff] at h
      obtain ⟨j, -, p', h7, h8⟩ := h
      obtain ⟨s1, s2, s3⟩ := C56_split_at k1 j
      obtain ⟨a1, a2⟩ := ih p _ c p' hp s1 h7
      obtain ⟨b1, b2⟩ := ih p' _ c q a1 s2 h8
      refine ⟨b1, fun y hy => ?_⟩
      rcases b2 y hy with hy | ⟨c', B', e1, e2, e3, e4, e5, e6⟩
      · rcases a2 y hy with hy | ⟨c', B', e1, e2, e3, e4, e5, e6⟩
        · exact Or.inl hy
        · exact Or.inr ⟨c', B', e1, e2, e3, e4, fun x hx => k2 x ((s3 x).2 (Or.inl (e5 x hx))), e6⟩
      · exact Or.inr ⟨c', B', e1, e2, e3, e4, fun x hx => k2 x ((s3 x).2 (Or.inr (e5 x hx))), e6⟩
    · obtain ⟨a1, a2⟩ := adjoinCell_closed hφ hp h
      refine ⟨a1, fun y hy => ?_⟩
      rw [a2] at hy
      rcases hy with hy | hy
      · exact Or.inl hy
      · simp only [Bool.or_eq_true, not_or, Bool.not_eq_true] at h4
        simp only [splitsDomain, Bool.or_eq_true, not_or, Bool.and_eq_true, not_and, decide_eq_true_eq] at h5
        exact Or.inr ⟨c, r.2, hy, subset_rfl, (max_eq_left h6).symm, k1, k2, h4.1, h4.2, by simpa using h5.2 h6⟩
    · simp only [Option.bind_eq_some_iff] at h
      obtain ⟨p', h7, h8⟩ := h
      obtain ⟨a1, a2⟩ := ih p _ _ p' hp k1 h7
      obtain ⟨b1, b2⟩ := ih p' _ _ q a1 k1 h8
      have hd : ∀ b, max (depth m (c.split b)) md = max (depth m c) md := by
        intro b
        rw [depth_split, max_eq_right (by omega), max_eq_right (by omega)]
      refine ⟨b1, fun y hy => ?_⟩
      rcases b2 y hy with hy | ⟨c', B', e1, e2, e3, e4, e5, e6⟩
      · rcases a2 y hy with hy | ⟨c', B', e1, e2, e3, e4, e5, e6⟩
        · exact Or.inl hy
        · exact Or.inr ⟨c', B', e1, by rw [cellSet_split hφ c]; exact e2.trans Set.subset_union_left, by rw [e3, hd], e4,
            fun x hx => k2 x (e5 x hx), e6⟩
      · exact Or.inr ⟨c', B', e1, by rw [cellSet_split hφ c]; exact e2.trans Set.subset_union_right, by rw [e3, hd], e4,
          fun x hx => k2 x (e5 x hx), e6⟩

/-- **C71**: every point added by the paver by contraction lies in a cell whose sides are `1/2^fineness` units of
the grid, and is as near to the image of a point of the domain as the scaled width of this cell allows; this point
is in a part of the domain on which the constraints may hold. -/
theorem C71_reduce_tight [Archimedean K] {P : Problem n m k K} (hP : Sound R P) (hcon : Contracts R P)
    (hl : ∀ j, 0 < l j) (hfin : ∀ i B, GoodBox R B → ∃ a b, (P.f i).ev B = ⟨fin a, fin b⟩)
    {gfuel fineness fuel : ℕ} {p q : Paving} (hp : p.WF) {d : Box n K} (hd : GoodBox R d)
    (h : reducePaver R o l gfuel P fineness fuel p d = some q)
    {y : Fin m → K} (hy : y ∈ q.closed (gridMap R o l)) (hn : y ∉ p.closed (gridMap R o l)) :
    ∃ (c : Cell) (x : Fin n → K) (B : Box n K) (w : K), y ∈ cellSet (gridMap R o l) c ∧
      (∀ j, (Grid.Cell.box K m c j).2 - (Grid.Cell.box K m c j).1 = 1 / 2 ^ fineness) ∧
      Mem d x ∧ Mem B x ∧ (∀ z, Mem B z → Mem d z) ∧ disjointBox P.c (image P.g B) = false ∧
      maximumScaledWidth R (cellBox (gridMap R o l) c) l = fin w ∧ ∀ j, |y j - vval P.f x j| ≤ 2 * w * l j := by
  have hφ := Grid.gridMap_mono R o l fun j => (hl j).le
  simp only [reducePaver, Option.bind_eq_some_iff, Option.map_eq_some_iff] at h
  obtain ⟨b, h1, q', h2, rfl⟩ := h
  obtain ⟨g1, g2⟩ := reduceRec_tight hP hcon hφ fuel p d b q' hp hd h2
  rw [(recombine_closed hφ g1).2] at hy
  rcases g2 y hy with h | ⟨c, B, e1, -, e3, e4, e5, e6, e7, e8⟩
  · exact absurd h hn
  have hx := corner_mem e4
  choose a b' hab using fun i => hfin i B e4
  have him : ∀ i, image P.f B i = ⟨fin (a i), fin (b' i)⟩ := fun i => by rw [image, apply_eq hx, hab]
  obtain ⟨ρ, r1, r2⟩ := scaledWidth_fin (R := R) hl (B := cellBox (gridMap R o l) c) fun i => rfl
  obtain ⟨σ, t1, t2⟩ := scaledWidth_fin (R := R) hl him
  have hle : σ ≤ ρ := by
    rw [r1, t1] at e8
    simpa [Ext.lt] using e8
  refine ⟨c, corner B, B, ρ, e1, width_depth ?_, e5 _ hx, hx, e5, e7, r1, fun j => ?_⟩
  · rw [e3, max_eq_right]
    exact (rootCell_depth h1).trans (by positivity)
  · obtain ⟨g1, g2⟩ := disjointBox_fin him (fun i => rfl) e6 j
    have g3 := image_mem hP.fOk hx j
    rw [him] at g3
    obtain ⟨g3, g4⟩ := g3
    obtain ⟨g5, g6⟩ := (mem_cellBox.2 e1) j
    simp only [cellBox, IsLower, IsUpper] at g3 g4 g5 g6
    have := r2 j
    have := t2 j
    have := mul_le_mul_of_nonneg_right hle (hl j).le
    rw [abs_le]
    constructor <;> linarith

end

end Verif.Paver
