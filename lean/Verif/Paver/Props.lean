import Verif.Paver.Cells

/-!
# C71: the pavers cover the set
-/

namespace Verif.Paver

open Ariadne Ariadne.Logical Ariadne.BinaryTree Verif.ConstraintSolver Verif.FunctionSet
open Ariadne.Ext (fin)
open Verif.Grid (Cell Paving gridMap spaceBox cellSubset)

variable {n m k : ℕ} {K : Type*} [Field K] [LinearOrder K] [IsStrictOrderedRing K] {R : Rounding K}

/-! ## Specification -/

/-- The set to be covered: the images of the points of the domain at which the constraints hold. -/
def target (P : Problem n m k K) (d : Box n K) : Set (Fin m → K) :=
  {y | ∃ x, Mem d x ∧ (∀ i, (P.c i).Contains ((P.g i).val x)) ∧ vval P.f x = y}

/-- The interval evaluations enclose the values and have floating-point bounds, and `hull_reduce` removes no
solution and gives floating-point boxes. -/
structure Sound (R : Rounding K) (P : Problem n m k K) : Prop where
  fOk : ∀ i, (P.f i).Ok
  gOk : ∀ i, (P.g i).Ok
  fRep : ∀ i B a b, RepBox R B → (P.f i).ev B = ⟨fin a, fin b⟩ → R.Rep a ∧ R.Rep b
  hullMem : ∀ F b B x, Mem B x → b.Contains (F.val x) → Mem (P.hull F b B) x
  hullRep : ∀ F b B, RepBox R B → boxEmpty (P.hull F b B) = false → RepBox R (P.hull F b B)

theorem image_mem {f : Fin m → Func n K} (hf : ∀ i, (f i).Ok) {B : Box n K} {x : Fin n → K} (hx : Mem B x) :
    Mem (image f B) (vval f x) := fun i => by
  rw [image, apply_eq hx]
  exact hf i x B hx

theorem finBox_some {B : Box m K} {b : Grid.Box K m} (h : finBox B = some b) (j : Fin m) :
    B j = ⟨fin (b j).1, fin (b j).2⟩ := by
  rw [finBox] at h
  split_ifs at h with h1
  cases h
  have := List.all_eq_true.1 h1 j (List.mem_finRange j)
  rcases e : B j with ⟨a, b⟩
  rw [e] at this
  cases a <;> cases b <;> simp [num, e] at this ⊢

variable [NeZero m] {o l : Fin m → K}

theorem allEmpty_false {B : Box m K} {y : Fin m → K} (h : Mem B y) : allEmpty B = false := by
  by_contra hc
  have h1 := List.all_eq_true.1 (Bool.not_eq_false _ ▸ hc : allEmpty B = true) 0 (List.mem_finRange 0)
  have h2 := h 0
  rcases e : B 0 with ⟨a, b⟩
  rw [e] at h1 h2
  cases a <;> cases b <;> simp [Bounds.Contains, IsLower, IsUpper] at h1 h2

theorem rootCell_sound [Archimedean K] (hl : ∀ j, 0 < l j) {f : Fin m → Func n K} (hf : ∀ i, (f i).Ok)
    (hr : ∀ i B a b, RepBox R B → (f i).ev B = ⟨fin a, fin b⟩ → R.Rep a ∧ R.Rep b) {d : Box n K} (hd : RepBox R d)
    {fuel : ℕ} {b : Cell} (h : rootCell R o l fuel (image f d) = some b) {x : Fin n → K} (hx : Mem d x) :
    vval f x ∈ cellSet (gridMap R o l) b := by
  rw [rootCell, allEmpty_false (image_mem hf hx), if_neg (by simp)] at h
  simp only [Option.bind_eq_some_iff, Option.map_eq_some_iff] at h
  obtain ⟨B, h1, e, h2, rfl⟩ := h
  have h3 := finBox_some h1
  refine enclosing_sound hl (fun j => ?_) h2 fun j => ?_
  · have := h3 j
    rw [image, apply_eq hx] at this
    exact hr j d _ _ hd this
  · have := image_mem hf hx j
    rw [h3 j] at this
    exact this

omit [NeZero m] in
theorem disjointBox_false {A B : Box m K} {y : Fin m → K} (hA : Mem A y) (hB : Mem B y) : disjointBox A B = false := by
  simp only [disjointBox, List.any_eq_false]
  intro i _
  simp [disjoint_false (hA i) (hB i)]

/-! ## The paver by contraction -/

omit [NeZero m] in
theorem hullPass_sound {hull : Func n K → Bounds K → Contractor n K} {x : Fin n → K} :
    ∀ (cs : List (Func n K × Bounds K)), (∀ c ∈ cs, ∀ B, Mem B x → Mem (hull c.1 c.2 B) x) →
      (∀ c ∈ cs, ∀ B, RepBox R B → boxEmpty (hull c.1 c.2 B) = false → RepBox R (hull c.1 c.2 B)) →
      ∀ B, Mem B x → RepBox R B → (hullPass hull cs B).1 = false ∧ Mem (hullPass hull cs B).2 x ∧
        RepBox R (hullPass hull cs B).2 := by
  intro cs
  induction cs with
  | nil => intro _ _ B hx hB; exact ⟨rfl, hx, hB⟩
  | cons c cs ih =>
    intro h1 h2 B hx hB
    have g := h1 c List.mem_cons_self B hx
    simp only [hullPass, boxEmpty_false g, Bool.false_eq_true, if_false]
    exact ih (fun c hc => h1 c (List.mem_cons_of_mem _ hc)) (fun c hc => h2 c (List.mem_cons_of_mem _ hc)) _ g
      (h2 c List.mem_cons_self B hB (boxEmpty_false g))

omit [NeZero m] in
theorem hullLoop_sound {hull : Func n K → Bounds K → Contractor n K} {x : Fin n → K}
    (cs : List (Func n K × Bounds K)) (h1 : ∀ c ∈ cs, ∀ B, Mem B x → Mem (hull c.1 c.2 B) x)
    (h2 : ∀ c ∈ cs, ∀ B, RepBox R B → boxEmpty (hull c.1 c.2 B) = false → RepBox R (hull c.1 c.2 B)) :
    ∀ (fuel : ℕ) (B : Box n K) (w : Ext K) (r : Bool × Box n K), Mem B x → RepBox R B →
      hullLoop R hull cs fuel B w = some r → r.1 = false ∧ Mem r.2 x ∧ RepBox R r.2 := by
  intro fuel
  induction fuel with
  | zero => intro B w r _ _ h; simp [hullLoop] at h
  | succ fuel ih =>
    intro B w r hx hB h
    obtain ⟨g1, g2, g3⟩ := hullPass_sound cs h1 h2 B hx hB
    simp only [hullLoop, g1, Bool.false_eq_true, if_false] at h
    split_ifs at h with h3
    · exact ih _ _ r g2 g3 h
    · cases h
      exact ⟨rfl, g2, g3⟩

omit [NeZero m] in
theorem mem_conds {P : Problem n m k K} {b : Box m K} {c : Func n K × Bounds K} (h : c ∈ conds P b) :
    (∃ i, c = (P.f i, b i)) ∨ ∃ i, c = (P.g i, P.c i) := by
  simp only [conds, List.mem_append, List.mem_map, List.mem_finRange, true_and] at h
  rcases h with ⟨i, rfl⟩ | ⟨i, rfl⟩
  exacts [Or.inl ⟨i, rfl⟩, Or.inr ⟨i, rfl⟩]

omit [NeZero m] in
theorem contract_sound {P : Problem n m k K} (hP : Sound R P) {b : Box m K} {x : Fin n → K}
    (hb : Mem b (vval P.f x)) (hc : ∀ i, (P.c i).Contains ((P.g i).val x)) {fuel : ℕ} {B : Box n K} (hx : Mem B x)
    (hB : RepBox R B) {r : Bool × Box n K} (h : contract R P b fuel B = some r) :
    r.1 = false ∧ Mem r.2 x ∧ RepBox R r.2 := by
  have hsat : ∀ c ∈ conds P b, c.1.Ok ∧ c.2.Contains (c.1.val x) := by
    intro c h
    rcases mem_conds h with ⟨i, rfl⟩ | ⟨i, rfl⟩
    exacts [⟨hP.fOk i, hb i⟩, ⟨hP.gOk i, hc i⟩]
  simp only [contract, Option.bind_eq_some_iff] at h
  obtain ⟨s, h1, h2⟩ := h
  obtain ⟨g1, g2, g3⟩ := boxReduceAll_sound (p := x) _ B s (by
    intro j hj
    simp only [jobs, List.mem_flatMap, List.mem_map] at hj
    obtain ⟨c', ⟨c, hcs, rfl⟩, v, -, rfl⟩ := hj
    exact enclosed_not_empty ((hsat c hcs).1 x) (hsat c hcs).2) hx hB h1
  rw [g1, if_neg (by simp)] at h2
  exact hullLoop_sound (conds P b) (fun c hcs B hx => hP.hullMem _ _ B x hx (hsat c hcs).2)
    (fun c _ => hP.hullRep _ _) fuel s.2 _ r g2 g3 h2

theorem reduceRec_sound {P : Problem n m k K} (hP : Sound R P) (hφ : ∀ j, Monotone (gridMap R o l j)) {md : ℤ} :
    ∀ (fuel : ℕ) (p : Paving) (B : Box n K) (c : Cell) (q : Paving), p.WF → reduceRec R o l P md fuel p B c = some q →
      q.WF ∧ p.closed (gridMap R o l) ⊆ q.closed (gridMap R o l) ∧
      ∀ x, (∀ i, (P.c i).Contains ((P.g i).val x)) → Mem B x → RepBox R B →
        vval P.f x ∈ cellSet (gridMap R o l) c → vval P.f x ∈ q.closed (gridMap R o l) := by
  intro fuel
  induction fuel with
  | zero => intro p B c q _ h; simp [reduceRec] at h
  | succ fuel ih =>
    intro p B c q hp h
    rw [reduceRec] at h
    by_cases h1 : cellSubset m c p.sub = true
    · rw [if_pos h1] at h
      cases h
      exact ⟨hp, subset_rfl, fun _ _ _ _ hx => cellSubset_closed hφ h1 hx⟩
    rw [if_neg h1] at h
    simp only [Option.bind_eq_some_iff] at h
    obtain ⟨r, h2, h⟩ := h
    by_cases h3 : r.1 = true
    · rw [if_pos h3] at h
      cases h
      refine ⟨hp, subset_rfl, fun x hc hx hB hf => ?_⟩
      rw [(contract_sound hP (mem_cellBox.2 hf) hc hx hB h2).1] at h3
      cases h3
    rw [if_neg h3] at h
    split_ifs at h with h4 h5 h6
    · cases h
      refine ⟨hp, subset_rfl, fun x hc hx hB hf => ?_⟩
      obtain ⟨-, g2, -⟩ := contract_sound hP (mem_cellBox.2 hf) hc hx hB h2
      rw [disjointBox_false (image_mem hP.fOk g2) (mem_cellBox.2 hf),
        disjointBox_false (y := fun i => (P.g i).val x) hc (image_mem hP.gOk g2)] at h4
      cases h4
    · simp only [Option.bind_eq_some_iff] at h
      obtain ⟨j, -, p', h7, h8⟩ := h
      obtain ⟨a1, a2, a3⟩ := ih p _ c p' hp h7
      obtain ⟨b1, b2, b3⟩ := ih p' _ c q a1 h8
      refine ⟨b1, a2.trans b2, fun x hc hx hB hf => ?_⟩
      obtain ⟨-, g2, g3⟩ := contract_sound hP (mem_cellBox.2 hf) hc hx hB h2
      obtain ⟨s1, s2, s3⟩ := C56_split_at (goodBox_of_mem g3 g2) j
      rcases (s3 x).1 g2 with hm | hm
      · exact b2 (a3 x hc hm s1.rep hf)
      · exact b3 x hc hm s2.rep hf
    · obtain ⟨a1, a2⟩ := adjoinCell_closed hφ hp h
      exact ⟨a1, by rw [a2]; exact Set.subset_union_left, fun _ _ _ _ hf => by rw [a2]; exact Or.inr hf⟩
    · simp only [Option.bind_eq_some_iff] at h
      obtain ⟨p', h7, h8⟩ := h
      obtain ⟨a1, a2, a3⟩ := ih p _ _ p' hp h7
      obtain ⟨b1, b2, b3⟩ := ih p' _ _ q a1 h8
      refine ⟨b1, a2.trans b2, fun x hc hx hB hf => ?_⟩
      obtain ⟨-, g2, g3⟩ := contract_sound hP (mem_cellBox.2 hf) hc hx hB h2
      rw [cellSet_split hφ] at hf
      rcases hf with hf | hf
      · exact b2 (a3 x hc g2 g3 hf)
      · exact b3 x hc g2 g3 hf

/-- **C71**: the paving computed by contraction contains the previous paving and every point of the set. -/
theorem C71_reduce [Archimedean K] {P : Problem n m k K} (hP : Sound R P) (hl : ∀ j, 0 < l j) {gfuel fineness fuel : ℕ}
    {p q : Paving} (hp : p.WF) {d : Box n K} (hd : RepBox R d)
    (h : reducePaver R o l gfuel P fineness fuel p d = some q) :
    q.WF ∧ p.closed (gridMap R o l) ⊆ q.closed (gridMap R o l) ∧ target P d ⊆ q.closed (gridMap R o l) := by
  have hφ := Grid.gridMap_mono R o l fun j => (hl j).le
  simp only [reducePaver, Option.bind_eq_some_iff, Option.map_eq_some_iff] at h
  obtain ⟨b, h1, q', h2, rfl⟩ := h
  obtain ⟨g1, g2, g3⟩ := reduceRec_sound hP hφ fuel p d b q' hp h2
  obtain ⟨e1, e2⟩ := recombine_closed hφ g1
  refine ⟨e1, by rw [e2]; exact g2, ?_⟩
  rintro y ⟨x, hx, hc, rfl⟩
  rw [e2]
  exact g3 x hc hx hd (rootCell_sound hl hP.fOk hP.fRep hd h1 hx)

/-! ## The constraint paver -/

theorem constraintRec_sound {P : Problem n m k K} (hf : ∀ i, (P.f i).Ok) (hg : ∀ i, (P.g i).Ok)
    (hφ : ∀ j, Monotone (gridMap R o l j)) {rc : Box k K} {fineness : ℕ} :
    ∀ (fuel : ℕ) (p : Paving) (B : Box n K) (c : Cell) (q : Paving), p.WF →
      constraintRec R o l P rc fineness fuel p B c = some q →
      q.WF ∧ p.closed (gridMap R o l) ⊆ q.closed (gridMap R o l) ∧
      ∀ x, (∀ i, (rc i).Contains ((P.g i).val x)) → Mem B x → RepBox R B →
        vval P.f x ∈ cellSet (gridMap R o l) c → vval P.f x ∈ q.closed (gridMap R o l) := by
  intro fuel
  induction fuel with
  | zero => intro p B c q _ h; simp [constraintRec] at h
  | succ fuel ih =>
    intro p B c q hp h
    rw [constraintRec] at h
    split_ifs at h with h1 h2 h3 h4
    · cases h
      exact ⟨hp, subset_rfl, fun _ _ _ _ hx => cellSubset_closed hφ h1 hx⟩
    · cases h
      refine ⟨hp, subset_rfl, fun x hc hx hB hfx => ?_⟩
      rw [disjointBox_false (image_mem hf hx) (mem_cellBox.2 hfx),
        disjointBox_false (y := fun i => (P.g i).val x) (image_mem hg hx) hc] at h2
      cases h2
    · simp only [Option.bind_eq_some_iff] at h
      obtain ⟨s, hs, p', h7, h8⟩ := h
      obtain ⟨a1, a2, a3⟩ := ih p _ c p' hp h7
      obtain ⟨b1, b2, b3⟩ := ih p' _ c q a1 h8
      refine ⟨b1, a2.trans b2, fun x hc hx hB hfx => ?_⟩
      obtain ⟨s1, s2, s3⟩ := C56_split (goodBox_of_mem hB hx) hs
      rcases (s3 x).1 hx with hm | hm
      · exact b2 (a3 x hc hm s1.rep hfx)
      · exact b3 x hc hm s2.rep hfx
    · obtain ⟨a1, a2⟩ := adjoinCell_closed hφ hp h
      exact ⟨a1, by rw [a2]; exact Set.subset_union_left, fun _ _ _ _ hf => by rw [a2]; exact Or.inr hf⟩
    · simp only [Option.bind_eq_some_iff] at h
      obtain ⟨p', h7, h8⟩ := h
      obtain ⟨a1, a2, a3⟩ := ih p _ _ p' hp h7
      obtain ⟨b1, b2, b3⟩ := ih p' _ _ q a1 h8
      refine ⟨b1, a2.trans b2, fun x hc hx hB hfx => ?_⟩
      rw [cellSet_split hφ] at hfx
      rcases hfx with hfx | hfx
      · exact b2 (a3 x hc hx hB hfx)
      · exact b3 x hc hx hB hfx

omit [NeZero m] in
theorem widen_mem {B : Box k K} {y : Fin k → K} (h : Mem B y) : Mem (widen R B) y := fun i => by
  obtain ⟨h1, h2⟩ := h i
  constructor
  · simp only [widen]
    cases e : (B i).l <;> rw [e] at h1 <;> simp [IsLower, Ext.sub, Ext.neg, Ext.add, XRounding.ofRounding] at h1 ⊢
    exact (R.down_le _).trans (by linarith)
  · simp only [widen]
    cases e : (B i).u <;> rw [e] at h2 <;> simp [IsUpper, Ext.add, XRounding.ofRounding] at h2 ⊢
    exact le_trans (by linarith) (R.le_up _)

/-- **C71**: the paving computed by the constraint paver contains the previous paving and every point of the
set. -/
theorem C71_constraint [Archimedean K] {P : Problem n m k K} (hP : Sound R P) (hl : ∀ j, 0 < l j)
    {gfuel fineness fuel : ℕ} {p q : Paving} (hp : p.WF) {d : Box n K} (hd : RepBox R d)
    (h : constraintPaver R o l gfuel P fineness fuel p d = some q) :
    q.WF ∧ p.closed (gridMap R o l) ⊆ q.closed (gridMap R o l) ∧ target P d ⊆ q.closed (gridMap R o l) := by
  have hφ := Grid.gridMap_mono R o l fun j => (hl j).le
  simp only [constraintPaver, Option.bind_eq_some_iff] at h
  obtain ⟨b, h1, h2⟩ := h
  obtain ⟨g1, g2, g3⟩ := constraintRec_sound hP.fOk hP.gOk hφ fuel p d b q hp h2
  refine ⟨g1, g2, ?_⟩
  rintro y ⟨x, hx, hc, rfl⟩
  refine g3 x (fun i => ?_) hx hd (rootCell_sound hl hP.fOk hP.fRep hd h1 hx)
  exact refinement_contains (widen_mem (image_mem hP.gOk hx) i) (hc i)

end Verif.Paver
