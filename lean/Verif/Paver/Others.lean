import Verif.Paver.Props

/-!
# C71: the other pavers

The paver by subdivision and the affine paver cover the set; the optimal constraint paver never adds anything.
-/

namespace Verif.Paver

open Ariadne Ariadne.Logical Ariadne.BinaryTree Verif.ConstraintSolver Verif.FunctionSet
open Ariadne.Ext (fin)
open Verif.Grid (Cell Paving gridMap spaceBox cellSubset)

variable {n m k : ℕ} {K : Type*} [Field K] [LinearOrder K] [IsStrictOrderedRing K] {R : Rounding K}

section
variable [NeZero m] {o l : Fin m → K}

theorem align_any {φ : Fin m → K → K} (hφ : ∀ j, Monotone (φ j)) {p q : Paving} (hp : p.WF) {e : ℕ} {f : Tree → Tree}
    (hf : ∀ t : Tree, t.WF → (f t).WF ∧ t.points ⊆ (f t).points) (h : p.align m e true false f = some q) :
    q.WF ∧ p.closed φ ⊆ q.closed φ := by
  obtain ⟨q', h1, h2, h3, -⟩ := Grid.align_closed φ hφ p hp e f hf
  rw [h1] at h
  cases h
  exact ⟨h2, h3⟩

theorem outer_any (hφ : ∀ j, Monotone (gridMap R o l j)) {p q : Paving} (hp : p.WF) {fuel : ℕ} {b : Grid.Box K m}
    {sep cov : Grid.Box K m → Bool} {f : ℕ} (h : p.adjoinOuter R o l fuel b sep cov f = some q) :
    q.WF ∧ p.closed (gridMap R o l) ⊆ q.closed (gridMap R o l) := by
  simp only [Paving.adjoinOuter, Option.bind_eq_some_iff] at h
  obtain ⟨e, -, h⟩ := h
  refine align_any hφ hp (fun t ht => ?_) h
  obtain ⟨g1, g2⟩ := Grid.outerApprox_points (fun w => sep (spaceBox (gridMap R o l) (e + m) w))
    (fun w => cov (spaceBox (gridMap R o l) (e + m) w)) (Grid.treeDepth m (e + m) f) [] t ht
  exact ⟨g1, fun P hP => (g2 P).2 (Or.inl hP)⟩

theorem outer_fuel {p q : Paving} {f f' : ℕ} (hf : f ≤ f') {b : Grid.Box K m} {sep cov : Grid.Box K m → Bool} {d : ℕ}
    (h : p.adjoinOuter R o l f b sep cov d = some q) : p.adjoinOuter R o l f' b sep cov d = some q := by
  simp only [Paving.adjoinOuter, Option.bind_eq_some_iff] at h ⊢
  obtain ⟨e, h1, h⟩ := h
  exact ⟨e, searchExtent_mono hf h1, h⟩

/-- The outer approximation of a box, when it is found. -/
theorem outer_box [Archimedean K] (hl : ∀ j, 0 < l j) {p q : Paving} (hp : p.WF) {fuel : ℕ} {b : Grid.Box K m}
    (hb : ∀ j, (b j).1 ≤ (b j).2) (hr : ∀ j, R.Rep (b j).1 ∧ R.Rep (b j).2) {f : ℕ}
    (h : p.adjoinOuter R o l fuel b (Grid.boxDisjoint b) (Grid.boxCovers b) f = some q) :
    b.closed ⊆ q.closed (gridMap R o l) ∧
      ∀ y ∈ q.closed (gridMap R o l), y ∈ p.closed (gridMap R o l) ∨ y ∈ b.closed ∨
        ∃ c z, z ∈ b.closed ∧ y ∈ cellSet (gridMap R o l) c ∧ z ∈ cellSet (gridMap R o l) c ∧
          ∀ j, (Grid.Cell.box K m c j).2 - (Grid.Cell.box K m c j).1 = 1 / 2 ^ f := by
  obtain ⟨n, hn⟩ := Grid.C21_outer_box R o l hl p hp b hb hr f
  obtain ⟨q', N, h1, -, -, h4, h5⟩ := hn (max n fuel) (le_max_left _ _)
  rw [outer_fuel (le_max_right n fuel) h] at h1
  cases h1
  refine ⟨h4, fun y hy => ?_⟩
  rcases h5 y hy with h | h | ⟨w, z, a1, a2, a3, a4⟩
  · exact Or.inl h
  · exact Or.inr (Or.inl h)
  · exact Or.inr (Or.inr ⟨⟨N, w⟩, z, a1, a2, a3, a4⟩)

omit [NeZero m] in
theorem misses_false {s : VSet n m K} (hc : ∀ c ∈ s.cs, c.fn.Ok) {x : Fin n → K} (hx : Mem s.red x) (hs : Sat s.cs x) :
    misses R s = false := by
  simp only [misses, List.any_eq_false]
  intro c hcs
  have h1 := over_contains (R := R) (hs c hcs)
  have h2 := hc c hcs x s.red hx
  rw [apply_eq hx]
  have := disjoint_false h2 h1
  simp only [disjoint] at this
  simp [this]

theorem subdivRec_sound [Archimedean K] {T : Tools n K} (hT : HullSound R T) (hl : ∀ j, 0 < l j) {gfuel fineness : ℕ}
    {err : Fin m → K} {f : Fin m → Func n K}
    (hr : ∀ i B a b, RepBox R B → (f i).ev B = ⟨fin a, fin b⟩ → R.Rep a ∧ R.Rep b) :
    ∀ (fuel : ℕ) (p : Paving) (s : VSet n m K) (q : Paving), p.WF → s.fn = f →
      subdivRec R o l gfuel fineness err fuel p s = some q →
      q.WF ∧ p.closed (gridMap R o l) ⊆ q.closed (gridMap R o l) ∧
      (Made R T s → s.pts ⊆ q.closed (gridMap R o l)) := by
  have hφ := Grid.gridMap_mono R o l fun j => (hl j).le
  intro fuel
  induction fuel with
  | zero => intro p s q _ _ h; simp [subdivRec] at h
  | succ fuel ih =>
    intro p s q hp hsf h
    rw [subdivRec] at h
    split_ifs at h with h1 h2 h3
    · cases h
      refine ⟨hp, subset_rfl, fun hm y hy => ?_⟩
      obtain ⟨x, hx, hs, rfl⟩ := hy
      have hi := made_inv hT hm
      rw [misses_false hi.csOk (hi.keep x hx hs) hs] at h1
      cases h1
    · obtain ⟨a1, a2⟩ := align_any hφ hp (fun t ht => ⟨ht, subset_rfl⟩) h
      refine ⟨a1, a2, fun hm y hy => ?_⟩
      have := C69_bounding_box hT hm hy
      rw [allEmpty_false this] at h3
      cases h3
    · simp only [Option.bind_eq_some_iff] at h
      obtain ⟨b, h4, h5⟩ := h
      obtain ⟨a1, a2⟩ := outer_any hφ hp h5
      refine ⟨a1, a2, fun hm y hy => ?_⟩
      have hb := C69_bounding_box hT hm hy
      have hi := made_inv hT hm
      obtain ⟨x, hx, hs, rfl⟩ := hy
      have hxr := hi.keep x hx hs
      have h6 := finBox_some h4
      have h7 : vval s.fn x ∈ b.closed := fun j => by
        have := hb j
        rw [h6 j] at this
        exact this
      refine (outer_box hl hp (fun j => (h7 j).1.trans (h7 j).2) (fun j => ?_) h5).1 h7
      have := h6 j
      rw [VSet.boundingBox, apply_eq hxr, hsf] at this
      exact hr j s.red _ _ (hi.redRep hxr) this
    · simp only [Option.bind_eq_some_iff] at h
      obtain ⟨s', h4, p', h5, h6⟩ := h
      simp only [VSet.split, Option.map_eq_some_iff] at h4
      obtain ⟨j, -, rfl⟩ := h4
      obtain ⟨a1, a2, a3⟩ := ih p _ p' hp (by exact hsf) h5
      obtain ⟨b1, b2, b3⟩ := ih p' _ q a1 (by exact hsf) h6
      refine ⟨b1, a2.trans b2, fun hm y hy => ?_⟩
      have hi := made_inv hT hm
      have hd : GoodBox R s.dom := by
        obtain ⟨x, hx, -, -⟩ := hy
        rcases hi.dom with h | h
        · exact goodBox_of_mem h hx
        · rw [boxEmpty_false hx] at h
          cases h
      rw [← C69_split_at hT hm hd j] at hy
      rcases hy with hy | hy
      · exact b2 (a3 (.first hm hd) hy)
      · exact b3 (.second hm hd) hy

/-- **C71**: the paving computed by subdivision contains the previous paving and every point of the set. -/
theorem C71_subdivision [Archimedean K] {T : Tools n K} (hT : HullSound R T) (hl : ∀ j, 0 < l j)
    {gfuel fineness fuel : ℕ} {s : VSet n m K} (hs : Made R T s)
    (hr : ∀ i B a b, RepBox R B → (s.fn i).ev B = ⟨fin a, fin b⟩ → R.Rep a ∧ R.Rep b) {p q : Paving} (hp : p.WF)
    (h : subdivPaver R o l gfuel fineness fuel p s = some q) :
    q.WF ∧ p.closed (gridMap R o l) ⊆ q.closed (gridMap R o l) ∧ s.pts ⊆ q.closed (gridMap R o l) := by
  obtain ⟨h1, h2, h3⟩ := subdivRec_sound hT hl hr fuel p s q hp rfl h
  exact ⟨h1, h2, h3 hs⟩

end

/-! ## The affine paver -/

theorem affineRound_mem (ni : Box n K → Option (Fin n) × Ext K) (e : K) (ds : List (Box n K))
    (hd : ∀ d ∈ ds, GoodBox R d) :
    (∀ d ∈ (affineRound R ni e ds).1, GoodBox R d) ∧ (∀ d ∈ (affineRound R ni e ds).2, GoodBox R d) ∧
    ∀ x, (∃ d ∈ ds, Mem d x) ↔
      (∃ d ∈ (affineRound R ni e ds).1, Mem d x) ∨ ∃ d ∈ (affineRound R ni e ds).2, Mem d x := by
  induction ds with
  | nil => simp [affineRound]
  | cons d ds ih =>
    obtain ⟨h1, h2, h3⟩ := ih fun d h => hd d (List.mem_cons_of_mem _ h)
    have h0 := hd d List.mem_cons_self
    have keep : (∀ d' ∈ d :: (affineRound R ni e ds).1, GoodBox R d') ∧ ∀ x, (∃ d' ∈ d :: ds, Mem d' x) ↔
        (∃ d' ∈ d :: (affineRound R ni e ds).1, Mem d' x) ∨ ∃ d ∈ (affineRound R ni e ds).2, Mem d x := by
      constructor
      · intro d' h
        rcases List.mem_cons.1 h with rfl | h
        exacts [h0, h1 d' h]
      · intro x
        simp only [List.mem_cons, exists_eq_or_imp, h3 x, or_assoc]
    simp only [affineRound]
    split
    · exact ⟨keep.1, h2, keep.2⟩
    · rename_i j _
      split_ifs with h4
      · exact ⟨keep.1, h2, keep.2⟩
      · obtain ⟨s1, s2, s3⟩ := C56_split_at h0 j
        refine ⟨h1, ?_, fun x => ?_⟩
        · intro d' h
          rcases List.mem_cons.1 h with rfl | h
          · exact s1
          rcases List.mem_cons.1 h with rfl | h
          exacts [s2, h2 d' h]
        · simp only [List.mem_cons, exists_eq_or_imp, h3 x, s3 x]
          generalize Mem (splitAt (XRounding.ofRounding R) d j).1 x = a
          generalize Mem (splitAt (XRounding.ofRounding R) d j).2 x = b
          generalize (∃ d ∈ (affineRound R ni e ds).1, Mem d x) = a'
          generalize (∃ d ∈ (affineRound R ni e ds).2, Mem d x) = b'
          clear ih hd h1 h2 h3 h0 keep s1 s2 s3
          tauto

/-- **C71**: the subdomains of the affine paver are boxes which make up the domain exactly. -/
theorem C71_affine_domains (ni : Box n K → Option (Fin n) × Ext K) (e : K) (i : ℕ) (ds : List (Box n K))
    (hd : ∀ d ∈ ds, GoodBox R d) :
    (∀ d ∈ affineDomains R ni e i ds, GoodBox R d) ∧
    ∀ x, (∃ d ∈ affineDomains R ni e i ds, Mem d x) ↔ ∃ d ∈ ds, Mem d x := by
  induction i generalizing ds with
  | zero => exact ⟨hd, fun x => Iff.rfl⟩
  | succ i ih =>
    obtain ⟨h1, h2, h3⟩ := affineRound_mem ni e ds hd
    simp only [affineDomains]
    split_ifs with h4
    · refine ⟨h1, fun x => ?_⟩
      rw [h3 x, List.isEmpty_iff.1 h4]
      simp
    · obtain ⟨g1, g2⟩ := ih _ h2
      constructor
      · intro d h
        rcases List.mem_append.1 h with h | h
        exacts [h1 d h, g1 d h]
      · intro x
        rw [h3 x, ← g2 x]
        simp only [List.mem_append, or_and_right, exists_or]

/-- A domain needing no more splitting is within the error asked for, unless sixteen rounds were made. -/
theorem C71_affine_error (ni : Box n K → Option (Fin n) × Ext K) (e : K) (i : ℕ) (ds : List (Box n K)) :
    ∀ d ∈ affineDomains R ni e i ds, (ni d).1 = none ∨ Ext.lt (ni d).2 (fin e) = true ∨
      ∃ d0 ∈ ds, ∃ w : List (Fin n × Bool), w.length = i ∧
        d = w.foldl (fun b s => if s.2 then (splitAt (.ofRounding R) b s.1).2 else (splitAt (.ofRounding R) b s.1).1) d0 := by
  have round : ∀ ds : List (Box n K), (∀ d ∈ (affineRound R ni e ds).1, (ni d).1 = none ∨ Ext.lt (ni d).2 (fin e) = true) ∧
      ∀ d ∈ (affineRound R ni e ds).2, ∃ d0 ∈ ds, ∃ s : Fin n × Bool,
        d = if s.2 then (splitAt (.ofRounding R) d0 s.1).2 else (splitAt (.ofRounding R) d0 s.1).1 := by
    intro ds
    induction ds with
    | nil => simp [affineRound]
    | cons d ds ih =>
      obtain ⟨h1, h2⟩ := ih
      have h2' : ∀ d' ∈ (affineRound R ni e ds).2, ∃ d0 ∈ d :: ds, ∃ s : Fin n × Bool,
          d' = if s.2 then (splitAt (.ofRounding R) d0 s.1).2 else (splitAt (.ofRounding R) d0 s.1).1 := fun d' h => by
        obtain ⟨d0, h0, hs⟩ := h2 d' h
        exact ⟨d0, List.mem_cons_of_mem _ h0, hs⟩
      simp only [affineRound]
      split
      · rename_i hj
        refine ⟨fun d' h => ?_, h2'⟩
        rcases List.mem_cons.1 h with rfl | h
        exacts [Or.inl hj, h1 d' h]
      · rename_i j hj
        split_ifs with h4
        · refine ⟨fun d' h => ?_, h2'⟩
          rcases List.mem_cons.1 h with rfl | h
          exacts [Or.inr h4, h1 d' h]
        · refine ⟨h1, fun d' h => ?_⟩
          rcases List.mem_cons.1 h with rfl | h
          · exact ⟨d, List.mem_cons_self, (j, false), by simp⟩
          rcases List.mem_cons.1 h with rfl | h
          · exact ⟨d, List.mem_cons_self, (j, true), by simp⟩
          · exact h2' d' h
  induction i generalizing ds with
  | zero => exact fun d hd => Or.inr (Or.inr ⟨d, hd, [], rfl, rfl⟩)
  | succ i ih =>
    obtain ⟨h1, h2⟩ := round ds
    intro d hd
    simp only [affineDomains] at hd
    split_ifs at hd with h4
    · exact (h1 d hd).imp id Or.inl
    · rcases List.mem_append.1 hd with h | h
      · exact (h1 d h).imp id Or.inl
      · rcases ih _ d h with h | h | ⟨d0, h0, w, hw, hd'⟩
        · exact Or.inl h
        · exact Or.inr (Or.inl h)
        · obtain ⟨d1, h5, s, h6⟩ := h2 d0 h0
          exact Or.inr (Or.inr ⟨d1, h5, s :: w, by simp [hw], by rw [hd', h6]; rfl⟩)

/-- **C71**: if adjoining the affine over-approximation of a restriction covers the restriction, then the affine
paver covers the set. -/
theorem C71_affine [NeZero m] {φ : Fin m → K → K} {P : Problem n m k K} {ni : Box n K → Option (Fin n) × Ext K}
    {fineness : ℕ} {aff : Box n K → Paving → Option Paving}
    (ha : ∀ d p q, p.WF → GoodBox R d → aff d p = some q → q.WF ∧ p.closed φ ⊆ q.closed φ ∧ target P d ⊆ q.closed φ)
    {p q : Paving} (hp : p.WF) {d : Box n K} (hd : GoodBox R d) (h : affinePaver R ni fineness aff p d = some q) :
    q.WF ∧ p.closed φ ⊆ q.closed φ ∧ target P d ⊆ q.closed φ := by
  obtain ⟨h1, h2⟩ := C71_affine_domains (R := R) ni (1 / 16 / 2 ^ fineness) 16 [d] (by simpa using hd)
  have key : ∀ (ds : List (Box n K)) (p q : Paving), (∀ d ∈ ds, GoodBox R d) → p.WF →
      ds.foldlM (fun p d => aff d p) p = some q →
      q.WF ∧ p.closed φ ⊆ q.closed φ ∧ ∀ d ∈ ds, target P d ⊆ q.closed φ := by
    intro ds
    induction ds with
    | nil => intro p q _ hp h; cases h; exact ⟨hp, subset_rfl, by simp⟩
    | cons d ds ih =>
      intro p q hd hp h
      simp only [List.foldlM_cons, Option.bind_eq_bind, Option.bind_eq_some_iff] at h
      obtain ⟨p', h3, h4⟩ := h
      obtain ⟨a1, a2, a3⟩ := ha d p p' hp (hd d List.mem_cons_self) h3
      obtain ⟨b1, b2, b3⟩ := ih p' q (fun d h => hd d (List.mem_cons_of_mem _ h)) a1 h4
      refine ⟨b1, a2.trans b2, fun d' h => ?_⟩
      rcases List.mem_cons.1 h with rfl | h
      exacts [a3.trans b2, b3 d' h]
  obtain ⟨g1, g2, g3⟩ := key _ p q h1 hp h
  refine ⟨g1, g2, ?_⟩
  rintro y ⟨x, hx, hc, rfl⟩
  obtain ⟨d', h3, h4⟩ := (h2 x).2 ⟨d, by simp, hx⟩
  exact g3 d' h3 ⟨x, h4, hc, rfl⟩

/-! ## The optimal constraint paver -/

/-- The combined function is enclosed by its evaluation, and the contractor for it is sound. -/
structure DualOk {r : ℕ} (R : Rounding K) (D : Dual n r K) (f : Fin r → (Fin n → K) → K) : Prop where
  ev : ∀ d x bx p, Mem d p → EnclosesAt (D.ev d x bx) (dualValue f bx d x p) p
  hull : ∀ d x bx p, Mem d p → 0 ≤ dualValue f bx d x p → Mem (D.hull d x bx d) p
  rep : ∀ d x bx, RepBox R d → boxEmpty (D.hull d x bx d) = false → RepBox R (D.hull d x bx d)

/-- With equal multipliers, the combined function is a nonnegative constant: it can not be used to show that
anything is disjoint. -/
theorem dual_const {r : ℕ} {f : Fin r → (Fin n → K) → K} {c : Box r K} {d : Box n K} {a : K} (ha : 0 ≤ a)
    (hc : ∀ j, num (c j).l ≤ num (c j).u) (hd : ∀ i, num (d i).l ≤ num (d i).u) (p : Fin n → K) :
    0 ≤ dualValue f c d (fun _ => a) p := by
  have e : dualValue f c d (fun _ => a) p = (∑ j, (num (c j).u * a - num (c j).l * a)) +
      ∑ i, (num (d i).u * a - num (d i).l * a) := by
    simp [dualValue]
  rw [e]
  refine add_nonneg (Finset.sum_nonneg fun j _ => ?_) (Finset.sum_nonneg fun i _ => ?_)
  · nlinarith [hc j]
  · nlinarith [hd i]

theorem relax_const {r : ℕ} {a : K} (ha : 0 ≤ a) : ∃ b, 0 ≤ b ∧ relax R (fun _ : Fin r => a) = fun _ => b := by
  refine ⟨_, ?_, rfl⟩
  have h0 : R.near 0 = 0 := R.near_of_rep R.rep_zero
  have pos : ∀ x : K, 0 ≤ x → 0 ≤ R.near x := fun x hx => by
    have := R.near_mono hx
    rwa [h0] at this
  refine pos _ (add_nonneg (pos _ (mul_nonneg (by norm_num) ha)) (pos _ (by positivity)))

variable [NeZero m] {o l : Fin m → K}

theorem optimalRec_eq {D : Dual n (m + k) K} {f : Fin (m + k) → (Fin n → K) → K} (hD : DualOk R D f)
    (hφ : ∀ j, Monotone (gridMap R o l j)) {rc : Box k K} (hrc : ∀ i, num (rc i).l ≤ num (rc i).u) {fineness : ℕ} :
    ∀ (fuel : ℕ) (p : Paving) (d : Box n K) (b : Cell) (a : K), GoodBox R d → 0 ≤ a → cellSubset m b p.sub = false →
      optimalRec R o l D rc fineness fuel p d b (fun _ => a) = none := by
  intro fuel
  induction fuel with
  | zero => intros; rfl
  | succ fuel ih =>
    intro p d b a hd ha hb
    have hlow : ∀ i, num (d i).l ≤ num (d i).u := fun i => by
      obtain ⟨u, v, e, -, -, h⟩ := hd i
      rw [e]
      exact h
    have hx : Mem d fun i => num (d i).l := fun i => by
      obtain ⟨u, v, e, -, -, h⟩ := hd i
      simp only [e, num]
      exact ⟨le_refl u, h⟩
    rw [optimalRec, if_neg (by simp [hb])]
    simp only
    generalize hbx : (Fin.append (cellBox (gridMap R o l) b) rc : Box (m + k) K) = bx
    have h0 : 0 ≤ dualValue f bx d (fun _ => a) fun i => num (d i).l := by
      refine dual_const ha (fun j => ?_) hlow _
      rw [← hbx]
      refine Fin.addCases (fun i => ?_) (fun i => ?_) j
      · rw [Fin.append_left]
        exact Grid.spaceBox_le _ hφ _ _ _
      · rw [Fin.append_right]
        exact hrc i
    have h1 := hD.hull d (fun _ => a) bx _ hx h0
    rw [boxEmpty_false h1, if_neg (by simp)]
    rw [Option.bind_eq_none_iff]
    intro r hr
    obtain ⟨h2, -⟩ := boxReduceVars_sound (R := R) (enclosed_not_empty (b := ⟨fin 0, .pinf⟩)
      (hD.ev d (fun _ => a) bx _ hx) ⟨h0, trivial⟩) _ _ r h1
      (hD.rep d _ bx hd.rep (boxEmpty_false h1)) hr
    rw [h2, if_neg (by simp), Option.bind_eq_none_iff]
    intro s hs
    obtain ⟨s1, -, -⟩ := C56_split hd hs
    obtain ⟨a', ha', e⟩ := relax_const (R := R) (r := (m + k + n) * 2) ha
    rw [e, ih p s.1 b a' s1 ha' hb]
    rfl

/-- **C71**: the optimal constraint paver never adds a cell to a paving.  Either the primary cell is in the paving
already, or the paver does not return (or fails), for every number of steps. -/
theorem C71_optimal_never_adds {P : Problem n m m K} {D : Dual n (m + m) K} {f : Fin (m + m) → (Fin n → K) → K}
    (hD : DualOk R D f) (hl : ∀ j, 0 < l j) {d : Box n K} (hd : GoodBox R d)
    (hrc : ∀ i, num (reducedCodomain R P d i).l ≤ num (reducedCodomain R P d i).u) {gfuel fineness fuel : ℕ}
    {p q : Paving} (h : optimalPaver R o l gfuel P D fineness fuel p d = some q) :
    q = p ∧ ∃ b, rootCell R o l gfuel (image P.g d) = some b ∧
      cellSet (gridMap R o l) b ⊆ p.closed (gridMap R o l) := by
  have hφ := Grid.gridMap_mono R o l fun j => (hl j).le
  simp only [optimalPaver, Option.bind_eq_some_iff] at h
  obtain ⟨b, h1, h2⟩ := h
  by_cases hb : cellSubset m b p.sub = true
  · cases fuel with
    | zero => simp [optimalRec] at h2
    | succ fuel =>
      rw [optimalRec, if_pos hb] at h2
      cases h2
      exact ⟨rfl, b, h1, cellSubset_closed hφ hb⟩
  · have h0 : 0 ≤ R.near (1 / ((m + m + n) * 2 : ℕ)) := by
      have := R.near_mono (show (0 : K) ≤ 1 / ((m + m + n) * 2 : ℕ) by positivity)
      rwa [R.near_of_rep R.rep_zero] at this
    rw [optimalRec_eq hD hφ hrc fuel p d b _ hd h0 (by simpa using hb)] at h2
    cases h2

end Verif.Paver
