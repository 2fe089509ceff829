import Verif.Paver.Tight

/-!
# C71: the paving computed by subdivision is tight
-/

namespace Verif.Paver

open Ariadne Ariadne.Logical Ariadne.BinaryTree Verif.ConstraintSolver Verif.FunctionSet
open Ariadne.Ext (fin)
open Verif.Grid (Cell Paving gridMap spaceBox cellSubset)

variable {n m : ℕ} {K : Type*} [Field K] [LinearOrder K] [IsStrictOrderedRing K] {R : Rounding K}
variable [NeZero m] {o l : Fin m → K}

theorem align_id {φ : Fin m → K → K} (hφ : ∀ j, Monotone (φ j)) {p q : Paving} (hp : p.WF) {e : ℕ}
    (h : p.align m e true false id = some q) : q.WF ∧ q.closed φ = p.closed φ := by
  obtain ⟨q', h1, h2, -, h4⟩ := Grid.align_closed φ hφ p hp e id fun t ht => ⟨ht, subset_rfl⟩
  rw [h1] at h
  cases h
  refine ⟨h2, ?_⟩
  rcases h4 with ⟨h, -⟩ | ⟨u, -, h5, h6⟩
  · exact h
  · rw [h6]
    exact Set.union_eq_left.2 h5

theorem small_empty {s : VSet n m K} (h : boxEmpty s.red = true) {err : Fin m → K} :
    small R err s.boundingBox = true ∧ allEmpty s.boundingBox = true := by
  have e : ∀ i, s.boundingBox i = ⟨.pinf, .ninf⟩ := fun i => by
    rw [VSet.boundingBox, ConstraintSolver.apply, if_pos h]
    rfl
  constructor
  · simp [small, e, width, Ext.sub, Ext.neg, Ext.add, Ext.hlf, Ext.lt]
  · simp [allEmpty, e]

/-- The points added by the paver by subdivision. -/
theorem subdivRec_tight [Archimedean K] (hl : ∀ j, 0 < l j) {gfuel fineness : ℕ}
    {err : Fin m → K} {f : Fin m → Func n K} (hf : ∀ i, (f i).Ok)
    (hr : ∀ i B a b, RepBox R B → (f i).ev B = ⟨fin a, fin b⟩ → R.Rep a ∧ R.Rep b) :
    ∀ (fuel : ℕ) (p : Paving) (s : VSet n m K) (q : Paving), p.WF → s.fn = f →
      (GoodBox R s.dom ∧ GoodBox R s.red) ∨ boxEmpty s.red = true →
      subdivRec R o l gfuel fineness err fuel p s = some q →
      q.WF ∧ ∀ y ∈ q.closed (gridMap R o l), y ∈ p.closed (gridMap R o l) ∨
        ∃ x z, Mem s.red x ∧ (∀ j, |z j - vval f x j| ≤ err j) ∧
          (y = z ∨ ∃ c, y ∈ cellSet (gridMap R o l) c ∧ z ∈ cellSet (gridMap R o l) c ∧
            ∀ j, (Grid.Cell.box K m c j).2 - (Grid.Cell.box K m c j).1 = 1 / 2 ^ fineness) := by
  have hφ := Grid.gridMap_mono R o l fun j => (hl j).le
  intro fuel
  induction fuel with
  | zero => intro p s q _ _ _ h; simp [subdivRec] at h
  | succ fuel ih =>
    intro p s q hp hsf hs h
    rw [subdivRec] at h
    split_ifs at h with h1 h2 h3
    · cases h
      exact ⟨hp, fun y hy => Or.inl hy⟩
    · obtain ⟨a1, a2⟩ := align_id hφ hp h
      exact ⟨a1, fun y hy => Or.inl (a2 ▸ hy)⟩
    · rcases hs with ⟨-, hg⟩ | he
      swap
      · exact absurd (small_empty (R := R) he (err := err)).2 h3
      simp only [Option.bind_eq_some_iff] at h
      obtain ⟨b, h4, h5⟩ := h
      have hx := corner_mem hg
      have h6 : ∀ j, (f j).ev s.red = ⟨fin (b j).1, fin (b j).2⟩ := fun j => by
        have := finBox_some h4 j
        rwa [VSet.boundingBox, apply_eq hx, hsf] at this
      have h7 : vval f (corner s.red) ∈ b.closed := fun j => by
        have := hf j _ s.red hx
        rw [h6 j] at this
        exact this
      have hw : ∀ j, (b j).2 - (b j).1 ≤ err j := fun j => by
        simp only [small, Bool.not_eq_true', List.any_eq_false] at h2
        have := h2 j (List.mem_finRange j)
        rw [VSet.boundingBox, apply_eq hx, hsf, h6 j] at this
        simp only [width, Ext.sub, Ext.neg, Ext.add, XRounding.ofRounding, Ext.hlf, Ext.lt, decide_eq_true_eq, not_lt] at this
        have h := R.le_up ((b j).2 + -(b j).1)
        linarith
      have near : ∀ z ∈ b.closed, ∀ j, |z j - vval f (corner s.red) j| ≤ err j := fun z hz j => by
        have a1 := hz j
        have a2 := h7 j
        have := hw j
        rw [abs_le]
        constructor <;> linarith [a1.1, a1.2, a2.1, a2.2]
      obtain ⟨-, g⟩ := outer_box hl hp (fun j => (h7 j).1.trans (h7 j).2) (fun j => hr j s.red _ _ hg.rep (h6 j)) h5
      refine ⟨(outer_any hφ hp h5).1, fun y hy => ?_⟩
      rcases g y hy with hy | hy | ⟨c, z, hz, k1, k2, k3⟩
      · exact Or.inl hy
      · exact Or.inr ⟨_, y, hx, near y hy, Or.inl rfl⟩
      · exact Or.inr ⟨_, z, hx, near z hz, Or.inr ⟨c, k1, k2, k3⟩⟩
    · rcases hs with ⟨hd, hg⟩ | he
      swap
      · exact absurd (small_empty he).1 h2
      simp only [Option.bind_eq_some_iff] at h
      obtain ⟨s', h4, p', h5, h6⟩ := h
      simp only [VSet.split, Option.map_eq_some_iff] at h4
      obtain ⟨j, -, rfl⟩ := h4
      obtain ⟨s1, s2, -⟩ := C56_split_at hd j
      have inv : ∀ d : Box n K, GoodBox R d → (GoodBox R (interBox d s.red) ∧ GoodBox R (interBox d s.red)) ∨
          boxEmpty (interBox d s.red) = true := fun d hd => by
        rcases goodBox_or_empty (rep_interBox hd.rep hg.rep) with h | h
        exacts [Or.inl ⟨h, h⟩, Or.inr h]
      have sub : ∀ d : Box n K, GoodBox R d → ∀ x, Mem (interBox d s.red) x → Mem s.red x := fun d hd x hx i => by
        obtain ⟨a, b, e, -⟩ := hd i
        obtain ⟨a', b', e', -⟩ := hg i
        have := hx i
        simp only [interBox, e, e', refinement_fin] at this
        rw [e']
        exact ⟨(le_max_right _ _).trans this.1, this.2.trans (min_le_right _ _)⟩
      obtain ⟨a1, a2⟩ := ih p _ p' hp (by exact hsf) (inv _ s1) h5
      obtain ⟨b1, b2⟩ := ih p' _ q a1 (by exact hsf) (inv _ s2) h6
      refine ⟨b1, fun y hy => ?_⟩
      rcases b2 y hy with hy | ⟨x, z, k1, k2⟩
      · rcases a2 y hy with hy | ⟨x, z, k1, k2⟩
        · exact Or.inl hy
        · exact Or.inr ⟨x, z, sub _ s1 x k1, k2⟩
      · exact Or.inr ⟨x, z, sub _ s2 x k1, k2⟩

/-- **C71**: every point added by the paver by subdivision is, up to a cell whose sides are `1/2^fineness` units of
the grid, within `1/2^fineness` units of the image of a point of the reduced domain. -/
theorem C71_subdivision_tight [Archimedean K] (hl : ∀ j, 0 < l j) {gfuel fineness fuel : ℕ} {s : VSet n m K}
    (hf : ∀ i, (s.fn i).Ok) (hr : ∀ i B a b, RepBox R B → (s.fn i).ev B = ⟨fin a, fin b⟩ → R.Rep a ∧ R.Rep b)
    (hd : GoodBox R s.dom) (hs : RepBox R s.red ∨ boxEmpty s.red = true) {p q : Paving} (hp : p.WF)
    (h : subdivPaver R o l gfuel fineness fuel p s = some q) {y : Fin m → K}
    (hy : y ∈ q.closed (gridMap R o l)) (hn : y ∉ p.closed (gridMap R o l)) :
    ∃ x z, Mem s.red x ∧ (∀ j, |z j - vval s.fn x j| ≤ l j / 2 ^ fineness) ∧
      (y = z ∨ ∃ c, y ∈ cellSet (gridMap R o l) c ∧ z ∈ cellSet (gridMap R o l) c ∧
        ∀ j, (Grid.Cell.box K m c j).2 - (Grid.Cell.box K m c j).1 = 1 / 2 ^ fineness) := by
  refine ((subdivRec_tight hl hf hr fuel p s q hp rfl ?_ h).2 y hy).resolve_left hn
  rcases hs with h | h
  · rcases goodBox_or_empty h with h | h
    exacts [Or.inl ⟨hd, h⟩, Or.inr h]
  · exact Or.inr h

end Verif.Paver
