import Verif.Paver.SubTight
import Verif.FunctionSet.Examples

/-!
# C71: functions which are not known exactly, counterexamples, and cases meeting the hypotheses
-/

namespace Verif.Paver

open Ariadne Ariadne.Logical Ariadne.BinaryTree Verif.ConstraintSolver Verif.FunctionSet
open Ariadne.Ext (fin)
open Verif.Grid (Cell Paving gridMap spaceBox cellSubset)

section
variable {n m k : ℕ} {K : Type*} [Field K] [LinearOrder K] [IsStrictOrderedRing K] {R : Rounding K}
variable [NeZero m] {o l : Fin m → K}

/-- **C71**: if the evaluation of the function is wider than the cells asked for on every box, as for a function
known up to an error only, then the paver by contraction never returns, unless the set is covered already. -/
theorem C71_reduce_uncertain [Archimedean K] {P : Problem n m k K} (hP : Sound R P) (hcon : Contracts R P)
    (hl : ∀ j, 0 < l j) {gfuel fineness : ℕ}
    (hw : ∀ c B, depth m c = ((fineness * m : ℕ) : ℤ) → GoodBox R B →
      Ext.lt (maximumScaledWidth R (cellBox (gridMap R o l) c) l) (maximumScaledWidth R (image P.f B) l) = true)
    {p : Paving} (hp : p.WF) {d : Box n K} (hd : GoodBox R d) (hn : ¬target P d ⊆ p.closed (gridMap R o l)) (fuel : ℕ) :
    reducePaver R o l gfuel P fineness fuel p d = none := by
  have hφ := Grid.gridMap_mono R o l fun j => (hl j).le
  cases h : reducePaver R o l gfuel P fineness fuel p d with
  | none => rfl
  | some q =>
    exfalso
    have hq := (C71_reduce hP hl hp hd.rep h).2.2
    obtain ⟨y, hy, hyn⟩ := Set.not_subset.1 hn
    simp only [reducePaver, Option.bind_eq_some_iff, Option.map_eq_some_iff] at h
    obtain ⟨b, h1, q', h2, rfl⟩ := h
    obtain ⟨g1, g2⟩ := reduceRec_tight hP hcon hφ fuel p d b q' hp hd h2
    have hyq := hq hy
    rw [(recombine_closed hφ g1).2] at hyq
    rcases g2 y hyq with h | ⟨c, B, -, -, e3, e4, -, -, -, e8⟩
    · exact hyn h
    · rw [hw c B (by rw [e3, max_eq_right]; exact (rootCell_depth h1).trans (by positivity)) e4] at e8
      cases e8

/-- **C71**: likewise for the constraint paver. -/
theorem C71_constraint_uncertain [Archimedean K] {P : Problem n m k K} (hP : Sound R P)
    (hl : ∀ j, 0 < l j) {gfuel fineness : ℕ}
    (hw : ∀ c B, depth m c = ((fineness * m : ℕ) : ℤ) → GoodBox R B →
      Ext.lt (boxRadius R (cellBox (gridMap R o l) c)) (boxRadius R (image P.f B)) = true)
    {p : Paving} (hp : p.WF) {d : Box n K} (hd : GoodBox R d) (hn : ¬target P d ⊆ p.closed (gridMap R o l)) (fuel : ℕ) :
    constraintPaver R o l gfuel P fineness fuel p d = none := by
  have hφ := Grid.gridMap_mono R o l fun j => (hl j).le
  cases h : constraintPaver R o l gfuel P fineness fuel p d with
  | none => rfl
  | some q =>
    exfalso
    have hq := (C71_constraint hP hl hp hd.rep h).2.2
    obtain ⟨y, hy, hyn⟩ := Set.not_subset.1 hn
    simp only [constraintPaver, Option.bind_eq_some_iff] at h
    obtain ⟨b, h1, h2⟩ := h
    rcases (constraintRec_tight hφ fuel p d b q hp hd h2).2 y (hq hy) with h | ⟨c, B, -, -, e3, e4, -, -, -, e8⟩
    · exact hyn h
    · rw [hw c B (by rw [e3, max_eq_right]; exact (rootCell_depth h1).trans (by positivity)) e4] at e8
      cases e8

end

/-- Exact arithmetic. -/
abbrev RQ : Rounding ℚ := TaylorModel.exactRounding

/-- The grid of the integers on the line. -/
abbrev og : Fin 1 → ℚ := fun _ => 0

/-- The grid of the integers on the line. -/
abbrev lg : Fin 1 → ℚ := fun _ => 1

theorem lg_pos (j : Fin 1) : 0 < lg j := one_pos

theorem grid_id : gridMap RQ og lg = fun _ x => x := by
  funext j x
  simp [gridMap, TaylorModel.exactRounding]

theorem scaled_one {B : Box 1 ℚ} {a b : ℚ} (h : B 0 = ⟨fin a, fin b⟩) (hab : a ≤ b) :
    maximumScaledWidth RQ B lg = fin (b - a) := by
  simp only [maximumScaledWidth, List.finRange_succ, List.finRange_zero, List.map_nil, List.foldl_cons,
    List.foldl_nil, h, width, Ext.sub, Ext.neg, Ext.add, XRounding.ofRounding, TaylorModel.exactRounding, Ext.div, id]
  rw [if_neg one_ne_zero, ext_max_fin, div_one, max_eq_left (by linarith), sub_eq_add_neg]

theorem radius_one {B : Box 1 ℚ} {a b : ℚ} (h : B 0 = ⟨fin a, fin b⟩) : boxRadius RQ B = fin ((b - a) / 2) := by
  have e : VSet.radius (.ofRounding RQ) (B 0) = fin ((b - a) / 2) := by
    simp only [h, VSet.radius, Bounds.value, Ext.hlf, Ext.sub, Ext.neg, Ext.add, XRounding.ofRounding,
      TaylorModel.exactRounding, id]
    rw [ext_max_fin]
    congr 1
    rw [max_eq_left (by linarith)]
    ring
  simp only [boxRadius, List.finRange_succ, List.finRange_zero, List.map_nil, List.foldl_cons, List.foldl_nil, e]
  rw [ext_max_fin, max_self]

/-- The points of `d` at which `x` is in `b`. -/
def lineP (b : Bounds ℚ) : Problem 1 1 1 ℚ where
  f _ := idf
  g _ := idf
  c _ := b
  hull _ _ B := B
  jac _ _ _ := ⟨fin 1, fin 1⟩

theorem lineP_sound (b : Bounds ℚ) : Sound RQ (lineP b) :=
  ⟨fun _ => idf_ok, fun _ => idf_ok, fun _ _ _ _ _ _ => ⟨trivial, trivial⟩, fun _ _ _ _ h _ => h, fun _ _ _ h _ => h⟩

theorem lineP_contracts (b : Bounds ℚ) : Contracts RQ (lineP b) :=
  ⟨fun _ _ _ _ h => monoPts_exact h, fun _ _ _ _ h => h⟩

theorem lineP_fin (b : Bounds ℚ) (i : Fin 1) (B : Box 1 ℚ) (hB : GoodBox RQ B) :
    ∃ a c, ((lineP b).f i).ev B = ⟨fin a, fin c⟩ := by
  obtain ⟨u, v, e, -⟩ := hB 0
  exact ⟨u, v, e⟩

/-- The empty paving. -/
def none0 : Paving := ⟨0, .leaf .false_⟩

theorem none0_wf : none0.WF := by simp [none0, Paving.WF, Tree.WF]

/-- The paving of `[0,1/2]` obtained by contraction from `0 ≤ x ≤ 1/2` on `[0,1]`, with cells of width `1/4`. -/
theorem reduce_run : (reducePaver RQ og lg 5 (lineP ⟨fin 0, fin (1 / 2)⟩) 2 40 none0 (ivl 0 1)).isSome = true := by
  decide +kernel

theorem constraint_run :
    (constraintPaver RQ og lg 5 (lineP ⟨fin 0, fin (1 / 2)⟩) 2 40 none0 (ivl 0 1)).isSome = true := by
  decide +kernel

/-- The set `0 ≤ x ≤ 1/2` on `[0,1]`. -/
def lineS : VSet 1 1 ℚ := VSet.make (ivl 0 1) (fun _ => idf) [between 0 (1 / 2)]

theorem subdivision_run : (subdivPaver RQ og lg 5 2 40 none0 lineS).isSome = true := by
  decide +kernel

/-- A point of the set. -/
theorem line_target : pt (1 / 4) ∈ target (lineP ⟨fin 0, fin (1 / 2)⟩) (ivl 0 1) := by
  refine ⟨pt (1 / 4), mem_ivl.2 ⟨by norm_num, by norm_num⟩, fun i => ?_, ?_⟩
  · exact ⟨show (0 : ℚ) ≤ 1 / 4 by norm_num, show (1 / 4 : ℚ) ≤ 1 / 2 by norm_num⟩
  · funext i
    rfl

theorem none0_closed : none0.closed (gridMap RQ og lg) = ∅ := by
  rw [Paving.closed_eq _ (Grid.gridMap_mono RQ og lg fun j => (lg_pos j).le)]
  ext y
  simp only [none0, Grid.closureOf, Set.mem_setOf_eq, Set.mem_empty_iff_false, iff_false, not_exists, not_and]
  rintro P ⟨w, hw, -⟩
  cases w <;> simp [Tree.leafAt] at hw

example : ∃ q, reducePaver RQ og lg 5 (lineP ⟨fin 0, fin (1 / 2)⟩) 2 40 none0 (ivl 0 1) = some q ∧
    pt (1 / 4) ∈ q.closed (gridMap RQ og lg) ∧ pt (1 / 4) ∉ none0.closed (gridMap RQ og lg) := by
  obtain ⟨q, h⟩ := Option.isSome_iff_exists.1 reduce_run
  exact ⟨q, h, (C71_reduce (lineP_sound _) lg_pos none0_wf (good_ivl (by norm_num)).rep h).2.2 line_target,
    by simp [none0_closed]⟩

example : ∃ q, constraintPaver RQ og lg 5 (lineP ⟨fin 0, fin (1 / 2)⟩) 2 40 none0 (ivl 0 1) = some q ∧
    pt (1 / 4) ∈ q.closed (gridMap RQ og lg) ∧ pt (1 / 4) ∉ none0.closed (gridMap RQ og lg) := by
  obtain ⟨q, h⟩ := Option.isSome_iff_exists.1 constraint_run
  exact ⟨q, h, (C71_constraint (lineP_sound _) lg_pos none0_wf (good_ivl (by norm_num)).rep h).2.2 line_target,
    by simp [none0_closed]⟩

/-- The tightness theorems keep `2` out of the paving. -/
example : ∃ q, reducePaver RQ og lg 5 (lineP ⟨fin 0, fin (1 / 2)⟩) 2 40 none0 (ivl 0 1) = some q ∧
    pt 2 ∉ q.closed (gridMap RQ og lg) := by
  obtain ⟨q, h⟩ := Option.isSome_iff_exists.1 reduce_run
  refine ⟨q, h, fun hy => ?_⟩
  obtain ⟨c, x, B, w, -, h2, h3, -, -, -, h7, h8⟩ := C71_reduce_tight (lineP_sound _) (lineP_contracts _) lg_pos
    (lineP_fin _) none0_wf (good_ivl (by norm_num)) h hy (by simp [none0_closed])
  have h9 := h8 0
  have h10 : (spaceBox (gridMap RQ og lg) c.extent c.word 0).2 - (spaceBox (gridMap RQ og lg) c.extent c.word 0).1 =
      1 / 2 ^ 2 := by
    rw [grid_id]
    exact h2 0
  have h11 : w = 1 / 2 ^ 2 := by
    rw [scaled_one (B := cellBox (gridMap RQ og lg) c) rfl (by norm_num at h10; linarith), h10] at h7
    exact (Ext.fin.inj h7).symm
  have h12 := h3 0
  simp only [ivl] at h12
  obtain ⟨h12, h13⟩ := h12
  simp only [IsLower, IsUpper] at h12 h13
  have h14 : vval (lineP ⟨fin 0, fin (1 / 2)⟩).f x 0 = x 0 := rfl
  rw [h14, h11, abs_le] at h9
  simp only [pt, lg] at h9
  norm_num at h9
  linarith [h9.2]

theorem lineS_made : Made RQ (tools 0) lineS := .make rep_ivl (fun _ => idf_ok) (by simp [between, idf_ok])

example : ∃ q, subdivPaver RQ og lg 5 2 40 none0 lineS = some q ∧ pt (1 / 4) ∈ q.closed (gridMap RQ og lg) := by
  obtain ⟨q, h⟩ := Option.isSome_iff_exists.1 subdivision_run
  refine ⟨q, h, (C71_subdivision (tools_hull 0) lg_pos lineS_made (fun _ _ _ _ _ _ => ⟨trivial, trivial⟩) none0_wf h).2.2 ?_⟩
  refine ⟨pt (1 / 4), mem_ivl.2 ⟨by norm_num, by norm_num⟩, fun c hc => ?_, rfl⟩
  rw [List.mem_singleton.1 hc]
  exact ⟨show (0 : ℚ) ≤ 1 / 4 by norm_num, show (1 / 4 : ℚ) ≤ 1 / 2 by norm_num⟩

example {q : Paving} (h : subdivPaver RQ og lg 5 2 40 none0 lineS = some q) {y : Fin 1 → ℚ}
    (hy : y ∈ q.closed (gridMap RQ og lg)) :
    ∃ x z, Mem (ivl 0 1) x ∧ (∀ j, |z j - vval (fun _ : Fin 1 => idf) x j| ≤ lg j / 2 ^ 2) ∧
      (y = z ∨ ∃ c, y ∈ cellSet (gridMap RQ og lg) c ∧ z ∈ cellSet (gridMap RQ og lg) c ∧
        ∀ j, (Grid.Cell.box ℚ 1 c j).2 - (Grid.Cell.box ℚ 1 c j).1 = 1 / 2 ^ 2) :=
  C71_subdivision_tight lg_pos (fun _ => idf_ok) (fun _ _ _ _ _ _ => ⟨trivial, trivial⟩) (good_ivl (by norm_num))
    (Or.inl rep_ivl) none0_wf h hy (by simp [none0_closed])

/-! ## An uncertain function -/

/-- The constant `5`, known up to an error of `5`. -/
def vague : Func 1 ℚ := ⟨fun _ => 5, fun _ => ⟨fin 0, fin 10⟩⟩

/-- The set `{5}`. -/
def vagueP : Problem 1 1 0 ℚ where
  f _ := vague
  g := Fin.elim0
  c := Fin.elim0
  hull _ _ B := B
  jac _ _ _ := ⟨fin 0, fin 0⟩

theorem vagueP_sound : Sound RQ vagueP :=
  ⟨fun _ _ _ _ => ⟨show (0 : ℚ) ≤ 5 by norm_num, show (5 : ℚ) ≤ 10 by norm_num⟩, fun i => i.elim0,
    fun _ _ _ _ _ _ => ⟨trivial, trivial⟩, fun _ _ _ _ h _ => h, fun _ _ _ h _ => h⟩

/-- **C71**: both pavers fail on the set `{5}` when the constant `5` is known up to an error only: neither returns,
whatever the number of steps. -/
theorem C71_uncertain_diverges (fuel : ℕ) :
    reducePaver RQ og lg 7 vagueP 0 fuel none0 (ivl 0 1) = none ∧
    constraintPaver RQ og lg 7 vagueP 0 fuel none0 (ivl 0 1) = none := by
  have hg : GoodBox RQ (ivl 0 1) := good_ivl (by norm_num)
  have hn : ¬target vagueP (ivl 0 1) ⊆ none0.closed (gridMap RQ og lg) := by
    rw [none0_closed, Set.subset_empty_iff]
    exact Set.nonempty_iff_ne_empty.1 ⟨_, pt 0, mem_ivl.2 ⟨le_rfl, by norm_num⟩, fun i => i.elim0, rfl⟩
  have hwid : ∀ c : Cell, depth 1 c = ((0 * 1 : ℕ) : ℤ) → (spaceBox (gridMap RQ og lg) c.extent c.word 0).2 =
      (spaceBox (gridMap RQ og lg) c.extent c.word 0).1 + 1 := by
    intro c hc
    have := width_depth (K := ℚ) hc 0
    rw [grid_id]
    have h : (spaceBox (fun (_ : Fin 1) (x : ℚ) => x) c.extent c.word 0).2 -
      (spaceBox (fun (_ : Fin 1) (x : ℚ) => x) c.extent c.word 0).1 = 1 / 2 ^ 0 := this
    norm_num at h
    linarith
  have him : ∀ B : Box 1 ℚ, GoodBox RQ B → ∀ i, image vagueP.f B i = ⟨fin 0, fin 10⟩ := fun B hB i => by
    rw [image, apply_eq (corner_mem hB)]
    rfl
  constructor
  · refine C71_reduce_uncertain vagueP_sound ⟨fun _ _ _ _ h => monoPts_exact h, fun _ _ _ _ h => h⟩ lg_pos ?_ none0_wf hg hn fuel
    intro c B hc hB
    rw [scaled_one (him B hB 0) (by norm_num),
      scaled_one (B := cellBox (gridMap RQ og lg) c) rfl (by rw [hwid c hc]; linarith), hwid c hc]
    norm_num [Ext.lt]
  · refine C71_constraint_uncertain vagueP_sound lg_pos ?_ none0_wf hg hn fuel
    intro c B hc hB
    rw [radius_one (him B hB 0), radius_one (B := cellBox (gridMap RQ og lg) c) rfl, hwid c hc]
    norm_num [Ext.lt]

/-! ## The optimal constraint paver -/

/-- The function `x+100`. -/
def farf : Func 1 ℚ := ⟨fun p => p 0 + 100, fun B => Bounds.add XQ (B 0) ⟨fin 100, fin 100⟩⟩

/-- The image of `[0,1]` under `x+100`, with the constraint `0 ≤ x ≤ 1`. -/
def farP : Problem 1 1 1 ℚ where
  f _ := farf
  g _ := idf
  c _ := ⟨fin 0, fin 1⟩
  hull _ _ B := B
  jac _ _ _ := ⟨fin 1, fin 1⟩

/-- The contractor which does nothing, and a combined function of which nothing is known. -/
def noDual : Dual 1 2 ℚ := ⟨fun _ _ _ _ => ⟨.ninf, .pinf⟩, fun _ _ _ B => B⟩

/-- A paving with one cell, which contains `[0,1]`. -/
def one2 : Paving := ⟨2, .leaf .true_⟩

/-- **C71**: the optimal constraint paver looks for the image in the primary cell of the *constraint* function: if this
cell is in the paving, then the paving is returned as it is, although it does not cover the image. -/
theorem C71_optimal_root_wrong :
    optimalPaver RQ og lg 5 farP noDual 2 1 one2 (ivl 0 1) = some one2 ∧
    ¬target farP (ivl 0 1) ⊆ one2.closed (gridMap RQ og lg) := by
  refine ⟨by decide +kernel, fun h => ?_⟩
  have h1 : pt 100 ∈ target farP (ivl 0 1) := by
    refine ⟨pt 0, mem_ivl.2 ⟨le_rfl, by norm_num⟩, fun i => ⟨show (0 : ℚ) ≤ 0 from le_rfl, show (0 : ℚ) ≤ 1 by norm_num⟩, ?_⟩
    funext i
    show (0 : ℚ) + 100 = 100
    norm_num
  have h2 := h h1
  rw [Paving.closed_eq _ (Grid.gridMap_mono RQ og lg fun j => (lg_pos j).le)] at h2
  obtain ⟨P, -, h3⟩ := h2
  have h4 := (h3 0 0).2
  rw [grid_id] at h4
  have h5 : (spaceBox (fun (_ : Fin 1) (x : ℚ) => x) one2.extent (Grid.pre P 0) 0).2 ≤ 99 := by
    show (spaceBox (fun (_ : Fin 1) (x : ℚ) => x) 2 [] 0).2 ≤ 99
    decide +kernel
  have := h4.trans h5
  simp only [pt] at this
  norm_num at this

theorem noDual_ok (f : Fin 2 → (Fin 1 → ℚ) → ℚ) : DualOk RQ noDual f :=
  ⟨fun _ _ _ _ _ _ _ => ⟨trivial, trivial⟩, fun _ _ _ _ h _ => h, fun _ _ _ h _ => h⟩

/-- The constraint function and the function give the same cell, and the paver never returns from the empty paving. -/
example (fuel : ℕ) : optimalPaver RQ og lg 5 (lineP ⟨fin 0, fin 1⟩) noDual 2 fuel none0 (ivl 0 1) = none := by
  cases h : optimalPaver RQ og lg 5 (lineP ⟨fin 0, fin 1⟩) noDual 2 fuel none0 (ivl 0 1) with
  | none => rfl
  | some q =>
    obtain ⟨-, b, h1, h2⟩ := C71_optimal_never_adds (noDual_ok fun _ _ => 0) lg_pos (good_ivl (by norm_num))
      (fun i => by rw [Subsingleton.elim i 0]; decide +kernel) h
    rw [none0_closed] at h2
    exact absurd (h2 (rootCell_sound (x := pt 0) lg_pos (fun _ => idf_ok) (fun _ _ _ _ _ _ => ⟨trivial, trivial⟩)
      rep_ivl h1 (mem_ivl.2 ⟨le_rfl, by norm_num⟩))) (by simp)

/-! ## The affine paver -/

/-- Everything is split once: `[0,2]` becomes `[0,1]` and `[1,2]`. -/
example : (affineDomains RQ (fun d => (some 0, width XQ (d 0))) (3 / 2) 16 [ivl 0 2]).map (fun d => (d 0).l) =
    [fin 0, fin 1] := by
  decide +kernel

example {q : Paving} (h : affinePaver RQ (fun d : Box 1 ℚ => (some 0, width XQ (d 0))) 0
    (fun d p => constraintPaver RQ og lg 5 (lineP ⟨fin 0, fin 1⟩) 0 40 p d) none0 (ivl 0 1) = some q) :
    target (lineP ⟨fin 0, fin 1⟩) (ivl 0 1) ⊆ q.closed (gridMap RQ og lg) :=
  (C71_affine (fun _ _ _ hp hd h => C71_constraint (lineP_sound _) lg_pos hp hd.rep h) none0_wf
    (good_ivl (by norm_num)) h).2.2

example : (affinePaver RQ (fun d : Box 1 ℚ => (some 0, width XQ (d 0))) 0
    (fun d p => constraintPaver RQ og lg 5 (lineP ⟨fin 0, fin 1⟩) 0 40 p d) none0 (ivl 0 1)).isSome = true := by
  decide +kernel

end Verif.Paver
