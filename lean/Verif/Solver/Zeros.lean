import Verif.Solver.Props

/-!
# C57: the equation solver
-/

namespace Verif.Solver

open Ariadne Verif.ConstraintSolver Verif.Matrix Set
open Ariadne.Ext (fin)

section Zero

variable {n : ℕ} {R : Rounding ℝ}

local notation "XR" => XRounding.ofRounding R

/-- The largest error of a box is a nonnegative number. -/
theorem supError_fin {X : Box n ℝ} (hX : GoodBox R X) : ∃ w, supError XR X = fin w ∧ 0 ≤ w := by
  have key : ∀ (l : List (Fin n)) (s : ℝ), 0 ≤ s →
      ∃ w, l.foldl (fun r i => Ext.max r (Bounds.error XR (X i))) (fin s) = fin w ∧ 0 ≤ w := by
    intro l
    induction l with
    | nil => intro s hs; exact ⟨s, rfl, hs⟩
    | cons i l ih =>
      intro s hs
      have h1 : ∃ c, Bounds.error XR (X i) = fin c := by
        obtain ⟨a, b, e, -⟩ := hX i
        rw [e]
        have key2 : ∀ x y : ℝ, ∃ c, Ext.max (fin x) (fin y) = fin c := by
          intro x y
          unfold Ext.max
          split_ifs
          exacts [⟨y, rfl⟩, ⟨x, rfl⟩]
        exact key2 _ _
      obtain ⟨c, hc⟩ := h1
      simp only [List.foldl_cons, hc]
      by_cases h : s < c
      · rw [show Ext.max (fin s) (fin c) = fin c by simp [Ext.max, Ext.lt, h]]
        exact ih c (hs.trans h.le)
      · rw [show Ext.max (fin s) (fin c) = fin s by simp [Ext.max, Ext.lt, h]]
        exact ih s hs
  exact key _ 0 le_rfl

/-- The widened box after the last step. -/
noncomputable def widened (X : XRounding ℝ) (eps : ℝ) (r : Box n ℝ) : Box n ℝ := fun i =>
  Bounds.add X (r i) ⟨(Ext.mul X.up (fin eps) (supError X r)).neg, Ext.mul X.up (fin eps) (supError X r)⟩

theorem widened_good {X : Box n ℝ} (hX : GoodBox R X) {eps : ℝ} (he : 0 ≤ eps) :
    GoodBox R (widened XR eps X) ∧ ∀ p, Mem X p → Mem (widened XR eps X) p := by
  obtain ⟨w, hw, hw0⟩ := supError_fin hX
  have h0 : (0 : ℝ) ≤ R.up (eps * w) := (mul_nonneg he hw0).trans (R.le_up _)
  have hin : In (⟨(Ext.mul (XRounding.ofRounding R).up (fin eps) (supError XR X)).neg,
      Ext.mul (XRounding.ofRounding R).up (fin eps) (supError XR X)⟩ : Bounds ℝ) 0 := by
    rw [hw]
    refine ⟨⟨⟨-R.up (eps * w), rfl⟩, R.up (eps * w), rfl⟩, ?_, h0⟩
    show -R.up (eps * w) ≤ 0
    linarith
  refine ⟨fun i => ?_, fun p hp i => ?_⟩
  · obtain ⟨a, b, e, ha, hb, hab⟩ := hX i
    have : In (X i) a := ⟨by rw [e]; exact ⟨⟨a, rfl⟩, b, rfl⟩, by rw [e]; exact ⟨le_rfl, hab⟩⟩
    exact rep_add R this hin
  · have := (in_add R (GoodBox.mem_in R hX hp i) hin).2
    rwa [add_zero] at this

variable {F : VFn n ℝ} {f : (Fin n → ℝ) → Fin n → ℝ} {step : Box n ℝ → Option (Box n ℝ)}

/-- The function is enclosed on finite boxes. -/
def EnclosesF (F : VFn n ℝ) (f : (Fin n → ℝ) → Fin n → ℝ) : Prop :=
  ∀ X p, (∀ i, In (X i) (p i)) → ∀ i, In (F X i) (f p i)

theorem finite_zeroBox (i : Fin n) : (zeroBox i : Bounds ℝ).Finite := ⟨⟨0, rfl⟩, 0, rfl⟩

theorem mem_zeroBox : Mem (zeroBox : Box n ℝ) 0 := fun _ => ⟨le_rfl, le_rfl⟩

theorem consistent_of_zero (hF : EnclosesF F f) {X : Box n ℝ} (hX : GoodBox R X) {z : Fin n → ℝ}
    (hz : Mem X z) (h0 : f z = 0) : vConsistent (F X) zeroBox = true ∧ vInconsistent (F X) zeroBox = false := by
  have := hF X z (GoodBox.mem_in R hX hz)
  have h1 : Mem (F X) 0 := fun i => by have := (this i).2; rwa [h0] at this
  exact ⟨vConsistent_of_mem (fun i => (this i).1) finite_zeroBox h1 mem_zeroBox,
    vInconsistent_of_mem (fun i => (this i).1) finite_zeroBox h1 mem_zeroBox⟩

/-- Everything about the loop of `zero`. -/
theorem zeroLoop_spec (hs : StepSound R f step) (hF : EnclosesF F f) {eps e : ℝ} (he : 0 ≤ eps)
    {bx : Box n ℝ} : ∀ (k : ℕ) (b : Bool) (r : Box n ℝ), GoodBox R r →
    (∀ z, Mem r z → Mem bx z) → (∀ z, Mem bx z → f z = 0 → Mem r z) →
    (b = true → ∃ z, Mem r z ∧ f z = 0) →
    (∀ y, zeroLoop XR step F eps e k b r = .ok y → GoodBox R y ∧ (∀ z, Mem bx z → f z = 0 → Mem y z) ∧
      ∃ z, Mem y z ∧ f z = 0 ∧ (Mem bx z ∨ ∃ r', GoodBox R r' ∧ (∀ z, Mem r' z → Mem bx z) ∧
        Mem (widened XR eps r') z)) ∧
    (zeroLoop XR step F eps e k b r = .noSolution → ∀ z, Mem bx z → f z ≠ 0) := by
  intro k
  induction k with
  | zero =>
    intro b r hr hin hlost _
    have hw := widened_good hr he
    have hunf : zeroLoop XR step F eps e 0 b r = if vConsistent (F r) zeroBox = false then .noSolution
        else match step (widened XR eps r) with
          | none => .singular
          | some nr => if vRefines nr (widened XR eps r) then .ok nr else .solverException := by
      rw [zeroLoop, zeroFinal]
      split_ifs with hc
      · rfl
      · simp only [show (fun i => Bounds.add XR (r i) ⟨(Ext.mul (XRounding.ofRounding R).up (fin eps)
          (supError XR r)).neg, Ext.mul (XRounding.ofRounding R).up (fin eps) (supError XR r)⟩) =
          widened XR eps r from rfl]
        cases step (widened XR eps r) <;> rfl
    rw [hunf]
    by_cases hc : vConsistent (F r) zeroBox = false
    · rw [if_pos hc]
      refine ⟨by simp, fun _ z hz h0 => ?_⟩
      rw [(consistent_of_zero hF hr (hlost z hz h0) h0).1] at hc
      exact absurd hc (by simp)
    · rw [if_neg hc]
      cases hst : step (widened XR eps r) with
      | none => simp
      | some nr =>
        obtain ⟨g1, g2, g3⟩ := hs _ _ hw.1 hst
        simp only
        split_ifs with href
        · refine ⟨fun y hy => ?_, by simp⟩
          obtain rfl : nr = y := by simpa using hy
          obtain ⟨z, hz, h0⟩ := g3 href
          exact ⟨g1, fun z hz h0 => g2 z (hw.2 z (hlost z hz h0)) h0, z, hz, h0,
            Or.inr ⟨r, hr, hin, vRefines_mem R hw.1 g1 href hz⟩⟩
        · simp
  | succ k ih =>
    intro b r hr hin hlost hb
    rw [zeroLoop]
    cases hst : step r with
    | none => simp
    | some nr =>
      obtain ⟨g1, g2, g3⟩ := hs _ _ hr hst
      have hb' : (b || vRefines nr r) = true → ∃ z, Mem nr z ∧ Mem r z ∧ f z = 0 := by
        intro h
        rcases Bool.or_eq_true _ _ ▸ h with h | h
        · obtain ⟨z, hz, h0⟩ := hb h
          exact ⟨z, g2 z hz h0, hz, h0⟩
        · obtain ⟨z, hz, h0⟩ := g3 h
          exact ⟨z, hz, vRefines_mem R hr g1 h hz, h0⟩
      have hl : ∀ z, Mem bx z → f z = 0 → Mem nr z := fun z hz h0 => g2 z (hlost z hz h0) h0
      simp only
      split_ifs with h1 h2
      · refine ⟨fun y hy => ?_, by simp⟩
        obtain rfl : nr = y := by simpa using hy
        obtain ⟨z, hz, hzr, h0⟩ := hb' (by rw [Bool.and_eq_true] at h1; exact h1.1)
        exact ⟨g1, hl, z, hz, h0, Or.inl (hin z hzr)⟩
      · refine ⟨by simp, fun _ z hz h0 => ?_⟩
        rw [vConsistent_of_mem (fun i => (GoodBox.mem_in R g1 (hl z hz h0) i).1)
          (fun i => (GoodBox.mem_in R hr (hlost z hz h0) i).1) (hl z hz h0) (hlost z hz h0)] at h2
        exact absurd h2 (by simp)
      · have hc : vConsistent nr r = true := by simpa using h2
        have hmeet : ∀ z, Mem nr z → Mem r z → Mem (fun i => Bounds.refinement (nr i) (r i)) z :=
          fun z h1 h2 i => refinement_contains (h1 i) (h2 i)
        refine ih _ _ (goodBox_refinement R g1 hr hc) (fun z hz => hin z (mem_refinement R g1 hr hz).2)
          (fun z hz h0 => hmeet z (hl z hz h0) (hlost z hz h0)) fun h => ?_
        obtain ⟨z, hz, hzr, h0⟩ := hb' h
        exact ⟨z, hmeet z hz hzr, h0⟩

/-- **C57**: if `zero` returns an enclosure, it contains a zero of the function, and every zero of the
box.  The zero is in the box or, at most, in a box widened by the rounding error. -/
theorem C57_zero_found (hs : StepSound R f step) (hF : EnclosesF F f) {eps e : ℝ} (he : 0 ≤ eps) {steps : ℕ}
    {bx y : Box n ℝ} (hbx : GoodBox R bx) (h : zero XR step F eps e steps bx = .ok y) :
    GoodBox R y ∧ (∀ z, Mem bx z → f z = 0 → Mem y z) ∧ ∃ z, Mem y z ∧ f z = 0 ∧
      (Mem bx z ∨ ∃ r, GoodBox R r ∧ (∀ z, Mem r z → Mem bx z) ∧ Mem (widened XR eps r) z) :=
  (zeroLoop_spec hs hF he steps false bx hbx (fun _ h => h) (fun _ h _ => h) (by simp)).1 y h

/-- **C57**: if `zero` reports that there is no solution, the function has no zero in the box. -/
theorem C57_zero_none (hs : StepSound R f step) (hF : EnclosesF F f) {eps e : ℝ} (he : 0 ≤ eps) {steps : ℕ}
    {bx : Box n ℝ} (hbx : GoodBox R bx) (h : zero XR step F eps e steps bx = .noSolution) :
    ∀ z, Mem bx z → f z ≠ 0 :=
  (zeroLoop_spec hs hF he steps false bx hbx (fun _ h => h) (fun _ h _ => h) (by simp)).2 h

/-! ## Splitting -/

theorem exactMid_mem {a b : ℝ} (ha : R.Rep a) (hb : R.Rep b) (hab : a ≤ b) :
    ∃ m, exactMid XR ⟨fin a, fin b⟩ = fin m ∧ R.Rep m ∧ a ≤ m ∧ m ≤ b := by
  have h1 : a ≤ R.down (a + b) / 2 := by
    have := R.down_max _ _ (R.rep_two a ha) (show 2 * a ≤ a + b by linarith)
    linarith
  have h2 : R.up (a + b) / 2 ≤ b := by
    have := R.up_min _ _ (R.rep_two b hb) (show a + b ≤ 2 * b by linarith)
    linarith
  have h3 : R.down (a + b) / 2 ≤ R.up (a + b) / 2 := by
    have := (R.down_le (a + b)).trans (R.le_up (a + b))
    linarith
  obtain ⟨v, hv, h4, h5⟩ := Bounds.C08_value_mem R h3 (R.rep_half _ (R.rep_down _)) (R.rep_half _ (R.rep_up _))
  refine ⟨v, hv, ?_, h1.trans h4, h5.trans h2⟩
  have : ∃ t, (Bounds.value XR ⟨fin (R.down (a + b) / 2), fin (R.up (a + b) / 2)⟩) = fin t ∧ R.Rep t := by
    refine ⟨_, rfl, ?_⟩
    first | exact rep_near _ | exact R.rep_half _ (rep_near _)
  obtain ⟨t, ht, hr⟩ := this
  rw [hv] at ht
  obtain rfl : v = t := by simpa using ht
  exact hr

/-- Splitting a box covers it. -/
theorem splitE_spec {X : Box n ℝ} (hX : GoodBox R X) {s : Box n ℝ × Box n ℝ} (h : splitE XR X = some s) :
    GoodBox R s.1 ∧ GoodBox R s.2 ∧ (∀ z, Mem s.1 z → Mem X z) ∧ (∀ z, Mem s.2 z → Mem X z) ∧
      ∀ z, Mem X z → Mem s.1 z ∨ Mem s.2 z := by
  simp only [splitE, Option.map_eq_some_iff] at h
  obtain ⟨k, -, rfl⟩ := h
  obtain ⟨a, b, e, ha, hb, hab⟩ := hX k
  obtain ⟨m, hm, hr, h1, h2⟩ := exactMid_mem ha hb hab
  rw [e, hm]
  refine ⟨fun i => ?_, fun i => ?_, fun z hz i => ?_, fun z hz i => ?_, fun z hz => ?_⟩
  · rcases eq_or_ne i k with rfl | hi
    · exact ⟨a, m, by simp, ha, hr, h1⟩
    · simpa [hi] using hX i
  · rcases eq_or_ne i k with rfl | hi
    · exact ⟨m, b, by simp, hr, hb, h2⟩
    · simpa [hi] using hX i
  · have := hz i
    rcases eq_or_ne i k with rfl | hi
    · simp only [Function.update_self] at this
      rw [e]; exact ⟨this.1, le_trans (show z i ≤ m from this.2) h2⟩
    · simpa [hi] using this
  · have := hz i
    rcases eq_or_ne i k with rfl | hi
    · simp only [Function.update_self] at this
      rw [e]; exact ⟨h1.trans (show m ≤ z i from this.1), this.2⟩
    · simpa [hi] using this
  · have hk := hz k
    rw [e] at hk
    rcases le_total (z k) m with hle | hle
    · refine Or.inl fun i => ?_
      rcases eq_or_ne i k with rfl | hi
      · simp only [Function.update_self]; exact ⟨hk.1, hle⟩
      · simpa [hi] using hz i
    · refine Or.inr fun i => ?_
      rcases eq_or_ne i k with rfl | hi
      · simp only [Function.update_self]; exact ⟨hle, hk.2⟩
      · simpa [hi] using hz i

/-! ## The set of solutions -/

theorem insertSet_sub {s : List (Box n ℝ)} {X Y : Box n ℝ} (h : Y ∈ insertSet s X) : Y ∈ s ∨ Y = X := by
  unfold insertSet at h
  split_ifs at h
  · exact Or.inl h
  · simpa using h

theorem insertAll_sub {l s : List (Box n ℝ)} {Y : Box n ℝ} (h : Y ∈ l.foldl insertSet s) : Y ∈ s ∨ Y ∈ l := by
  induction l generalizing s with
  | nil => exact Or.inl h
  | cons X l ih =>
    rcases ih h with h | h
    · rcases insertSet_sub h with h | rfl
      · exact Or.inl h
      · exact Or.inr (by simp)
    · exact Or.inr (by simp [h])

theorem sub_insertSet {s : List (Box n ℝ)} {X Y : Box n ℝ} (h : Y ∈ s) : Y ∈ insertSet s X := by
  unfold insertSet
  split_ifs
  · exact h
  · simp [h]

theorem sub_insertAll {l s : List (Box n ℝ)} {Y : Box n ℝ} (h : Y ∈ s) : Y ∈ l.foldl insertSet s := by
  induction l generalizing s with
  | nil => exact h
  | cons X l ih => exact ih (sub_insertSet h)

theorem insertSet_ne_nil (s : List (Box n ℝ)) (X : Box n ℝ) : insertSet s X ≠ [] := by
  unfold insertSet
  split_ifs with h
  · rintro rfl; simp at h
  · simp

theorem insertAll_ne_nil {l s : List (Box n ℝ)} (h : l ≠ []) : l.foldl insertSet s ≠ [] := by
  induction l generalizing s with
  | nil => exact absurd rfl h
  | cons X l ih =>
    obtain ⟨Y, hY⟩ := List.exists_mem_of_ne_nil _ (insertSet_ne_nil s X)
    exact List.ne_nil_of_mem (sub_insertAll (l := l) hY)

/-- Whether two enclosures are told apart by the comparison. -/
def Distinct (X Y : Box n ℝ) : Prop := vlt X Y = true ∨ vlt Y X = true

theorem insertAll_eq {l s : List (Box n ℝ)} (h : (s ++ l).Pairwise Distinct) : l.foldl insertSet s = s ++ l := by
  induction l generalizing s with
  | nil => simp
  | cons X l ih =>
    have h1 : insertSet s X = s ++ [X] := by
      unfold insertSet
      rw [if_neg]
      simp only [List.any_eq_true, not_exists, not_and]
      intro Y hY
      have := (List.pairwise_append.1 h).2.2 Y hY X (by simp)
      simp only [Bool.and_eq_true, Bool.not_eq_true', not_and]
      rcases this with h | h <;> simp [h]
    rw [List.foldl_cons, h1, ih (by simpa using h)]
    simp

variable {J : JFn n ℝ} {f' : (Fin n → ℝ) → Matrix (Fin n) (Fin n) ℝ}

/-- What a list of solutions says about a box. -/
structure SolSpec (R : Rounding ℝ) (f : (Fin n → ℝ) → Fin n → ℝ) (e : ℝ) (bx : Box n ℝ) (S : Solutions n ℝ) :
    Prop where
  /-- each enclosure contains a zero, and contains all zeros of a part of the box with at most one zero -/
  found : ∀ Y ∈ S.found, (∃ z, Mem Y z ∧ f z = 0) ∧ ∃ D, GoodBox R D ∧ (∀ z, Mem D z → Mem bx z) ∧
    (∀ x y, Mem D x → Mem D y → f x = 0 → f y = 0 → x = y) ∧ ∀ z, Mem D z → f z = 0 → Mem Y z
  /-- each zero of the box is in an enclosure or in a box given up -/
  covers : ∀ z, Mem bx z → f z = 0 → (∃ Y ∈ S.found, Mem Y z) ∨ ∃ D ∈ S.givenUp, Mem D z
  /-- only small boxes are given up -/
  small : ∀ D ∈ S.givenUp, (∀ z, Mem D z → Mem bx z) ∧ ∃ w, supError (.ofRounding R) D = fin w ∧ w < e
  sub : ∀ Y ∈ S.set, Y ∈ S.found
  nonempty : S.found ≠ [] → S.set ≠ []
  all : S.found.Pairwise Distinct → S.set = S.found

theorem SolSpec.nil {e : ℝ} {bx : Box n ℝ} (h : ∀ z, Mem bx z → f z ≠ 0) : SolSpec R f e bx ⟨[], [], []⟩ :=
  ⟨by simp, fun z hz h0 => absurd h0 (h z hz), by simp, by simp, by simp, by simp⟩

theorem SolSpec.giveUp {e : ℝ} {bx : Box n ℝ} (hbx : GoodBox R bx) (h : Ext.lt (supError XR bx) (fin e) = true) :
    SolSpec R f e bx ⟨[], [], [bx]⟩ := by
  obtain ⟨w, hw, -⟩ := supError_fin hbx
  refine ⟨by simp, fun z hz _ => Or.inr ⟨bx, by simp, hz⟩, ?_, by simp, by simp, by simp⟩
  intro D hD
  obtain rfl : D = bx := by simpa using hD
  refine ⟨fun _ h => h, w, hw, ?_⟩
  rw [hw] at h
  simpa [Ext.lt] using h

theorem solveAll_spec (hv : Valid F J f f') (hs : StepSound R f step) {eps e : ℝ} (he : 0 ≤ eps) {steps : ℕ} :
    ∀ (depth : ℕ) (bx : Box n ℝ), GoodBox R bx → ∀ S, solveAll XR step F J eps e steps depth bx = .ok S →
      SolSpec R f e bx S := by
  intro depth
  induction depth with
  | zero => intro bx _ S h; simp [solveAll] at h
  | succ depth ih =>
    intro bx hbx S h
    have hnext : ∀ inv, splitOrGiveUp XR (solveAll XR step F J eps e steps depth) J e inv bx = .ok S →
        SolSpec R f e bx S := by
      intro inv h
      rw [splitOrGiveUp] at h
      by_cases hlt : Ext.lt (supError XR bx) (fin e) = true
      · rw [if_pos hlt] at h
        have : S = ⟨[], [], [bx]⟩ := by
          split_ifs at h
          · simpa using h.symm
          · split at h
            · simp at h
            · simpa using h.symm
        rw [this]
        exact SolSpec.giveUp hbx hlt
      · rw [if_neg hlt] at h
        split at h
        · simp at h
        rename_i s hsp
        obtain ⟨q1, q2, q3, q4, q5⟩ := splitE_spec hbx hsp
        split at h <;> try (simp at h; done)
        rename_i S1 h1
        split at h <;> try (simp at h; done)
        rename_i S2 h2
        have r1 := ih s.1 q1 S1 h1
        have r2 := ih s.2 q2 S2 h2
        obtain rfl := (Outcome.ok.inj h).symm
        constructor
        · intro Y hY
          rcases List.mem_append.1 hY with hY | hY
          · obtain ⟨a, D, b, c, d⟩ := r1.found Y hY
            exact ⟨a, D, b, fun z hz => q3 z (c z hz), d⟩
          · obtain ⟨a, D, b, c, d⟩ := r2.found Y hY
            exact ⟨a, D, b, fun z hz => q4 z (c z hz), d⟩
        · intro z hz h0
          rcases q5 z hz with hz | hz
          · rcases r1.covers z hz h0 with ⟨Y, hY, h⟩ | ⟨Y, hY, h⟩
            · exact Or.inl ⟨Y, List.mem_append_left _ hY, h⟩
            · exact Or.inr ⟨Y, List.mem_append_left _ hY, h⟩
          · rcases r2.covers z hz h0 with ⟨Y, hY, h⟩ | ⟨Y, hY, h⟩
            · exact Or.inl ⟨Y, List.mem_append_right _ hY, h⟩
            · exact Or.inr ⟨Y, List.mem_append_right _ hY, h⟩
        · intro D hD
          rcases List.mem_append.1 hD with hD | hD
          · exact ⟨fun z hz => q3 z ((r1.small D hD).1 z hz), (r1.small D hD).2⟩
          · exact ⟨fun z hz => q4 z ((r2.small D hD).1 z hz), (r2.small D hD).2⟩
        · intro Y hY
          rcases insertAll_sub hY with hY | hY
          · rcases insertAll_sub hY with hY | hY
            · simp at hY
            · exact List.mem_append_left _ (r1.sub Y hY)
          · exact List.mem_append_right _ (r2.sub Y hY)
        · intro hne
          by_cases h1 : S1.found = []
          · have h2 : S2.found ≠ [] := by simpa [h1] using hne
            exact insertAll_ne_nil (r2.nonempty h2)
          · obtain ⟨Y, hY⟩ := List.exists_mem_of_ne_nil _ (insertAll_ne_nil (s := []) (r1.nonempty h1))
            exact List.ne_nil_of_mem (sub_insertAll hY)
        · intro hp
          have hp1 := (List.pairwise_append.1 hp).1
          have hp2 := (List.pairwise_append.1 hp).2.1
          show List.foldl insertSet (List.foldl insertSet [] S1.set) S2.set = S1.found ++ S2.found
          rw [r1.all hp1, r2.all hp2, insertAll_eq (s := []) (l := S1.found) (by simpa using hp1), List.nil_append,
            insertAll_eq hp]
    rw [solveAll] at h
    split_ifs at h with h1
    · rw [← Outcome.ok.inj h]
      refine SolSpec.nil fun z hz h0 => ?_
      rw [(consistent_of_zero hv.eval hbx hz h0).2] at h1
      exact absurd h1 (by simp)
    · simp only at h
      split_ifs at h with h2
      · obtain ⟨N, hN⟩ := Option.isSome_iff_exists.1 h2
        split at h
        · rename_i y hy
          rw [← Outcome.ok.inj h]
          obtain ⟨g1, g2, z, g3, g4, -⟩ := C57_zero_found hs hv.eval he hbx hy
          have hset : insertSet [] y = [y] := by simp [insertSet]
          refine ⟨?_, fun z hz h0 => Or.inl ⟨y, by simp, g2 z hz h0⟩, by simp, ?_, ?_, ?_⟩
          · intro Y hY
            obtain rfl : Y = y := by simpa using hY
            exact ⟨⟨z, g3, g4⟩, bx, hbx, fun _ h => h,
              fun a b ha hb h1 h2 => C57_unique (hv.at bx) hbx hN ha hb h1 h2, g2⟩
          · rw [hset]; exact fun Y hY => hY
          · intro _; rw [hset]; simp
          · intro _; exact hset
        · rename_i hy
          rw [← Outcome.ok.inj h]
          exact SolSpec.nil (C57_zero_none hs hv.eval he hbx hy)
        · exact hnext _ h
        · simp at h
        · simp at h
      · exact hnext _ h

theorem solveAll_ne_noSolution {eps e : ℝ} {steps : ℕ} : ∀ (depth : ℕ) (bx : Box n ℝ),
    solveAll XR step F J eps e steps depth bx ≠ .noSolution := by
  intro depth
  induction depth with
  | zero => intro bx h; simp [solveAll] at h
  | succ depth ih =>
    intro bx h
    have hnext : ∀ inv, splitOrGiveUp XR (solveAll XR step F J eps e steps depth) J e inv bx ≠ .noSolution := by
      intro inv h
      rw [splitOrGiveUp] at h
      split_ifs at h
      · split at h <;> simp at h
      · split at h
        · simp at h
        split at h <;> try (simp at h; done)
        · split at h <;> try (simp at h; done)
          rename_i h2
          exact ih _ h2
        · rename_i h2
          exact ih _ h2
    rw [solveAll] at h
    split_ifs at h
    simp only at h
    split_ifs at h
    · split at h <;> first | (simp at h; done) | exact hnext _ h
    · exact hnext _ h

/-- **C57**: `solve_all`.  Each set returned contains a zero.  Each zero of the box is in an enclosure
found, or in a small box which was given up with a warning.  Missing: what is returned says nothing of the
boxes given up. -/
theorem C57_solve_all_partial (hv : Valid F J f f') (hs : StepSound R f step) {eps e : ℝ} (he : 0 ≤ eps)
    {steps depth : ℕ} {bx : Box n ℝ} (hbx : GoodBox R bx) {S : Solutions n ℝ}
    (h : solveAll XR step F J eps e steps depth bx = .ok S) :
    (∀ Y ∈ S.set, ∃ z, Mem Y z ∧ f z = 0) ∧
    (∀ z, Mem bx z → f z = 0 → (∃ Y ∈ S.found, Mem Y z) ∨ ∃ D ∈ S.givenUp, Mem D z) ∧
    (∀ D ∈ S.givenUp, (∀ z, Mem D z → Mem bx z) ∧ ∃ w, supError XR D = fin w ∧ w < e) := by
  have := solveAll_spec hv hs he depth bx hbx S h
  exact ⟨fun Y hY => (this.found Y (this.sub Y hY)).1, this.covers, this.small⟩

/-- **C57**: if no box is given up and the enclosures are told apart, the set returned by `solve_all`
encloses all zeros of the box. -/
theorem C57_solve_all_complete (hv : Valid F J f f') (hs : StepSound R f step) {eps e : ℝ} (he : 0 ≤ eps)
    {steps depth : ℕ} {bx : Box n ℝ} (hbx : GoodBox R bx) {S : Solutions n ℝ}
    (h : solveAll XR step F J eps e steps depth bx = .ok S) (hg : S.givenUp = [])
    (hd : S.found.Pairwise Distinct) : ∀ z, Mem bx z → f z = 0 → ∃ Y ∈ S.set, Mem Y z := by
  have := solveAll_spec hv hs he depth bx hbx S h
  intro z hz h0
  rw [this.all hd]
  rcases this.covers z hz h0 with h | ⟨D, hD, -⟩
  · exact h
  · rw [hg] at hD; simp at hD

/-- **C57**: if no box is given up and the set returned by `solve_all` is empty, there is no zero in the
box. -/
theorem C57_solve_all_empty (hv : Valid F J f f') (hs : StepSound R f step) {eps e : ℝ} (he : 0 ≤ eps)
    {steps depth : ℕ} {bx : Box n ℝ} (hbx : GoodBox R bx) {S : Solutions n ℝ}
    (h : solveAll XR step F J eps e steps depth bx = .ok S) (hg : S.givenUp = []) (hS : S.set = []) :
    ∀ z, Mem bx z → f z ≠ 0 := by
  have := solveAll_spec hv hs he depth bx hbx S h
  intro z hz h0
  have hf : S.found = [] := by
    by_contra hne
    exact this.nonempty hne hS
  rcases this.covers z hz h0 with ⟨Y, hY, -⟩ | ⟨D, hD, -⟩
  · rw [hf] at hY; simp at hY
  · rw [hg] at hD; simp at hD

/-- **C57**: an enclosure returned by `solve` contains a zero. -/
theorem C57_solve_found (hv : Valid F J f f') (hs : StepSound R f step) {eps e : ℝ} (he : 0 ≤ eps)
    {steps depth : ℕ} {bx y : Box n ℝ} (hbx : GoodBox R bx)
    (h : solve XR step F J eps e steps depth bx = .ok y) : ∃ z, Mem y z ∧ f z = 0 := by
  rw [solve] at h
  split at h <;> try (simp at h; done)
  rename_i S hS
  split at h <;> try (simp at h; done)
  rename_i Y hY
  rw [← Outcome.ok.inj h]
  exact (C57_solve_all_partial hv hs he hbx hS).1 Y (by rw [hY]; simp)

/-- **C57**: `solve` reports that there is no solution only if every zero of the box is in a small box
which was given up.  Missing: that there is no zero, see `C57_solve_none_false`. -/
theorem C57_solve_none_partial (hv : Valid F J f f') (hs : StepSound R f step) {eps e : ℝ} (he : 0 ≤ eps)
    {steps depth : ℕ} {bx : Box n ℝ} (hbx : GoodBox R bx)
    (h : solve XR step F J eps e steps depth bx = .noSolution) :
    ∀ z, Mem bx z → f z = 0 → ∃ D, Mem D z ∧ (∀ z, Mem D z → Mem bx z) ∧
      ∃ w, supError XR D = fin w ∧ w < e := by
  rw [solve] at h
  split at h <;> try (simp at h; done)
  · rename_i S hS
    split at h <;> try (simp at h; done)
    rename_i hY
    have := solveAll_spec hv hs he depth bx hbx S hS
    intro z hz h0
    have hf : S.found = [] := by
      by_contra hne
      exact this.nonempty hne hY
    rcases this.covers z hz h0 with ⟨Y, hY, -⟩ | ⟨D, hD, hzD⟩
    · rw [hf] at hY; simp at hY
    · exact ⟨D, hzD, this.small D hD⟩
  · rename_i hS
    exact absurd hS (solveAll_ne_noSolution _ _)

end Zero

end Verif.Solver
