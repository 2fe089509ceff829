import Verif.HybridEvolver.Model
import Verif.Enclosure.Props

/-!
# Following one point of an enclosure

The operations of the hybrid evolver on enclosures keep every point whose parameter is in the reduced domain.
-/

namespace Verif.HybridEvolver

open Ariadne Ariadne.Logical Verif.ConstraintSolver Verif.Enclosure Verif.Evolver
open Verif.FunctionSet (over interBox over_contains mem_interBox refinement_fin)
open Ariadne.Ext (fin)

variable {L Ev : Type*} {dim : L → ℕ} {n m k : ℕ} {K : Type*} [Field K] [LinearOrder K] [IsStrictOrderedRing K]

/-! ## Specification -/

/-- A box with finite sides. -/
def FinBox (B : Box n K) : Prop := ∀ i, ∃ a b, B i = between a b

/-- The parameter `p` of the reduced domain gives the state `x` at time `t` with dwell time `d`. -/
structure On (E : Encl n m K) (p : Fin n → K) (x : Fin m → K) (t d : K) : Prop where
  at_ : E.At p x t d
  red : Mem E.red p
  fin : FinBox E.red

/-- What the evolver relies on.  `Reg` are the functions of time for which the solver is correct, for example the
continuous ones. -/
structure Tools.Ok (R : Rounding K) (Reg : (K → K) → Prop) (τ : Tools K) : Prop where
  round : τ.X = .ofRounding R
  sound : τ.C.Sound
  hull_fin : ∀ {n : ℕ} (f : Patch n K) (b : Bounds K) (B : Box n K), FinBox B → FinBox (τ.C.hull f b B)
  mul : ∀ {n : ℕ} {f g : Patch n K} {p a b}, f.has p a → g.has p b → (τ.mul f g).has p (a * b)
  kuhn : ∀ {m : ℕ} {E : ESet m K} {p x t d}, On E.2 p x t d → ∃ p' d', On (τ.kuhn E).2 p' x t d'
  /-- the implicit function has a zero of each function among its values, and all the zeros -/
  implicit : ∀ {m : ℕ} {F : Patch (m + 1) K} {D : Box m K} {a b : K} {f : Patch m K},
    τ.implicit F D (between a b) = .ok f → ∀ x, Mem D x → ∀ v, Reg v → (∀ y, a ≤ y → y ≤ b → F.has (ext x y) (v y)) →
    (∃ y, a ≤ y ∧ y ≤ b ∧ v y = 0 ∧ f.has x y) ∧ ∀ y, a ≤ y → y ≤ b → v y = 0 → f.has x y
  /-- the values of the implicit function do not lie far above the interval -/
  implicit_range : ∀ {m : ℕ} {F : Patch (m + 1) K} {D : Box m K} {h : K} {f : Patch m K},
    τ.implicit F D (between 0 h) = .ok f → ∃ u, (τ.C.range D f).u = Ext.fin u ∧ 15 / 16 * u ≤ h
  /-- if the guard is to be crept up to then its derivative is not negative -/
  alpha : ∀ h d g, 0 < h → Ext.lt g (Ext.fin 0) = true → τ.alpha h d g < 1 → Ext.le (Ext.fin 0) d = true

variable {τ : Tools K} {R : Rounding K} {Reg : (K → K) → Prop} {E : Encl n m K} {p : Fin n → K} {x : Fin m → K} {t d : K}

/-! ## Boxes -/

theorem finBox_ext {B : Box n K} (h : FinBox B) (a b : K) : FinBox (ext B (between a b)) := by
  intro i
  refine Fin.addCases (fun i => ?_) (fun i => ?_) i
  · simpa [ext] using h i
  · exact ⟨a, b, by simp [ext]⟩

theorem finBox_append {B : Box n K} {B' : Box k K} (h : FinBox B) (h' : FinBox B') : FinBox (Fin.append B B') := by
  intro i
  refine Fin.addCases (fun i => ?_) (fun i => ?_) i
  · simpa using h i
  · simpa using h' i

theorem finBox_inter {A B : Box n K} (h : FinBox A) (h' : FinBox B) : FinBox (interBox A B) := by
  intro i
  obtain ⟨a, b, e⟩ := h i
  obtain ⟨a', b', e'⟩ := h' i
  refine ⟨max a a', min b b', ?_⟩
  simp only [interBox, e, e', between, refinement_fin]

theorem finBox_update {B : Box n K} (h : FinBox B) (j : Fin n) (a b : K) : FinBox (Function.update B j (between a b)) := by
  intro i
  by_cases hi : i = j
  · subst hi; exact ⟨a, b, by simp⟩
  · simpa [hi] using h i

theorem finBox_split {B : Box n K} (h : FinBox B) (j : Fin n) :
    FinBox (ConstraintSolver.splitAt (.ofRounding R) B j).1 ∧ FinBox (ConstraintSolver.splitAt (.ofRounding R) B j).2 ∧
      ∀ p, Mem B p → Mem (ConstraintSolver.splitAt (.ofRounding R) B j).1 p ∨
        Mem (ConstraintSolver.splitAt (.ofRounding R) B j).2 p := by
  obtain ⟨a, b, e⟩ := h j
  have hv : Bounds.value (.ofRounding R) (between a b) = Ext.fin (R.near (a + b) / 2) := rfl
  simp only [ConstraintSolver.splitAt, e, hv]
  generalize R.near (a + b) / 2 = v
  refine ⟨finBox_update h j a v, finBox_update h j v b, fun p hp => ?_⟩
  have hj := hp j
  rw [e] at hj
  rcases le_total (p j) v with h3 | h3
  · exact Or.inl (mem_update hp ⟨hj.1, h3⟩)
  · exact Or.inr (mem_update hp ⟨h3, hj.2⟩)

theorem reduceListLoop_fin {X : XRounding K} {Hs : List (Contractor n K)} (hH : ∀ H ∈ Hs, ∀ B, FinBox B → FinBox (H B)) (fuel : ℕ) :
    ∀ {B : Box n K} {s : Ext K} {r}, FinBox B → reduceListLoop X Hs fuel B s = some r → FinBox r.2 := by
  have hf : ∀ (l : List (Contractor n K)) (B : Box n K), (∀ H ∈ l, ∀ B, FinBox B → FinBox (H B)) → FinBox B →
      FinBox (l.foldl (fun D H => H D) B) := by
    intro l
    induction l with
    | nil => exact fun B _ h => h
    | cons H l ih => exact fun B hl h => ih _ (fun H hH => hl H (List.mem_cons_of_mem _ hH)) (hl H (by simp) B h)
  induction fuel with
  | zero => intro B s r _ h; cases h
  | succ fuel ih =>
    intro B s r hB h
    simp only [reduceListLoop] at h
    split_ifs at h
    · obtain rfl := Option.some.inj h; exact hf _ _ hH hB
    · exact ih (hf _ _ hH hB) h
    · obtain rfl := Option.some.inj h; exact hf _ _ hH hB

theorem hasNaN_between (a b : K) : Encl.hasNaN (between a b) = false := rfl

/-! ## Tests -/

theorem On.reduce (hτ : τ.Ok R Reg) (h : On E p x t d) {E' : Encl n m K} (he : E.reduce τ.X τ.C = some E') :
    On E' p x t d := by
  rw [hτ.round] at he
  simp only [Encl.reduce, Option.map_eq_some_iff] at he
  obtain ⟨r, hr, rfl⟩ := he
  have hH : ∀ H ∈ E.hulls (.ofRounding R) τ.C, ∀ B, FinBox B → FinBox (H B) := by
    intro H hH
    obtain ⟨c, -, rfl⟩ := List.mem_map.1 hH
    exact hτ.hull_fin _ _
  have hf : FinBox r.2 := by
    simp only [reduceList] at hr
    split_ifs at hr
    · obtain rfl := Option.some.inj hr; exact h.fin
    · exact reduceListLoop_fin hH _ h.fin hr
  have e : (fun i => if Encl.hasNaN (r.2 i) then E.dom i else r.2 i) = r.2 := by
    funext i
    obtain ⟨a, b, e⟩ := hf i
    rw [e, hasNaN_between]
    rfl
  rw [e]
  exact ⟨⟨h.at_.mem, h.at_.fn, h.at_.time, h.at_.dwell, h.at_.cs⟩,
    (C56_reduce_list (hulls_sound hτ.sound E) hr p h.red h.at_.cs).2, hf⟩

theorem On.isEmpty (hτ : τ.Ok R Reg) (h : On E p x t d) {r : LV × Encl n m K} (he : E.isEmpty τ.X τ.C = some r) :
    LV.definitely r.1 = false ∧ On r.2 p x t d := by
  have hX := hτ.round
  simp only [Encl.isEmpty] at he
  rw [if_neg (by simp [boxEmpty_false h.red])] at he
  by_cases h2 : E.cs.isEmpty = true
  · rw [if_pos h2, boxEmpty_false h.at_.mem] at he
    obtain rfl := Option.some.inj he
    exact ⟨rfl, h⟩
  rw [if_neg h2] at he
  obtain ⟨E0, h0, e0⟩ := Option.map_eq_some_iff.1 he
  have hE0 : On E0 p x t d := by
    by_cases hf : E.full = true
    · rw [if_pos hf] at h0
      obtain rfl := Option.some.inj h0
      exact h
    · rw [if_neg hf] at h0
      obtain ⟨E1, h1, h0⟩ := Option.bind_eq_some_iff.1 h0
      obtain ⟨E2, h2, h0⟩ := Option.bind_eq_some_iff.1 h0
      exact ((h.reduce hτ h1).reduce hτ h2).reduce hτ h0
  have h3 : (E0.cs.any fun c => disjoint (ConstraintSolver.apply c.1.ev E0.red) (over τ.X c.2)) = false := by
    rw [hX]
    rw [List.any_eq_false]
    intro c hcs
    obtain ⟨y, hy, hb⟩ := hE0.at_.cs c hcs
    rw [apply_eq hE0.red, disjoint_false (c.1.ok p y hy _ hE0.red) (over_contains hb)]
    simp
  rw [if_neg (by simp [h3]), if_neg (by simp [boxEmpty_false hE0.red])] at e0
  obtain rfl := e0
  exact ⟨rfl, hE0⟩

theorem On.new (h : On E p x t d) {f : Patch n K} {b : Bounds K} {y : K} (hy : f.has p y) (hb : b.Contains y) (u : Bool) :
    On ({ E with full := u, cs := E.cs ++ [(f, b)] } : Encl n m K) p x t d :=
  ⟨at_new.2 ⟨h.at_, y, hy, hb⟩, h.red, h.fin⟩

theorem On.negative (hτ : τ.Ok R Reg) (h : On E p x t d) {g : Patch m K} {y : K} (hy : g.has x y) (hb : y ≤ 0) :
    On (E.newNegativeStateConstraint τ.C g) p x t d :=
  h.new (b := ⟨.ninf, Ext.fin 0⟩) (hτ.sound.compose h.at_.mem h.at_.fn hy) ⟨trivial, hb⟩ _

theorem On.positive (hτ : τ.Ok R Reg) (h : On E p x t d) {g : Patch m K} {y : K} (hy : g.has x y) (hb : 0 ≤ y) :
    On (E.newPositiveStateConstraint τ.C g) p x t d :=
  h.new (b := ⟨Ext.fin 0, .pinf⟩) (hτ.sound.compose h.at_.mem h.at_.fn hy) ⟨hb, trivial⟩ _

theorem On.zero (hτ : τ.Ok R Reg) (h : On E p x t d) {g : Patch m K} (hy : g.has x 0) :
    On (E.newZeroStateConstraint τ.C g) p x t d :=
  h.new (b := ⟨Ext.fin 0, Ext.fin 0⟩) (hτ.sound.compose h.at_.mem h.at_.fn hy) ⟨le_refl (0 : K), le_refl (0 : K)⟩ _

theorem On.newLe (hτ : τ.Ok R Reg) (h : On E p x t d) {f g : Patch n K} {a b : K} (hf : f.has p a) (hg : g.has p b)
    (hb : a ≤ b) : On (τ.newLe E f g) p x t d :=
  h.new (b := ⟨.ninf, Ext.fin 0⟩) (hτ.sound.create h.at_.mem (hτ.sound.sub hf hg)) ⟨trivial, sub_nonpos.2 hb⟩ _

theorem On.newNonpos (hτ : τ.Ok R Reg) (h : On E p x t d) {f : Patch n K} {a : K} (hf : f.has p a) (hb : a ≤ 0) :
    On (τ.newNonpos E f) p x t d :=
  h.new (b := ⟨.ninf, Ext.fin 0⟩) (hτ.sound.create h.at_.mem hf) ⟨trivial, hb⟩ _

theorem On.newNonneg (hτ : τ.Ok R Reg) (h : On E p x t d) {f : Patch n K} {a : K} (hf : f.has p a) (hb : 0 ≤ a) :
    On (τ.newNonneg E f) p x t d :=
  h.new (b := ⟨Ext.fin 0, .pinf⟩) (hτ.sound.create h.at_.mem hf) ⟨hb, trivial⟩ _

theorem On.maybe (hτ : τ.Ok R Reg) (h : On E p x t d) {g : Patch m K} {y : K} (hy : g.has x y) (h0 : 0 ≤ y) {b : Bool}
    (hb : τ.maybe E g = some b) : b = true := by
  simp only [Tools.maybe, Encl.satisfies, Option.map_map, Option.map_eq_some_iff] at hb
  obtain ⟨r, hr, rfl⟩ := hb
  have := ((h.positive hτ hy h0).isEmpty hτ hr).1
  simp [this, LV.possibly]

/-! ## Ranges -/

theorem On.time_mem (h : On E p x t d) : (timeRange E).Contains t := by
  rw [timeRange, apply_eq h.red]
  exact E.time.ok p t h.at_.time _ h.red

theorem On.range_mem (hτ : τ.Ok R Reg) (h : On E p x t d) {g : Patch m K} {y : K} (hy : g.has x y) :
    (τ.rangeOf E g).Contains y := by
  rw [Tools.rangeOf, apply_eq h.red]
  exact Patch.ok _ p y (hτ.sound.compose h.at_.mem h.at_.fn hy) _ h.red

theorem On.box_mem (hτ : τ.Ok R Reg) (h : On E p x t d) : Mem (E.boundingBox τ.C) x :=
  fun i => hτ.sound.range h.at_.mem (h.at_.fn i)

theorem On.guard_mem (hτ : τ.Ok R Reg) (h : On E p x t d) {g : Patch m K} {y : K} (hy : g.has x y) :
    (ConstraintSolver.apply g.ev (E.boundingBox τ.C)).Contains y := by
  rw [apply_eq (h.box_mem hτ)]
  exact g.ok x y hy _ (h.box_mem hτ)

theorem interIvl_contains {a b : Bounds K} {y : K} (ha : a.Contains y) (hb : b.Contains y) : (interIvl a b).Contains y :=
  refinement_contains ha hb

/-! ## The final time -/

theorem On.pastFinal (hτ : τ.Ok R Reg) (h : On E p x t d) {T : K} (hT : τ.final.Contains T) :
    (τ.pastFinal E).has p (t - T) := by
  rw [sub_eq_add_neg]
  exact hτ.sound.addBounds h.at_.time (Bounds.C05_neg hT)

theorem On.boundTime (hτ : τ.Ok R Reg) (h : On E p x t d) {T : K} (hT : τ.final.Contains T) (ht : t ≤ T) :
    On (τ.boundTime E) p x t d := by
  simp only [Tools.boundTime]
  split_ifs
  · exact h.new (b := ⟨.ninf, Ext.fin 0⟩) (hτ.sound.create h.at_.mem (h.pastFinal hτ hT)) ⟨trivial, sub_nonpos.2 ht⟩ _
  · exact h

theorem On.setTime (hτ : τ.Ok R Reg) (h : On E p x t d) (hT : τ.final.Contains t) : On (τ.setTime E) p x t d := by
  have := h.pastFinal hτ hT
  rw [sub_self] at this
  exact h.new (b := ⟨Ext.fin 0, Ext.fin 0⟩) (hτ.sound.create h.at_.mem this) ⟨le_refl (0 : K), le_refl (0 : K)⟩ _

theorem le_of_lower_upper {a b : Bounds K} {y z : K} (h : Ext.le a.u b.l = true) (ha : a.Contains y) (hb : b.Contains z) :
    y ≤ z := by
  obtain ⟨al, au⟩ := a
  obtain ⟨bl, bu⟩ := b
  have h1 := ha.2
  have h2 := hb.1
  simp only at h h1 h2
  cases au with
  | nan => cases h
  | ninf => exact h1.elim
  | fin u =>
    cases bl with
    | fin l => exact le_trans h1 (le_trans (of_decide_eq_true h) h2)
    | pinf => exact h2.elim
    | ninf => cases h
    | nan => cases h
  | pinf =>
    cases bl with
    | pinf => exact h2.elim
    | fin l => cases h
    | ninf => cases h
    | nan => cases h

theorem lt_of_lower_upper {a b : Bounds K} {y z : K} (h : Ext.lt a.u b.l = true) (ha : a.Contains y) (hb : b.Contains z) :
    y < z := by
  obtain ⟨al, au⟩ := a
  obtain ⟨bl, bu⟩ := b
  have h1 := ha.2
  have h2 := hb.1
  simp only at h h1 h2
  cases au with
  | nan => cases h
  | ninf => exact h1.elim
  | fin u =>
    cases bl with
    | fin l => exact lt_of_le_of_lt h1 (lt_of_lt_of_le (of_decide_eq_true h) h2)
    | pinf => exact h2.elim
    | ninf => cases h
    | nan => cases h
  | pinf =>
    cases bl with
    | pinf => exact h2.elim
    | fin l => cases h
    | ninf => cases h
    | nan => cases h

theorem On.not_late (h : On E p x t d) {T : K} (hT : τ.final.Contains T) (ht : t < T) : τ.late E = false := by
  by_contra hc
  rw [Bool.not_eq_false] at hc
  exact absurd (le_of_lower_upper hc hT h.time_mem) (not_le.2 ht)

theorem On.not_over (h : On E p x t d) {T : K} (hT : τ.final.Contains T) (ho : τ.over E = false) : t ≤ T := by
  simp only [Tools.over, Bool.not_eq_false'] at ho
  exact le_of_lower_upper ho h.time_mem hT

/-! ## Splitting and reconditioning -/

theorem On.restrict (hτ : τ.Ok R Reg) (h : On E p x t d) {D : Box n K} (hD : FinBox D) (hp : Mem D p) {E' : Encl n m K}
    (he : E.restrict τ.X τ.C D = some E') : On E' p x t d := by
  simp only [Encl.restrict] at he
  split_ifs at he with hs
  refine On.reduce hτ ⟨⟨hp, fun i => hτ.sound.restrict hp (h.at_.fn i), hτ.sound.restrict hp h.at_.time,
    hτ.sound.restrict hp h.at_.dwell, holds_map (fun _ _ hf => hτ.sound.restrict hp hf) h.at_.cs⟩, ?_, ?_⟩ he
  · exact mem_interBox h.red hp
  · exact finBox_inter h.fin hD

theorem On.split (hτ : τ.Ok R Reg) (h : On E p x t d) {l : List (Encl n m K)} (he : τ.split E = some l) :
    ∃ F ∈ l, On F p x t d := by
  simp only [Tools.split] at he
  split at he
  · obtain ⟨F, hF, rfl⟩ := Option.map_eq_some_iff.1 he
    exact ⟨F, by simp, h.restrict hτ h.fin h.red hF⟩
  · rename_i j _
    obtain ⟨F, hF, he⟩ := Option.bind_eq_some_iff.1 he
    obtain ⟨G, hG, rfl⟩ := Option.map_eq_some_iff.1 he
    rw [hτ.round] at hF hG
    obtain ⟨f1, f2, hm⟩ := finBox_split (R := R) h.fin j
    rw [← hτ.round] at hF hG f1 f2 hm
    rcases hm p h.red with hp | hp
    · exact ⟨F, by simp, h.restrict hτ f1 hp hF⟩
    · exact ⟨G, by simp, h.restrict hτ f2 hp hG⟩

theorem On.recondition (hτ : τ.Ok R Reg) (h : On E p x t d) (ε : K) :
    ∃ p', On (E.uniformErrorRecondition τ.C ε).2 p' x t d := by
  obtain ⟨s, hs, ha⟩ := at_error_recondition hτ.sound (E.largeErrors τ.C ε) h.at_
  exact ⟨_, ha, mem_append.2 ⟨h.red, hs⟩, finBox_append h.fin fun _ => ⟨-1, 1, rfl⟩⟩

/-! ## Evolution -/

theorem On.map (hτ : τ.Ok R Reg) (h : On E p x t d) {f : Fin k → Patch m K} {y : Fin k → K} (hy : ∀ i, (f i).has x (y i)) :
    On (E.applyMap τ.C f) p y t 0 := ⟨at_map hτ.sound h.at_ hy, h.red, h.fin⟩

theorem On.evolve (hτ : τ.Ok R Reg) (h : On E p x t d) {φ : Fin m → Patch (m + 1) K} {f : Patch n K} {s : K}
    (hs : f.has p s) {y : Fin m → K} (hy : ∀ i, (φ i).has (ext x s) (y i)) :
    On (E.applyParameterEvolveStep τ.C φ f) p y (t + s) (d + s) :=
  ⟨C72_parameter_evolve hτ.sound φ f p x t d h.at_ s hs y hy, h.red, h.fin⟩

theorem On.spaceEvolve (hτ : τ.Ok R Reg) (h : On E p x t d) {φ : Fin m → Patch (m + 1) K} {f : Patch m K} {s : K}
    (hs : f.has x s) {y : Fin m → K} (hy : ∀ i, (φ i).has (ext x s) (y i)) :
    On (E.applySpaceEvolveStep τ.C φ f) p y (t + s) (d + s) :=
  ⟨at_evolve hτ.sound h.at_ (hτ.sound.compose h.at_.mem h.at_.fn hs) hy, h.red, h.fin⟩

theorem On.finish (hτ : τ.Ok R Reg) (h : On E p x t d) {φ : Fin m → Patch (m + 1) K} {f : Patch n K} {s : K}
    (hs : f.has p (t + s)) {y : Fin m → K} (hy : ∀ i, (φ i).has (ext x s) (y i)) :
    On (E.applyFinishingParameterEvolveStep τ.C φ f) p y (t + s) (d + s) := by
  have := C72_finishing_evolve hτ.sound φ f p x t d h.at_ (t + s) hs y (by simpa using hy)
  rw [add_sub_cancel_left] at this
  exact ⟨this, h.red, h.fin⟩

theorem On.reach (hτ : τ.Ok R Reg) (h : On E p x t d) {φ : Flow m K} {f : Patch n K} {e s : K}
    (he : f.has p e) (h0 : 0 ≤ s) (h1 : s ≤ φ.h) (hs : s ≤ e) {y : Fin m → K} (hy : ∀ i, (φ.fn i).has (ext x s) (y i)) :
    On (E.applyParameterReachStep τ.C φ f) (ext p s) y (t + s) s := by
  refine ⟨C72_parameter_reach hτ.sound φ f p x t d h.at_ e s he h0 h1 hs y hy, ?_, ?_⟩
  · have : (E.applyParameterReachStep τ.C φ f).red = ext E.red (between 0 φ.h) := by
      simp only [Encl.applyParameterReachStep]
      split_ifs <;> rfl
    rw [this]
    exact mem_ext.2 ⟨h.red, h0, h1⟩
  · have : (E.applyParameterReachStep τ.C φ f).red = ext E.red (between 0 φ.h) := by
      simp only [Encl.applyParameterReachStep]
      split_ifs <;> rfl
    rw [this]
    exact finBox_ext h.fin _ _

end Verif.HybridEvolver
