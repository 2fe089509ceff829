import Verif.Enclosure.Props
import Verif.TaylorModel.Compose

/-!
# Property C72: exact operations, concrete cases and counterexamples
-/

namespace Verif.Enclosure

open Ariadne Ariadne.Logical Verif.ConstraintSolver
open Verif.FunctionSet (over)
open Ariadne.Ext (fin)

/-! ## Exact operations -/

section Exact

variable {n m k : ℕ} {K : Type*} [Field K] [LinearOrder K] [IsStrictOrderedRing K]

/-- Arithmetic without rounding. -/
abbrev XE (K : Type*) [Field K] [LinearOrder K] [IsStrictOrderedRing K] : XRounding K :=
  .ofRounding TaylorModel.exactRounding

/-- The values of the patch are the numbers within `e` of the values of `g`. -/
def Tube (f : Patch n K) (g : (Fin n → K) → K) (e : K) : Prop := 0 ≤ e ∧ ∀ p y, f.has p y ↔ |y - g p| ≤ e

theorem Tube.unique {f : Patch n K} {g g' : (Fin n → K) → K} {e e' : K} (h : Tube f g e) (h' : Tube f g' e') :
    g = g' ∧ e = e' := by
  have key : ∀ {g g' : (Fin n → K) → K} {e e' : K}, Tube f g e → Tube f g' e' → ∀ p, |g p - g' p| + e ≤ e' := by
    intro g g' e e' h h' p
    have h1 := (h'.2 p _).1 ((h.2 p (g p + e)).2 (by rw [add_sub_cancel_left, abs_of_nonneg h.1]))
    have h2 := (h'.2 p _).1 ((h.2 p (g p - e)).2 (by rw [sub_sub_cancel_left, abs_neg, abs_of_nonneg h.1]))
    rw [abs_le] at h1 h2
    rcases abs_cases (g p - g' p) with ⟨h3, -⟩ | ⟨h3, -⟩ <;> rw [h3] <;> linarith [h1.1, h1.2, h2.1, h2.2]
  have e1 : e = e' := by
    have h1 := key h h' 0
    have h2 := key h' h 0
    have := abs_nonneg (g 0 - g' 0)
    have := abs_nonneg (g' 0 - g 0)
    linarith
  refine ⟨funext fun p => ?_, e1⟩
  have h1 := key h h' p
  rw [e1] at h1
  have : |g p - g' p| ≤ 0 := by linarith
  exact sub_eq_zero.1 (abs_nonpos_iff.1 this)

open Classical in
/-- The centre and the error of a patch. -/
noncomputable def tubeOf (f : Patch n K) : Option (((Fin n → K) → K) × K) :=
  if h : ∃ q : ((Fin n → K) → K) × K, Tube f q.1 q.2 then some h.choose else none

theorem tubeOf_some {f : Patch n K} {q} (h : tubeOf f = some q) : Tube f q.1 q.2 := by
  unfold tubeOf at h
  split_ifs at h with h1
  obtain rfl := Option.some.inj h
  exact h1.choose_spec

theorem tubeOf_of {f : Patch n K} {g e} (h : Tube f g e) : tubeOf f = some (g, e) := by
  unfold tubeOf
  have h1 : ∃ q : ((Fin n → K) → K) × K, Tube f q.1 q.2 := ⟨(g, e), h⟩
  rw [dif_pos h1]
  obtain ⟨h2, h3⟩ := h1.choose_spec.unique h
  exact congrArg some (Prod.ext h2 h3)

/-- The whole line. -/
def line : Bounds K := ⟨.ninf, .pinf⟩

theorem line_contains (y : K) : (line : Bounds K).Contains y := ⟨trivial, trivial⟩

/-- A patch embedded in more variables. -/
def embedP (k : ℕ) (f : Patch n K) : Patch (n + k) K where
  has r y := f.has (fun i => r (Fin.castAdd k i)) y
  ev B := f.ev fun i => B (Fin.castAdd k i)
  ok r y h B hB := f.ok _ y h _ fun i => hB (Fin.castAdd k i)

theorem embedP_has (f : Patch n K) (p : Fin n → K) (q : Fin k → K) (y : K) :
    (embedP k f).has (Fin.append p q) y ↔ f.has p y := by
  simp [embedP]

/-- The patch without its error, if it has one. -/
noncomputable def clobberP (f : Patch n K) : Patch n K :=
  match tubeOf f with
  | some q => ⟨fun p y => y = q.1 p, fun _ => line, fun _ _ _ _ _ => line_contains _⟩
  | none => f

/-- The error of the patch. -/
noncomputable def errorP (f : Patch n K) : K := ((tubeOf f).map Prod.snd).getD 0

theorem embedP_tube {f : Patch n K} {g e} : Tube f g e → Tube (embedP k f) (fun r => g fun i => r (Fin.castAdd k i)) e :=
  fun h => ⟨h.1, fun _ _ => h.2 _ _⟩

theorem embedP_tube_inv {f : Patch n K} {g e} (h : Tube (embedP k f) g e) : Tube f (fun p => g (Fin.append p 0)) e :=
  ⟨h.1, fun p y => (embedP_has f p 0 y).symm.trans (h.2 _ _)⟩

/-- Operations without rounding. -/
noncomputable def real (K : Type*) [Field K] [LinearOrder K] [IsStrictOrderedRing K] : Calc K where
  coord _ i := ⟨fun p y => y = p i, fun B => B i, fun p y h B hB => by rw [h]; exact hB i⟩
  const _ c := ⟨fun _ y => y = c, fun _ => between c c, fun p y h B hB => by rw [h]; exact ⟨le_rfl, le_rfl⟩⟩
  create _ f := f
  compose _ h g := ⟨fun p y => ∃ x, (∀ i, (g i).has p (x i)) ∧ h.has x y, fun B => h.ev fun i => (g i).ev B,
    fun p _ ⟨x, h1, h2⟩ B hB => h.ok x _ h2 _ fun i => (g i).ok p _ (h1 i) B hB⟩
  partialEval f c := ⟨fun x y => f.has (ext x c) y, fun B => f.ev (ext B (between c c)),
    fun _ y h B hB => f.ok _ y h _ (mem_ext.2 ⟨hB, le_rfl, le_rfl⟩)⟩
  embed k f := embedP k f
  embedLeft k f := ⟨fun r y => f.has (fun i => r (Fin.natAdd k i)) y, fun B => f.ev fun i => B (Fin.natAdd k i),
    fun _ y h B hB => f.ok _ y h _ fun i => hB (Fin.natAdd k i)⟩
  restrict _ f := f
  add f g := ⟨fun p y => ∃ a b, f.has p a ∧ g.has p b ∧ y = a + b, fun B => Bounds.add (XE K) (f.ev B) (g.ev B),
    fun p y ⟨a, b, h1, h2, e⟩ B hB => by
      rw [e]; exact Bounds.C05_add _ (f.ok p a h1 B hB) (g.ok p b h2 B hB)⟩
  sub f g := ⟨fun p y => ∃ a b, f.has p a ∧ g.has p b ∧ y = a - b, fun B => Bounds.sub (XE K) (f.ev B) (g.ev B),
    fun p y ⟨a, b, h1, h2, e⟩ B hB => by
      rw [e]; exact Bounds.C05_sub _ (f.ok p a h1 B hB) (g.ok p b h2 B hB)⟩
  addBounds f b := ⟨fun p y => ∃ a c, f.has p a ∧ b.Contains c ∧ y = a + c, fun B => Bounds.add (XE K) (f.ev B) b,
    fun p y ⟨a, c, h1, h2, e⟩ B hB => by rw [e]; exact Bounds.C05_add _ (f.ok p a h1 B hB) h2⟩
  scale f c := ⟨fun p y => ∃ a, f.has p a ∧ y = a * c, fun _ => line, fun _ _ _ _ _ => line_contains _⟩
  error := errorP
  clobber := clobberP
  range D f := f.ev D
  slope _ _ _ := 1
  hull _ _ B := B
  fuel := 3

theorem real_sound : (real K).Sound where
  coord _ _ := rfl
  const _ _ := rfl
  create _ h := h
  compose _ h1 h2 := ⟨_, h1, h2⟩
  partialEval h := h
  embed q h := (embedP_has _ _ q _).2 h
  embedLeft q h := by simpa [real] using h
  embed_inv h := (embedP_has _ _ _ _).1 h
  embedLeft_inv h := by simpa [real] using h
  restrict _ h := h
  add h1 h2 := ⟨_, _, h1, h2, rfl⟩
  sub h1 h2 := ⟨_, _, h1, h2, rfl⟩
  addBounds h1 h2 := ⟨_, _, h1, h2, rfl⟩
  scale h := ⟨_, h, rfl⟩
  clobber {n f p y} h := by
    show ∃ c, (clobberP f).has p c ∧ |y - c| ≤ errorP f
    unfold clobberP errorP
    cases e : tubeOf f with
    | none => exact ⟨y, h, by simp⟩
    | some q => exact ⟨q.1 p, rfl, ((tubeOf_some e).2 p y).1 h⟩
  clobber_embed {n k f p y} q h := by
    show (clobberP (embedP k f)).has (Fin.append p q) y
    have h : (clobberP f).has p y := h
    unfold clobberP at h ⊢
    cases e : tubeOf f with
    | none =>
      rw [e] at h
      cases e' : tubeOf (embedP k f) with
      | none => exact (embedP_has f p q y).2 h
      | some r =>
        rw [tubeOf_of (embedP_tube_inv (tubeOf_some e'))] at e
        cases e
    | some r =>
      rw [e] at h
      rw [tubeOf_of (embedP_tube (tubeOf_some e))]
      have h : y = r.1 p := h
      simpa using h
  error_embed k f := by
    show errorP (embedP k f) = errorP f
    unfold errorP
    cases e : tubeOf f with
    | none =>
      cases e' : tubeOf (embedP k f) with
      | none => rfl
      | some r =>
        rw [tubeOf_of (embedP_tube_inv (tubeOf_some e'))] at e
        cases e
    | some r => rw [tubeOf_of (embedP_tube (tubeOf_some e))]; rfl
  range h1 h2 := Patch.ok _ _ _ h2 _ h1
  hull h _ _ := h

theorem real_exact : (real K).Exact where
  coord _ h := h
  const _ h := h
  create _ h := h
  compose _ h := h
  partialEval h := h
  restrict _ h := h
  add h := h
  sub h := h
  addBounds h := h
  scale h := h
  clobber {n f p c y} h hy := by
    have h : (clobberP f).has p c := h
    have hy : |y - c| ≤ errorP f := hy
    unfold clobberP at h
    unfold errorP at hy
    cases e : tubeOf f with
    | none =>
      rw [e] at h hy
      have : y = c := sub_eq_zero.1 (abs_nonpos_iff.1 hy)
      rwa [this]
    | some q =>
      rw [e] at h hy
      have h : c = q.1 p := h
      refine ((tubeOf_some e).2 p y).2 ?_
      rw [← h]
      exact hy

theorem error_nonneg (f : Patch n K) : 0 ≤ (real K).error f := by
  show 0 ≤ errorP f
  unfold errorP
  cases e : tubeOf f with
  | none => simp
  | some q => exact (tubeOf_some e).1

/-- Values known up to `δ`. -/
def widenP (δ : K) (f : Patch n K) : Patch n K :=
  ⟨fun p y => ∃ z, f.has p z ∧ |y - z| ≤ δ, fun _ => line, fun _ _ _ _ _ => line_contains _⟩

/-- Operations with rounding errors in restriction and conversion. -/
noncomputable def noisy (δ : K) : Calc K :=
  { real K with create := fun _ f => widenP δ f, restrict := fun _ f => widenP δ f }

theorem noisy_sound {δ : K} (h0 : 0 ≤ δ) : (noisy δ).Sound where
  coord := (real_sound (K := K)).coord
  const := (real_sound (K := K)).const
  create _ h := ⟨_, h, by simpa using h0⟩
  compose := (real_sound (K := K)).compose
  partialEval := (real_sound (K := K)).partialEval
  embed := (real_sound (K := K)).embed
  embedLeft := (real_sound (K := K)).embedLeft
  embed_inv := (real_sound (K := K)).embed_inv
  embedLeft_inv := (real_sound (K := K)).embedLeft_inv
  restrict _ h := ⟨_, h, by simpa using h0⟩
  add := (real_sound (K := K)).add
  sub := (real_sound (K := K)).sub
  addBounds := (real_sound (K := K)).addBounds
  scale := (real_sound (K := K)).scale
  clobber := (real_sound (K := K)).clobber
  clobber_embed := (real_sound (K := K)).clobber_embed
  error_embed := (real_sound (K := K)).error_embed
  range := (real_sound (K := K)).range
  hull := (real_sound (K := K)).hull

end Exact

/-! ## Conversion of the domain -/

section Domain

variable {K : Type*} [Field K] [LinearOrder K] [IsStrictOrderedRing K] {R : Rounding K}

theorem ext_max_fin (a b : K) : Ext.max (fin a) (fin b) = fin (max a b) := by
  simp only [Ext.max, Ext.lt, decide_eq_true_eq]
  split_ifs with h
  · rw [max_eq_right h.le]
  · rw [max_eq_left (not_lt.1 h)]

/-- The error computed by `make_domain`. -/
theorem makeDomain_eq (r : K → K) (a₁ a₂ b₁ b₂ la ua : K) :
    makeDomain (.ofRounding R) r ⟨fin a₁, fin a₂⟩ ⟨fin b₁, fin b₂⟩ la ua =
      (between (r la) (r ua), fin (max (max (R.up (b₂ - r ua)) (R.up (r ua - b₁)))
        (max (R.up (a₂ - r la)) (R.up (r la - a₁))))) := by
  have key : ∀ x y : K, Ext.sub (XRounding.ofRounding R).up (fin x) (fin y) = fin (R.up (x - y)) := by
    intro x y
    rw [sub_eq_add_neg]
    rfl
  simp only [makeDomain, key, ext_max_fin]

/-- **C72**: conversion of a side of a box with real end points: every number of the side is within the error of
a number of the converted side. -/
theorem C72_make_domain (r : K → K) (a₁ a₂ b₁ b₂ la ua a b x : K) (ha : a₁ ≤ a ∧ a ≤ a₂) (hb : b₁ ≤ b ∧ b ≤ b₂)
    (hr : r la ≤ r ua) (h1 : a ≤ x) (h2 : x ≤ b) :
    ∃ s e, (makeDomain (.ofRounding R) r ⟨fin a₁, fin a₂⟩ ⟨fin b₁, fin b₂⟩ la ua).2 = fin e ∧
      (makeDomain (.ofRounding R) r ⟨fin a₁, fin a₂⟩ ⟨fin b₁, fin b₂⟩ la ua).1.Contains s ∧ |x - s| ≤ e := by
  rw [makeDomain_eq]
  set e := max (max (R.up (b₂ - r ua)) (R.up (r ua - b₁))) (max (R.up (a₂ - r la)) (R.up (r la - a₁))) with he
  have e1 : b₂ - r ua ≤ e := (R.le_up _).trans ((le_max_left _ _).trans (le_max_left _ _))
  have e2 : r ua - b₁ ≤ e := (R.le_up _).trans ((le_max_right _ _).trans (le_max_left _ _))
  have e4 : r la - a₁ ≤ e := (R.le_up _).trans ((le_max_right _ _).trans (le_max_right _ _))
  have e0 : 0 ≤ e := by linarith [hb.1, hb.2]
  by_cases hx : x < r la
  · refine ⟨r la, e, rfl, ⟨le_rfl, hr⟩, ?_⟩
    rw [abs_of_nonpos (by linarith)]
    linarith [ha.1]
  · by_cases hx2 : r ua < x
    · refine ⟨r ua, e, rfl, ⟨hr, le_rfl⟩, ?_⟩
      rw [abs_of_nonneg (by linarith)]
      linarith [hb.2]
    · exact ⟨x, e, rfl, ⟨not_lt.1 hx, not_lt.1 hx2⟩, by simpa using e0⟩

/-- **C72**: the error is not larger than the distance of the end points from their conversions, if these are known
exactly and there is no rounding. -/
theorem C72_make_domain_exact (r : K → K) (a b : K) :
    makeDomain (XE K) r ⟨fin a, fin a⟩ ⟨fin b, fin b⟩ a b =
      (between (r a) (r b), fin (max |b - r b| |a - r a|)) := by
  rw [makeDomain_eq]
  have key : ∀ x y : K, max ((TaylorModel.exactRounding : Rounding K).up (x - y)) ((TaylorModel.exactRounding : Rounding K).up (y - x)) = |x - y| := by
    intro x y
    rw [abs_eq_max_neg, neg_sub]
    rfl
  rw [key, key]

end Domain

/-! ## Concrete cases -/

/-- The interval `[a,b]` as a box. -/
def side (a b : ℚ) : Box 1 ℚ := fun _ => between a b

theorem side_good {a b : ℚ} (h : a ≤ b) : GoodBox (TaylorModel.exactRounding : Rounding ℚ) (side a b) :=
  fun _ => ⟨a, b, rfl, trivial, trivial, h⟩

theorem mem_side {a b : ℚ} {p : Fin 1 → ℚ} : Mem (side a b) p ↔ a ≤ p 0 ∧ p 0 ≤ b :=
  ⟨fun h => h 0, fun h i => by rw [Subsingleton.elim i 0]; exact h⟩

/-- The identity function. -/
noncomputable def idP : Patch 1 ℚ := (real ℚ).coord (side 0 1) 0

/-- The flow of `ẋ=1`, for times up to one. -/
noncomputable def unitFlow : Flow 1 ℚ :=
  ⟨side (-8) 8, 0, 1, fun _ => (real ℚ).add ((real ℚ).coord (ext (side (-8) 8) (between 0 1)) 0)
    ((real ℚ).coord (ext (side (-8) 8) (between 0 1)) 1)⟩

theorem unitFlow_has (x : Fin 1 → ℚ) (r y : ℚ) (i : Fin 1) : (unitFlow.fn i).has (ext x r) y ↔ y = x 0 + r := by
  have e0 : ext x r 0 = x 0 := rfl
  have e1 : ext x r 1 = r := rfl
  constructor
  · rintro ⟨a, b, ha, hb, e⟩
    have ha : a = ext x r 0 := ha
    have hb : b = ext x r 1 := hb
    rw [e, ha, hb, e0, e1]
  · intro h
    exact ⟨x 0, r, e0.symm, e1.symm, h⟩

/-- The enclosure `[0,1]` at time zero. -/
noncomputable def start : Encl 1 1 ℚ := ofBox (real ℚ) (side 0 1)

theorem start_pts : start.pts = {q | Mem (side 0 1) q.1 ∧ q.2.1 = 0 ∧ q.2.2 = 0} :=
  C72_of_box_exact real_sound real_exact _

theorem ofBox_fun {n : ℕ} (d : Box n ℚ) : (ofBox (real ℚ) d).Fun where
  fn i := coord_isFun real_sound real_exact d i
  time := const_isFun real_sound real_exact d 0
  dwell := const_isFun real_sound real_exact d 0

/-- The enclosure after one step of the flow. -/
noncomputable def after : Encl 1 1 ℚ := start.applyFixedEvolveStep (real ℚ) true unitFlow.fn 1

theorem after_pts : after.pts = {q | Mem (side 1 2) q.1 ∧ q.2.1 = 1 ∧ q.2.2 = 1} := by
  rw [after, C72_fixed_evolve_exact real_sound real_exact (E := start) (ofBox_fun _), start_pts]
  ext ⟨y, t, d⟩
  simp only [Set.mem_setOf_eq, unitFlow_has, mem_side]
  constructor
  · rintro ⟨q, ⟨h1, h2, h3⟩, h4, h5, h6⟩
    rw [h5, h6, h2, h3, h4 0]
    refine ⟨⟨by linarith [h1.1], by linarith [h1.2]⟩, by norm_num, by norm_num⟩
  · rintro ⟨h1, rfl, rfl⟩
    refine ⟨(fun _ => y 0 - 1, 0, 0), ⟨⟨by linarith [h1.1], by linarith [h1.2]⟩, rfl, rfl⟩, fun i => ?_, by norm_num, by norm_num⟩
    rw [Subsingleton.elim i 0]
    ring

theorem after_fun : after.Fun := by
  have hm : ∀ i, (after.fn i).IsFun after.dom := by
    intro i p hp
    refine ⟨p 0 + 1, ⟨p, fun i => ?_, ?_⟩, ?_⟩
    · rw [Subsingleton.elim i 0]; rfl
    · exact (unitFlow_has p 1 _ i).2 rfl
    · rintro y ⟨x, h1, h2⟩
      have h1 : x 0 = p 0 := h1 0
      have h2 := (unitFlow_has x 1 y i).1 h2
      rw [h2, h1]
  have ht : ∀ f : Patch 1 ℚ, f = (real ℚ).addBounds ((real ℚ).const (side 0 1) 0) (between 1 1) → f.IsFun (side 0 1) := by
    rintro f rfl p hp
    refine ⟨0 + 1, ⟨0, 1, rfl, ⟨le_rfl, le_rfl⟩, rfl⟩, ?_⟩
    rintro y ⟨a, c, ha, hc, e⟩
    have ha : a = 0 := ha
    rw [e, ha, le_antisymm hc.2 hc.1]
  exact ⟨hm, ht _ rfl, ht _ rfl⟩

/-- **C72, negative**: a reachability step forgets the dwell time.  The set `[1,2]` was reached with dwell time one;
after a further time `r` the dwell time of the reached set is `r` instead of `1+r`. -/
theorem C72_reach_forgets_dwell :
    Made TaylorModel.exactRounding (real ℚ) after ∧
    ∀ q ∈ after.pts, ∀ r : ℚ, 0 ≤ r → r ≤ 1 →
      ((fun _ => q.1 0 + r, q.2.1 + r, r) : (Fin 1 → ℚ) × ℚ × ℚ) ∈ (after.applyFullReachStep (real ℚ) unitFlow).pts ∧
      ((fun _ => q.1 0 + r, q.2.1 + r, q.2.2 + r) : (Fin 1 → ℚ) × ℚ × ℚ) ∉ (after.applyFullReachStep (real ℚ) unitFlow).pts := by
  refine ⟨.fixed (.box _ (side_good (by norm_num))) _ _ _, fun q hq r h0 h1 => ⟨?_, ?_⟩⟩
  · exact C72_full_reach real_sound unitFlow q hq r h0 h1 _ fun i => (unitFlow_has _ _ _ i).2 rfl
  · rw [C72_full_reach_exact real_sound real_exact after_fun unitFlow (by norm_num [unitFlow])]
    rw [after_pts] at hq ⊢
    rintro ⟨q', hq', r', -, -, -, e1, e2⟩
    simp only [Set.mem_setOf_eq] at hq hq' e1 e2
    rw [hq.2.1, hq'.2.1] at e1
    rw [hq.2.2] at e2
    linarith

/-- **C72, negative**: `inside` answers true for a set which touches the boundary of the box, where a set is said to
be inside a box if it lies in the interior. -/
theorem C72_inside_touches :
    start.inside (side 0 1) = true ∧ ((fun _ => 1, 0, 0) : (Fin 1 → ℚ) × ℚ × ℚ) ∈ start.pts ∧
      ¬∀ q ∈ start.pts, ∀ i, q.1 i < 1 := by
  have h : ((fun _ => 1, 0, 0) : (Fin 1 → ℚ) × ℚ × ℚ) ∈ start.pts := by
    rw [start_pts]
    exact ⟨mem_side.2 ⟨by norm_num, le_rfl⟩, rfl, rfl⟩
  exact ⟨by decide +kernel, h, fun h' => absurd (h' _ h 0) (lt_irrefl _)⟩

/-- The constraint `x ≥ 2` makes the set empty; `x ≥ 1` does not. -/
example :
    ((start.newStateConstraint (real ℚ) idP ⟨fin 2, .pinf⟩).isEmpty (XE ℚ) (real ℚ)).map Prod.fst = some .true_ ∧
    ((start.newStateConstraint (real ℚ) idP ⟨fin 1, .pinf⟩).isEmpty (XE ℚ) (real ℚ)).map Prod.fst = some .indeterminate ∧
    (start.isEmpty (XE ℚ) (real ℚ)).map Prod.fst = some .false_ ∧
    (start.separated (XE ℚ) (real ℚ) (side 2 3)).map Prod.fst = some .true_ ∧
    (start.separated (XE ℚ) (real ℚ) (side (1 / 4) 3)).map Prod.fst = some .false_ ∧
    (start.subset (XE ℚ) (real ℚ) (side (-1) 2)).map Prod.fst = some true ∧
    start.satisfies (XE ℚ) (real ℚ) idP ⟨fin 2, fin 3⟩ = some .false_ := by
  refine ⟨?_, ?_, ?_, ?_, ?_, ?_, ?_⟩ <;> decide +kernel

/-- The promise about the reduced domain holds for these enclosures. -/
example : Inv TaylorModel.exactRounding (after.applyFullReachStep (real ℚ) unitFlow) :=
  C72_made real_sound (.reach (.fixed (.box _ (side_good (by norm_num))) _ _ _) _ trivial (by norm_num [unitFlow]) _)

end Verif.Enclosure
