import Verif.HybridEvolver.Points
import Mathlib.Tactic.Linarith

/-!
# Crossings of guards

What the evolver finds out about the way in which a guard is crossed is true of every solution starting in the set.
-/

namespace Verif.HybridEvolver

open Ariadne Ariadne.Logical Verif.ConstraintSolver Verif.Enclosure Verif.Evolver
open Ariadne.Ext (fin)

variable {L Ev : Type*} {dim : L → ℕ} {n m k : ℕ} {K : Type*} [Field K] [LinearOrder K] [IsStrictOrderedRing K]

/-! ## Specification -/

/-- The functions of which the guards, their Lie derivatives and the resets are descriptions. -/
structure Sem (L Ev : Type*) (dim : L → ℕ) (K : Type*) [Field K] [LinearOrder K] [IsStrictOrderedRing K] where
  g : {q : L} → Trans L Ev dim K q → (Fin (dim q) → K) → K
  dg : {q : L} → Trans L Ev dim K q → (Fin (dim q) → K) → K
  ddg : {q : L} → Trans L Ev dim K q → (Fin (dim q) → K) → K
  reset : {q : L} → (tr : Trans L Ev dim K q) → (Fin (dim q) → K) → Fin (dim tr.target) → K

/-- The descriptions allow the functions. -/
structure Sem.Describes (M : Sem L Ev dim K) {q : L} (tr : Trans L Ev dim K q) : Prop where
  guard : ∀ x, tr.guard.has x (M.g tr x)
  dguard : ∀ x, tr.dguard.has x (M.dg tr x)
  ndguard : ∀ x, tr.ndguard.has x (-M.dg tr x)
  ddguard : ∀ x, tr.ddguard.has x (M.ddg tr x)
  reset : ∀ x i, (tr.reset i).has x (M.reset tr x i)

/-- What is used of a derivative `u'` of `u` on the times which are not negative.  See `deriv_of_hasDerivAt`. -/
structure Deriv (u u' : K → K) : Prop where
  pos : ∀ a b, 0 ≤ a → a < b → (∀ s, a ≤ s → s ≤ b → 0 < u' s) → u a < u b
  nonneg : ∀ a b, 0 ≤ a → a ≤ b → (∀ s, a ≤ s → s ≤ b → 0 ≤ u' s) → u a ≤ u b
  nonpos : ∀ a b, 0 ≤ a → a ≤ b → (∀ s, a ≤ s → s ≤ b → u' s ≤ 0) → u b ≤ u a
  neg : ∀ a b, 0 ≤ a → a < b → (∀ s, a ≤ s → s ≤ b → u' s < 0) → u b < u a

/-- The flow model `φ` contains the solution `ξ` from the time `r` on. -/
structure Local (φ : Flow m K) (ξ : K → Fin m → K) (r : K) : Prop where
  time : 0 ≤ r
  pos : 0 < φ.h
  dom : Mem φ.dom (ξ r)
  follows : ∀ s, 0 ≤ s → s ≤ φ.h → ∀ i, (φ.fn i).has (ext (ξ r) s) (ξ (r + s) i)

/-- The guard of a transition along a solution. -/
structure Along (M : Sem L Ev dim K) (Reg : (K → K) → Prop) {q : L} (tr : Trans L Ev dim K q) (ξ : K → Fin (dim q) → K) :
    Prop where
  deriv : Deriv (fun s => M.g tr (ξ s)) fun s => M.dg tr (ξ s)
  deriv2 : Deriv (fun s => M.dg tr (ξ s)) fun s => M.ddg tr (ξ s)
  reg : ∀ r c, 0 ≤ r → Reg fun s => M.g tr (ξ (r + s)) - c
  reg' : ∀ r, 0 ≤ r → Reg fun s => M.dg tr (ξ (r + s))

/-- What the kind of a crossing promises about a solution starting at the time `r`, for a step of size `h`. -/
def CrossOk (h : K) (ξ : K → Fin m → K) (r : K) (g dg : (Fin m → K) → K) : Crossing m K → Prop
  | .transverse γ => ∀ s, 0 ≤ s → s ≤ h → (∀ u, 0 ≤ u → u ≤ s → g (ξ (r + u)) ≤ 0) →
      (∃ y, γ.has (ξ r) y ∧ s ≤ y) ∧ (g (ξ (r + s)) = 0 → 0 ≤ dg (ξ (r + s)) → γ.has (ξ r) s)
  | .grazing μ range => ∃ y, 0 ≤ y ∧ y ≤ h ∧ μ.has (ξ r) y ∧ range.Contains (g (ξ (r + y)))
  | .decreasing => ∀ s, 0 ≤ s → s ≤ h → dg (ξ (r + s)) < 0
  | _ => True

/-! ## Values along the flow -/

variable {τ : Tools K} {R : Rounding K} {Reg : (K → K) → Prop} {φ : Flow m K} {ξ : K → Fin m → K} {r : K}

theorem Local.mem_dom (hl : Local φ ξ r) {s : K} (h0 : 0 ≤ s) (h1 : s ≤ φ.h) : Mem (flowDom φ) (ext (ξ r) s) :=
  mem_ext.2 ⟨hl.dom, h0, h1⟩

theorem Local.along (hτ : τ.Ok R Reg) (hl : Local φ ξ r) {g : Patch m K} {s y : K} (h0 : 0 ≤ s) (h1 : s ≤ φ.h)
    (hy : g.has (ξ (r + s)) y) : (τ.alongFlow φ g).has (ext (ξ r) s) y :=
  hτ.sound.compose (hl.mem_dom h0 h1) (hl.follows s h0 h1) hy

theorem Local.bounds (hτ : τ.Ok R Reg) (hl : Local φ ξ r) {s : K} (h0 : 0 ≤ s) (h1 : s ≤ φ.h) :
    Mem (τ.flowBounds φ) (ξ (r + s)) := fun i => hτ.sound.range (hl.mem_dom h0 h1) (hl.follows s h0 h1 i)

theorem Local.apply (hτ : τ.Ok R Reg) (hl : Local φ ξ r) {g : Patch m K} {s y : K} (h0 : 0 ≤ s) (h1 : s ≤ φ.h)
    (hy : g.has (ξ (r + s)) y) : (ConstraintSolver.apply g.ev (τ.flowBounds φ)).Contains y := by
  rw [apply_eq (hl.bounds hτ h0 h1)]
  exact g.ok _ _ hy _ (hl.bounds hτ h0 h1)

/-! ## The kinds -/

/-- A positive derivative. -/
theorem strict_of_pos {u u' : K → K} (hd : Deriv u u') {r h : K} (h0 : 0 ≤ r)
    (hp : ∀ s, 0 ≤ s → s ≤ h → 0 < u' (r + s)) {a b : K} (ha : 0 ≤ a) (hab : a < b) (hb : b ≤ h) : u (r + a) < u (r + b) := by
  refine hd.pos _ _ (by linarith) (by linarith) fun s h1 h2 => ?_
  have := hp (s - r) (by linarith) (by linarith)
  rwa [add_sub_cancel] at this

theorem transverse_ok {γ : Patch m K} {g dg : (Fin m → K) → K} {h : K}
    (hz : ∃ y, 0 ≤ y ∧ y ≤ h ∧ g (ξ (r + y)) = 0 ∧ γ.has (ξ r) y)
    (ha : ∀ y, 0 ≤ y → y ≤ h → g (ξ (r + y)) = 0 → γ.has (ξ r) y)
    (hs : ∀ a b, 0 ≤ a → a < b → b ≤ h → g (ξ (r + a)) < g (ξ (r + b))) : CrossOk h ξ r g dg (.transverse γ) := by
  intro s h0 h1 hn
  refine ⟨?_, fun e _ => ha s h0 h1 e⟩
  obtain ⟨y, y0, y1, e, hy⟩ := hz
  refine ⟨y, hy, ?_⟩
  by_contra hc
  have := hs y s y0 (not_le.1 hc) h1
  rw [e] at this
  exact absurd (hn s h0 le_rfl) (not_le.2 this)

/-- A guard whose second derivative is negative and whose first derivative vanishes after the time `μ`. -/
theorem hump {u u' u'' : K → K} (hd : Deriv u u') (hd2 : Deriv u' u'') {r h μ : K} (h0 : 0 ≤ r) (m0 : 0 ≤ μ) (m1 : μ ≤ h)
    (hz : u' (r + μ) = 0) (hn : ∀ s, 0 ≤ s → s ≤ h → u'' (r + s) < 0) :
    (∀ a b, 0 ≤ a → a < b → b ≤ μ → u (r + a) < u (r + b)) ∧ (∀ s, 0 ≤ s → s ≤ h → u (r + s) ≤ u (r + μ)) ∧
      ∀ s, 0 ≤ s → s ≤ h → 0 ≤ u' (r + s) → s ≤ μ := by
  have hdec : ∀ a b, 0 ≤ a → a < b → b ≤ h → u' (r + b) < u' (r + a) := by
    intro a b ha hab hb
    refine hd2.neg _ _ (by linarith) (by linarith) fun s h1 h2 => ?_
    have := hn (s - r) (by linarith) (by linarith)
    rwa [add_sub_cancel] at this
  have hbef : ∀ s, 0 ≤ s → s < μ → 0 < u' (r + s) := fun s s0 s1 => hz ▸ hdec s μ s0 s1 m1
  have haft : ∀ s, μ < s → s ≤ h → u' (r + s) < 0 := fun s s0 s1 => hz ▸ hdec μ s m0 s0 s1
  have hinc : ∀ a b, 0 ≤ a → a < b → b ≤ μ → u (r + a) < u (r + b) := by
    intro a b ha hab hb
    obtain ⟨c, h1, h2⟩ : ∃ c, a < c ∧ c < b := ⟨(a + b) / 2, by linarith, by linarith⟩
    have hp := hd.pos (r + a) (r + c) (by linarith) (by linarith) fun s h3 h4 => by
      have := hbef (s - r) (by linarith) (by linarith)
      rwa [add_sub_cancel] at this
    have hq := hd.nonneg (r + c) (r + b) (by linarith) (by linarith) fun s h3 h4 => by
      rcases lt_or_ge (s - r) μ with h5 | h5
      · have := (hbef (s - r) (by linarith) h5).le
        rwa [add_sub_cancel] at this
      · have : s = r + μ := by linarith
        rw [this, hz]
    exact lt_of_lt_of_le hp hq
  refine ⟨hinc, fun s s0 s1 => ?_, fun s s0 s1 hs => ?_⟩
  · rcases lt_trichotomy s μ with h2 | h2 | h2
    · exact (hinc s μ s0 h2 le_rfl).le
    · rw [h2]
    · refine hd.nonpos _ _ (by linarith) (by linarith) fun w h3 h4 => ?_
      rcases lt_or_ge μ (w - r) with h5 | h5
      · have := (haft (w - r) h5 (by linarith)).le
        rwa [add_sub_cancel] at this
      · have : w = r + μ := by linarith
        rw [this, hz]
  · by_contra hc
    exact absurd hs (not_le.2 (haft s (not_le.1 hc) s1))

/-- A zero found before `c` when the maximum is positive. -/
theorem transverse_hump {γ : Patch m K} {g dg : (Fin m → K) → K} {h μ c : K} (m0 : 0 ≤ μ)
    (hinc : ∀ a b, 0 ≤ a → a < b → b ≤ μ → g (ξ (r + a)) < g (ξ (r + b)))
    (hsign : ∀ s, 0 ≤ s → s ≤ h → 0 ≤ dg (ξ (r + s)) → s ≤ μ) (hpos : 0 < g (ξ (r + μ)))
    (hz : ∃ y, 0 ≤ y ∧ y ≤ c ∧ g (ξ (r + y)) = 0 ∧ γ.has (ξ r) y)
    (ha : ∀ y, 0 ≤ y → y ≤ c → g (ξ (r + y)) = 0 → γ.has (ξ r) y) : CrossOk h ξ r g dg (.transverse γ) := by
  intro s h0 h1 hn
  obtain ⟨y, y0, y1, e, hy⟩ := hz
  have hsm : s < μ := by
    by_contra hc
    exact absurd (hn μ m0 (not_lt.1 hc)) (not_le.2 hpos)
  have hsy : s ≤ y := by
    by_contra hc
    have := hinc y s y0 (not_le.1 hc) hsm.le
    rw [e] at this
    exact absurd (hn s h0 le_rfl) (not_le.2 this)
  exact ⟨⟨y, hy, hsy⟩, fun e2 _ => ha s h0 (hsy.trans y1) e2⟩

theorem concave_ok (hτ : τ.Ok R Reg) (hl : Local φ ξ r) {E : Encl n m K} {p t d} (hE : On E p (ξ r) t d)
    {g dg : Patch m K} {G D D2 : (Fin m → K) → K} (hg : ∀ x, g.has x (G x)) (hdg : ∀ x, dg.has x (D x))
    (h1 : Deriv (fun s => G (ξ s)) fun s => D (ξ s)) (h2 : Deriv (fun s => D (ξ s)) fun s => D2 (ξ s))
    (r1 : Reg fun s => G (ξ (r + s))) (r2 : Reg fun s => D (ξ (r + s)))
    (hn : ∀ s, 0 ≤ s → s ≤ φ.h → D2 (ξ (r + s)) < 0) :
    match τ.concave φ E g dg with
    | some c => CrossOk φ.h ξ r G D c
    | none => ∀ s, 0 ≤ s → s ≤ φ.h → G (ξ (r + s)) < 0 := by
  simp only [Tools.concave]
  cases hm : τ.implicit (τ.alongFlow φ dg) φ.dom (between 0 φ.h) with
  | failed => exact trivial
  | error => exact trivial
  | ok μ =>
    simp only
    obtain ⟨⟨y, y0, y1, e, hy⟩, -⟩ := hτ.implicit hm (ξ r) hl.dom (fun s => D (ξ (r + s))) r2
      fun s s0 s1 => hl.along hτ s0 s1 (hdg _)
    obtain ⟨u, hu, hu1⟩ := hτ.implicit_range hm
    obtain ⟨hinc, hmax, hsign⟩ := hump (u := fun s => G (ξ s)) (u' := fun s => D (ξ s)) h1 h2 hl.time y0 y1 e hn
    have hF := hE.spaceEvolve hτ hy (hl.follows y y0 y1)
    have hr := interIvl_contains (hF.guard_mem hτ (hg _)) (hF.range_mem hτ (hg _))
    set rg := interIvl (ConstraintSolver.apply g.ev ((E.applySpaceEvolveStep τ.C φ.fn μ).boundingBox τ.C))
      (τ.rangeOf (E.applySpaceEvolveStep τ.C φ.fn μ) g) with hrg
    have hgr : CrossOk φ.h ξ r G D (.grazing μ rg) := ⟨y, y0, y1, hy, hr⟩
    by_cases c1 : Ext.lt rg.u (fin 0) = true
    · rw [if_pos c1]
      exact fun s s0 s1 => lt_of_le_of_lt (hmax s s0 s1) (lt_sound_upper c1 hr)
    rw [if_neg c1]
    by_cases c2 : Ext.lt (fin 0) rg.l = true
    · rw [if_pos c2]
      have hs : shortDomain (τ.C.range φ.dom μ) = between 0 (15 / 16 * u) := by rw [shortDomain, hu]
      rw [hs]
      cases hγ : τ.implicit (τ.alongFlow φ g) φ.dom (between 0 (15 / 16 * u)) with
      | failed => exact hgr
      | error => exact trivial
      | ok γ =>
        obtain ⟨hz, ha⟩ := hτ.implicit hγ (ξ r) hl.dom (fun s => G (ξ (r + s))) r1
          fun s s0 s1 => hl.along hτ s0 (s1.trans hu1) (hg _)
        exact transverse_hump y0 hinc hsign (lt_sound_lower c2 hr) hz ha
    · rw [if_neg c2]
      exact hgr

/-- **Crossings**: the kind found for an event is right for every solution starting in the set; an event which is
erased does not happen within the step. -/
theorem crossing_ok (hτ : τ.Ok R Reg) {q : L} {φ : Flow (dim q) K} {ξ : K → Fin (dim q) → K} {M : Sem L Ev dim K}
    (hl : Local φ ξ r) {E : Encl n (dim q) K} {p t d} (hE : On E p (ξ r) t d) {tr : Trans L Ev dim K q}
    (hM : M.Describes tr) (ha : Along M Reg tr ξ) {o} (ho : τ.crossing φ E tr = some o) :
    match o with
    | some c => CrossOk φ.h ξ r (M.g tr) (M.dg tr) c
    | none => ∀ s, 0 ≤ s → s ≤ φ.h → M.g tr (ξ (r + s)) < 0 := by
  have r1 : Reg fun s => M.g tr (ξ (r + s)) := by simpa using ha.reg r 0 hl.time
  have hdm : ∀ s, 0 ≤ s → s ≤ φ.h → (ConstraintSolver.apply tr.dguard.ev (τ.flowBounds φ)).Contains (M.dg tr (ξ (r + s))) :=
    fun s s0 s1 => hl.apply hτ s0 s1 (hM.dguard _)
  simp only [Tools.crossing] at ho
  by_cases c1 : Ext.lt (fin 0) (ConstraintSolver.apply tr.dguard.ev (τ.flowBounds φ)).l = true
  · rw [if_pos c1] at ho
    cases hγ : τ.implicit (τ.alongFlow φ tr.guard) φ.dom (between 0 φ.h) with
    | failed => rw [hγ] at ho; obtain rfl := Option.some.inj ho; exact trivial
    | error => rw [hγ] at ho; cases ho
    | ok γ =>
      rw [hγ] at ho
      obtain rfl := Option.some.inj ho
      obtain ⟨hz, hall⟩ := hτ.implicit hγ (ξ r) hl.dom (fun s => M.g tr (ξ (r + s))) r1
        fun s s0 s1 => hl.along hτ s0 s1 (hM.guard _)
      refine transverse_ok hz hall fun a b h0 hab h1 => ?_
      exact strict_of_pos ha.deriv hl.time (fun s s0 s1 => lt_sound_lower c1 (hdm s s0 s1)) h0 hab h1
  rw [if_neg c1] at ho
  by_cases c2 : Ext.lt (ConstraintSolver.apply tr.dguard.ev (τ.flowBounds φ)).u (fin 0) = true
  · rw [if_pos c2] at ho
    obtain rfl := Option.some.inj ho
    exact fun s s0 s1 => lt_sound_upper c2 (hdm s s0 s1)
  rw [if_neg c2] at ho
  set r2 := interIvl (ConstraintSolver.apply tr.ddguard.ev (τ.flowBounds φ))
    (τ.C.range (flowDom φ) (τ.alongFlow φ tr.ddguard)) with hr2
  by_cases c3 : Ext.lt (fin 0) r2.l = true
  · rw [if_pos c3] at ho
    obtain rfl := Option.some.inj ho
    exact trivial
  rw [if_neg c3] at ho
  by_cases c4 : Ext.lt r2.u (fin 0) = true
  · rw [if_pos c4] at ho
    have hcc := concave_ok hτ hl hE hM.guard hM.dguard ha.deriv ha.deriv2 r1 (ha.reg' r hl.time) fun s s0 s1 =>
      lt_sound_upper c4 (interIvl_contains (hl.apply hτ s0 s1 (hM.ddguard _))
        (hτ.sound.range (hl.mem_dom s0 s1) (hl.along hτ s0 s1 (hM.ddguard _))))
    cases hc : τ.concave φ E tr.guard tr.dguard with
    | none =>
      rw [hc] at ho hcc
      by_cases c5 : τ.strict = true
      · simp [c5] at ho
      · simp only [c5] at ho
        obtain rfl := Option.some.inj ho
        exact hcc
    | some c =>
      rw [hc] at ho hcc
      obtain rfl := Option.some.inj ho
      exact hcc
  · rw [if_neg c4] at ho
    obtain rfl := Option.some.inj ho
    exact trivial

theorem crossings_mem {q : L} {φ : Flow (dim q) K} {E : Encl n (dim q) K} {l : List (Trans L Ev dim K q)} {cr}
    (h : τ.crossings φ E l = some cr) :
    (∀ c ∈ cr, c.1 ∈ l ∧ τ.crossing φ E c.1 = some (some c.2)) ∧
      ∀ tr ∈ l, τ.crossing φ E tr = some none ∨ ∃ c, (tr, c) ∈ cr := by
  induction l generalizing cr with
  | nil =>
    obtain rfl := Option.some.inj h
    simp
  | cons tr l ih =>
    simp only [Tools.crossings] at h
    obtain ⟨o, ho, h⟩ := Option.bind_eq_some_iff.1 h
    obtain ⟨cr', hc, rfl⟩ := Option.map_eq_some_iff.1 h
    obtain ⟨i1, i2⟩ := ih hc
    cases o with
    | none =>
      refine ⟨fun c h1 => ⟨List.mem_cons_of_mem _ (i1 c h1).1, (i1 c h1).2⟩, fun tr' h1 => ?_⟩
      rcases List.mem_cons.1 h1 with rfl | h1
      · exact Or.inl ho
      · exact i2 tr' h1
    | some c =>
      refine ⟨fun c' h1 => ?_, fun tr' h1 => ?_⟩
      · rcases List.mem_cons.1 h1 with rfl | h1
        · exact ⟨by simp, ho⟩
        · exact ⟨List.mem_cons_of_mem _ (i1 c' h1).1, (i1 c' h1).2⟩
      · rcases List.mem_cons.1 h1 with rfl | h1
        · exact Or.inr ⟨c, by simp⟩
        · exact (i2 tr' h1).imp id fun ⟨c, hc⟩ => ⟨c, List.mem_cons_of_mem _ hc⟩

end Verif.HybridEvolver
