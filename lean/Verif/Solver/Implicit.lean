import Verif.Solver.Examples
import Mathlib.Topology.Ultrafilter

/-!
# C58: implicit functions (solver.cpp 294-371, 474-580)

A vector of function patches over the parameter domain is modelled by the bounds it gives for the value at
each parameter.  For a Taylor function patch these are the values of the polynomial plus and minus the
error.  The operations on patches (composition, sums, products) are modelled by exact interval arithmetic
at each parameter, followed by an arbitrary widening.
-/

namespace Verif.Solver

open Ariadne Verif.ConstraintSolver Verif.Matrix Set
open Ariadne.Ext (fin)

/-- A vector of function patches: bounds for the value at each parameter. -/
abbrev Patch (P : Type*) (n : ℕ) (K : Type*) := P → Box n K

/-- The result of `implicit`.  In both cases of `noSolution` the code throws `NoSolutionException`;
`disjoint` is the throw at line 333, `outOfSteps` the throw at line 370. -/
inductive IOutcome (α : Type*) where
  | ok (a : α)
  | disjoint
  | outOfSteps
  | unknown
  | singular

/-- The tests on patches used by `implicit`. -/
structure Tests (P : Type*) (n : ℕ) (K : Type*) where
  /-- `refines(nh[i],h[i])` -/
  refines : Patch P n K → Patch P n K → Fin n → Bool
  /-- `definitely(disjoint(nh[i].range(),ix[i]))` -/
  disjoint : Patch P n K → Box n K → Fin n → Bool
  /-- the error of `nh[i]` is greater than the range of `h[i]` (solver.cpp 335) -/
  diverges : Patch P n K → Patch P n K → Fin n → Bool
  /-- the errors of `nh` and `fnh` are less than the maximum error (solver.cpp 365) -/
  small : Patch P n K → Bool

/-- The loop over the components (solver.cpp 324-339): the new flags, or an exception. -/
def flagLoop {P : Type*} {n : ℕ} {K : Type*} (t : Tests P n K) (ix : Box n K) (h nh : Patch P n K) :
    List (Fin n) → (Fin n → Bool) → IOutcome (Fin n → Bool)
  | [], fl => .ok fl
  | i :: l, fl =>
    if fl i then flagLoop t ix h nh l fl
    else if t.refines nh h i then flagLoop t ix h nh l (Function.update fl i true)
    else if t.disjoint nh ix i then .disjoint
    else if t.diverges nh h i then .unknown
    else flagLoop t ix h nh l fl

/-- The main loop (solver.cpp 316-368), with `ALLOW_PARTIAL_FUNCTION` true (solver.cpp 110). -/
def implicitLoop {P : Type*} {n : ℕ} {K : Type*} (t : Tests P n K) (step : Patch P n K → Option (Patch P n K))
    (ix : Box n K) : ℕ → (Fin n → Bool) → Patch P n K → IOutcome (Patch P n K)
  | 0, _, _ => .outOfSteps
  | k + 1, fl, h =>
    match step h with
    | none => .singular
    | some nh =>
      match flagLoop t ix h nh (List.finRange n) fl with
      | .ok fl' =>
        if (List.finRange n).all fl' && (k == 0 || t.small nh) then .ok nh
        else implicitLoop t step ix k fl' nh
      | .disjoint => .disjoint
      | .outOfSteps => .outOfSteps
      | .unknown => .unknown
      | .singular => .singular

/-- `SolverBase::implicit(f,ip,ix)` (solver.cpp 294-371). -/
def implicit {P : Type*} {n : ℕ} {K : Type*} (t : Tests P n K) (step : Patch P n K → Option (Patch P n K))
    (steps : ℕ) (ix : Box n K) : IOutcome (Patch P n K) :=
  implicitLoop t step ix steps (fun _ => false) fun _ => ix

section Steps

variable {P : Type*} {n : ℕ} {K : Type*} [Field K] [LinearOrder K] [IsStrictOrderedRing K]

/-- Exact arithmetic. -/
abbrev XE (K : Type*) [Field K] [LinearOrder K] [IsStrictOrderedRing K] : XRounding K :=
  .ofRounding Verif.TaylorModel.exactRounding

/-- `nh` is a result of `IntervalNewtonSolver::implicit_step(f,id,h)` (solver.cpp 474-541) over the
parameters `D`.  `F p` evaluates `f(p,·)`; `J h p` encloses the derivatives `D2f(p,y)` for `y` in `h(p)`,
and may be the range over all parameters.  Simplified: for one variable, the code divides by `J`, which
is the same in exact arithmetic. -/
def IsNewtonStep (D : Set P) (F : P → VFn n K) (J : Patch P n K → P → Mat n n (Bounds K))
    (h nh : Patch P n K) : Prop :=
  ∀ p ∈ D, ∃ Y, newtonStep (XE K) (F p) (fun _ => J h p) (h p) = some Y ∧
    ∀ i, (nh p i).Finite ∧ Bounds.refines (Y i) (nh p i) = true

/-- `nh` is a result of `KrawczykSolver::implicit_step(f,p,x)` (solver.cpp 544-580). -/
def IsKrawczykStep (D : Set P) (F : P → VFn n K) (J : Patch P n K → P → Mat n n (Bounds K))
    (h nh : Patch P n K) : Prop :=
  ∀ p ∈ D, ∃ Y, krawczykStep (XE K) (F p) (fun _ => J h p) (h p) = some Y ∧
    ∀ i, (nh p i).Finite ∧ Bounds.refines (Y i) (nh p i) = true

end Steps

section Theorems

variable {P : Type*} {n : ℕ}

/-- The exact rounding of real numbers. -/
noncomputable abbrev RE : Rounding ℝ := Verif.TaylorModel.exactRounding

/-- A patch with finite nonempty values on `D`. -/
def GoodPatch (D : Set P) (h : Patch P n ℝ) : Prop := ∀ p ∈ D, GoodBox RE (h p)

/-- What is needed of a step. -/
def ImplicitSound (D : Set P) (f : P → (Fin n → ℝ) → Fin n → ℝ) (step : Patch P n ℝ → Option (Patch P n ℝ)) : Prop :=
  ∀ h nh, GoodPatch D h → step h = some nh → ∀ p ∈ D, StepSoundAt RE (f p) (h p) (nh p)

/-- The step is made only if the solution is unique. -/
def ImplicitUnique (D : Set P) (f : P → (Fin n → ℝ) → Fin n → ℝ) (step : Patch P n ℝ → Option (Patch P n ℝ)) : Prop :=
  ∀ h nh, GoodPatch D h → step h = some nh → ∀ p ∈ D, ∀ x y, Mem (h p) x → Mem (h p) y →
    f p x = 0 → f p y = 0 → x = y

/-- The tests on patches mean what they say, on the parameters `D`. -/
structure Tests.Sound (t : Tests P n ℝ) (D : Set P) : Prop where
  refines : ∀ h nh i, t.refines nh h i = true → ∀ p ∈ D, Bounds.refines (nh p i) (h p i) = true
  disjoint : ∀ nh ix i, t.disjoint nh ix i = true → ∀ p ∈ D, ∀ x : ℝ, (nh p i).Contains x → ¬ (ix i).Contains x

theorem refines_contains {A B : Bounds ℝ} (h : Bounds.refines A B = true) (hA : A.Finite) (hB : B.Finite) {x : ℝ}
    (hx : A.Contains x) : B.Contains x := by
  obtain ⟨⟨a, ha⟩, b, hb⟩ := hA
  obtain ⟨⟨c, hc⟩, d, hd⟩ := hB
  simp only [Bounds.Contains, Bounds.refines, ha, hb, hc, hd, Ext.le, Bool.and_eq_true, decide_eq_true_eq,
    IsLower, IsUpper] at *
  exact ⟨h.1.trans hx.1, hx.2.trans h.2⟩

/-- Widening the result of a step. -/
theorem StepSoundAt.widen {f : (Fin n → ℝ) → Fin n → ℝ} {X Y Z : Box n ℝ} (h : StepSoundAt RE f X Y)
    (hX : GoodBox RE X) (hZ : ∀ i, (Z i).Finite ∧ Bounds.refines (Y i) (Z i) = true) : StepSoundAt RE f X Z := by
  obtain ⟨h1, h2, h3⟩ := h
  have hYf : ∀ i, (Y i).Finite := fun i => by
    obtain ⟨a, b, e, -⟩ := h1 i
    rw [e]; exact ⟨⟨a, rfl⟩, b, rfl⟩
  have hYZ : ∀ z, Mem Y z → Mem Z z := fun z hz i => refines_contains (hZ i).2 (hYf i) (hZ i).1 (hz i)
  refine ⟨fun i => ?_, fun z hz h0 => hYZ z (h2 z hz h0), fun href => ?_⟩
  · obtain ⟨a, b, e, -, -, hab⟩ := h1 i
    obtain ⟨⟨⟨c, hc⟩, d, hd⟩, hr⟩ := hZ i
    rw [e, Bounds.refines, hc, hd] at hr
    simp only [Ext.le, Bool.and_eq_true, decide_eq_true_eq] at hr
    exact ⟨c, d, by rw [← hc, ← hd], trivial, trivial, by linarith [hr.1, hr.2]⟩
  · have : vRefines Y X = true := by
      simp only [vRefines, List.all_eq_true] at href ⊢
      intro i hi
      have r1 := href i hi
      have r2 := (hZ i).2
      obtain ⟨⟨a, ha⟩, b, hb⟩ := hYf i
      obtain ⟨⟨⟨c, hc⟩, d, hd⟩, -⟩ := hZ i
      obtain ⟨u, v, e, -⟩ := hX i
      rw [e] at r1 ⊢
      simp only [Bounds.refines, ha, hb, hc, hd, Ext.le, Bool.and_eq_true, decide_eq_true_eq] at *
      exact ⟨r1.1.trans r2.1, r2.2.trans r1.2⟩
    obtain ⟨z, hz, h0⟩ := h3 this
    exact ⟨z, hYZ z hz, h0⟩

variable {D : Set P} {F : P → VFn n ℝ} {J : Patch P n ℝ → P → Mat n n (Bounds ℝ)}
  {f : P → (Fin n → ℝ) → Fin n → ℝ} {f' : P → (Fin n → ℝ) → Matrix (Fin n) (Fin n) ℝ}
  {step : Patch P n ℝ → Option (Patch P n ℝ)}

/-- The evaluation of `f` and of its derivatives in the variables encloses. -/
structure ImplicitValid (D : Set P) (F : P → VFn n ℝ) (J : Patch P n ℝ → P → Mat n n (Bounds ℝ))
    (f : P → (Fin n → ℝ) → Fin n → ℝ) (f' : P → (Fin n → ℝ) → Matrix (Fin n) (Fin n) ℝ) : Prop where
  der : ∀ p ∈ D, ∀ x, HasStrictFDerivAt (f p) (lin (f' p x)) x
  eval : ∀ p ∈ D, ∀ X x, (∀ i, In (X i) (x i)) → ∀ i, In (F p X i) (f p x i)
  jac : ∀ h, ∀ p ∈ D, ∀ x, (∀ i, In (h p i) (x i)) → ∀ i j, In (J h p i j) (f' p x i j)

theorem ImplicitValid.at (hv : ImplicitValid D F J f f') (h : Patch P n ℝ) {p : P} (hp : p ∈ D) :
    ValidAt (F p) (fun _ => J h p) (f p) (f' p) (h p) :=
  ⟨hv.der p hp, hv.eval p hp, hv.jac h p hp⟩

/-- **C58**: a step of the interval Newton solver for implicit functions loses no solution, and shows that
there is a solution for each parameter if its result refines the patch. -/
theorem C58_newton_step (hv : ImplicitValid D F J f f')
    (hs : ∀ h nh, step h = some nh → IsNewtonStep D F J h nh) : ImplicitSound D f step ∧ ImplicitUnique D f step := by
  constructor
  · intro h nh hh e p hp
    obtain ⟨Y, hY, hr⟩ := hs h nh e p hp
    exact (newton_step_at (hv.at h hp) (hh p hp) hY).widen (hh p hp) hr
  · intro h nh hh e p hp x y hx hy h1 h2
    obtain ⟨Y, hY, -⟩ := hs h nh e p hp
    simp only [newtonStep, Option.map_eq_some_iff] at hY
    obtain ⟨N, hN, -⟩ := hY
    exact C57_unique (hv.at h hp) (hh p hp) hN hx hy h1 h2

/-- **C58**: the same for the Krawczyk solver, without uniqueness. -/
theorem C58_krawczyk_step (hv : ImplicitValid D F J f f')
    (hs : ∀ h nh, step h = some nh → IsKrawczykStep D F J h nh) : ImplicitSound D f step := by
  intro h nh hh e p hp
  obtain ⟨Y, hY, hr⟩ := hs h nh e p hp
  exact (krawczyk_step_at (hv.at h hp) (hh p hp) hY).widen (hh p hp) hr

/-! ## The loop -/

/-- `b` is reached from `a` by steps. -/
inductive Reach (step : Patch P n ℝ → Option (Patch P n ℝ)) : Patch P n ℝ → Patch P n ℝ → Prop
  | refl (a) : Reach step a a
  | head {a b c} : step a = some b → Reach step b c → Reach step a c

theorem Reach.tail {a b c : Patch P n ℝ} (h : Reach step a b) (h2 : step b = some c) : Reach step a c := by
  induction h with
  | refl a => exact .head h2 (.refl _)
  | head e _ ih => exact .head e (ih h2)

/-- Steps keep the solutions. -/
theorem Reach.sound (hs : ImplicitSound D f step) {a b : Patch P n ℝ} (h : Reach step a b) (ha : GoodPatch D a) :
    GoodPatch D b ∧ ∀ p ∈ D, ∀ z, Mem (a p) z → f p z = 0 → Mem (b p) z := by
  induction h with
  | refl a => exact ⟨ha, fun _ _ _ h _ => h⟩
  | head e _ ih =>
    have h1 := hs _ _ ha e
    obtain ⟨h2, h3⟩ := ih fun p hp => (h1 p hp).1
    exact ⟨h2, fun p hp z hz h0 => h3 p hp z ((h1 p hp).2.1 z hz h0) h0⟩

/-- Flags are set only by a test. -/
theorem flagLoop_ok {t : Tests P n ℝ} {ix : Box n ℝ} {h nh : Patch P n ℝ} :
    ∀ (l : List (Fin n)) (fl fl' : Fin n → Bool), flagLoop t ix h nh l fl = .ok fl' →
      ∀ i, fl' i = true → fl i = true ∨ t.refines nh h i = true := by
  intro l
  induction l with
  | nil =>
    intro fl fl' e i hi
    obtain rfl : fl = fl' := by simpa [flagLoop] using e
    exact Or.inl hi
  | cons j l ih =>
    intro fl fl' e i hi
    rw [flagLoop] at e
    split_ifs at e with h1 h2
    · exact ih _ _ e i hi
    · rcases ih _ _ e i hi with h | h
      · by_cases hij : i = j
        · exact Or.inr (hij ▸ h2)
        · exact Or.inl (by simpa [hij] using h)
      · exact Or.inr h
    · exact ih _ _ e i hi

theorem flagLoop_disjoint {t : Tests P n ℝ} {ix : Box n ℝ} {h nh : Patch P n ℝ} :
    ∀ (l : List (Fin n)) (fl : Fin n → Bool), flagLoop t ix h nh l fl = .disjoint →
      ∃ i, t.disjoint nh ix i = true := by
  intro l
  induction l with
  | nil => intro fl e; simp [flagLoop] at e
  | cons j l ih =>
    intro fl e
    rw [flagLoop] at e
    split_ifs at e with h1 h2 h3
    · exact ih _ e
    · exact ih _ e
    · exact ⟨j, h3⟩
    · exact ih _ e

/-- Each flag was set at some step on the way. -/
theorem implicitLoop_spec {t : Tests P n ℝ} {ix : Box n ℝ} {a : Patch P n ℝ} :
    ∀ (k : ℕ) (fl : Fin n → Bool) (h : Patch P n ℝ), Reach step a h →
    (∀ i, fl i = true → ∃ b c, Reach step a b ∧ step b = some c ∧ t.refines c b i = true ∧ Reach step c h) →
    (∀ r, implicitLoop t step ix k fl h = .ok r → Reach step a r ∧
      ∀ i, ∃ b c, Reach step a b ∧ step b = some c ∧ t.refines c b i = true ∧ Reach step c r) ∧
    (implicitLoop t step ix k fl h = .disjoint → ∃ b, Reach step a b ∧ ∃ i, t.disjoint b ix i = true) := by
  intro k
  induction k with
  | zero => intro fl h _ _; simp [implicitLoop]
  | succ k ih =>
    intro fl h hr hfl
    rw [implicitLoop]
    cases hst : step h with
    | none => simp
    | some nh =>
      simp only
      cases hf : flagLoop t ix h nh (List.finRange n) fl with
      | ok fl' =>
        simp only
        have hfl' : ∀ i, fl' i = true → ∃ b c, Reach step a b ∧ step b = some c ∧ t.refines c b i = true ∧
            Reach step c nh := by
          intro i hi
          rcases flagLoop_ok _ _ _ hf i hi with h1 | h1
          · obtain ⟨b, c, q1, q2, q3, q4⟩ := hfl i h1
            exact ⟨b, c, q1, q2, q3, q4.tail hst⟩
          · exact ⟨h, nh, hr, hst, h1, .refl _⟩
        split_ifs with hc
        · refine ⟨fun r e => ?_, by simp⟩
          obtain rfl : nh = r := by simpa using e
          refine ⟨hr.tail hst, fun i => hfl' i ?_⟩
          simp only [Bool.and_eq_true, List.all_eq_true] at hc
          exact hc.1 i (List.mem_finRange i)
        · exact ih fl' nh (hr.tail hst) hfl'
      | disjoint => exact ⟨by simp, fun _ => ⟨nh, hr.tail hst, flagLoop_disjoint _ _ hf⟩⟩
      | outOfSteps => simp
      | unknown => simp
      | singular => simp

/-- **C58**: every solution in `ix` is enclosed by the function returned. -/
theorem C58_complete {t : Tests P n ℝ} (hs : ImplicitSound D f step) {ix : Box n ℝ} (hix : GoodBox RE ix)
    {steps : ℕ} {r : Patch P n ℝ} (h : implicit t step steps ix = .ok r) :
    ∀ p ∈ D, ∀ x, Mem ix x → f p x = 0 → Mem (r p) x :=
  ((((implicitLoop_spec steps (fun _ => false) (fun _ => ix) (.refl _) (by simp)).1 r h).1).sound hs
    fun _ _ => hix).2

/-- **C58**: if the range of a function is found to be disjoint from `ix`, there is no solution in `ix`
for any parameter. -/
theorem C58_disjoint {t : Tests P n ℝ} (hs : ImplicitSound D f step) (ht : t.Sound D) {ix : Box n ℝ}
    (hix : GoodBox RE ix) {steps : ℕ} (h : implicit t step steps ix = .disjoint) :
    ∀ p ∈ D, ∀ x, Mem ix x → f p x ≠ 0 := by
  obtain ⟨b, hb, i, hi⟩ := (implicitLoop_spec steps (fun _ => false) (fun _ => ix) (.refl _) (by simp)).2 h
  intro p hp x hx h0
  exact ht.disjoint b ix i hi p hp (x i) ((hb.sound hs fun _ _ => hix).2 p hp x hx h0 i) (hx i)

/-- From the step at which all components refine. -/
theorem implicit_of_refining {t : Tests P n ℝ} (hs : ImplicitSound D f step) (ht : t.Sound D) {ix : Box n ℝ}
    (hix : GoodBox RE ix) {b c r : Patch P n ℝ} (h1 : Reach step (fun _ => ix) b) (h2 : step b = some c)
    (h3 : ∀ i, t.refines c b i = true) (h4 : Reach step c r) :
    ∃ y : P → Fin n → ℝ, ∀ p ∈ D, Mem (b p) (y p) ∧ Mem (r p) (y p) ∧ f p (y p) = 0 := by
  have hb := h1.sound hs fun _ _ => hix
  have hc := hs b c hb.1 h2
  have key : ∀ p, ∃ z, p ∈ D → Mem (b p) z ∧ Mem (r p) z ∧ f p z = 0 := by
    intro p
    by_cases hp : p ∈ D
    · obtain ⟨g1, -, g3⟩ := hc p hp
      have hr : vRefines (c p) (b p) = true := by
        simp only [vRefines, List.all_eq_true]
        intro i _
        exact ht.refines b c i (h3 i) p hp
      obtain ⟨z, hz, h0⟩ := g3 hr
      exact ⟨z, fun _ => ⟨vRefines_mem RE (hb.1 p hp) g1 hr hz,
        (h4.sound hs fun p hp => (hc p hp).1).2 p hp z hz h0, h0⟩⟩
    · exact ⟨0, fun h => absurd h hp⟩
  choose y hy using key
  exact ⟨y, fun p hp => hy p hp⟩

/-- **C58**: if all components of the function refine the previous ones at the same step, the function
returned encloses a solution for each parameter.  Missing: the code sets the flag of each component at a
different step, see `C58_flags_wrong`. -/
theorem C58_implicit_partial {t : Tests P n ℝ} (hs : ImplicitSound D f step) (ht : t.Sound D) {ix : Box n ℝ}
    (hix : GoodBox RE ix) {b c r : Patch P n ℝ} (h1 : Reach step (fun _ => ix) b)
    (h2 : step b = some c) (h3 : ∀ i, t.refines c b i = true) (h4 : Reach step c r) :
    ∃ y : P → Fin n → ℝ, ∀ p ∈ D, Mem (r p) (y p) ∧ f p (y p) = 0 := by
  obtain ⟨y, hy⟩ := implicit_of_refining hs ht hix h1 h2 h3 h4
  exact ⟨y, fun p hp => (hy p hp).2⟩

/-- A patch whose bounds depend continuously on the parameter. -/
def ContPatch [TopologicalSpace P] (D : Set P) (h : Patch P n ℝ) : Prop :=
  ∃ a b : P → Fin n → ℝ, ContinuousOn a D ∧ ContinuousOn b D ∧ ∀ p i, h p i = ⟨fin (a p i), fin (b p i)⟩

/-- A unique solution depends continuously on the parameter. -/
theorem continuousOn_of_unique [TopologicalSpace P] {b : Patch P n ℝ} (hb : ContPatch D b)
    (hf : Continuous fun q : P × (Fin n → ℝ) => f q.1 q.2) {y : P → Fin n → ℝ}
    (hy : ∀ p ∈ D, Mem (b p) (y p) ∧ f p (y p) = 0)
    (hu : ∀ p ∈ D, ∀ z, Mem (b p) z → f p z = 0 → z = y p) : ContinuousOn y D := by
  obtain ⟨u, v, hcu, hcv, e⟩ := hb
  have hmem : ∀ p z, Mem (b p) z ↔ z ∈ Icc (u p) (v p) := by
    intro p z
    refine ⟨fun h => ⟨fun i => ?_, fun i => ?_⟩, fun h i => ?_⟩
    · have := (h i).1; rw [e] at this; exact this
    · have := (h i).2; rw [e] at this; exact this
    · rw [e]; exact ⟨h.1 i, h.2 i⟩
  intro p hp
  have hD : ∀ᶠ q in nhdsWithin p D, q ∈ D := self_mem_nhdsWithin
  have hlo : ∀ᶠ q in nhdsWithin p D, u p - 1 ≤ u q := by
    have : ∀ᶠ q in nhdsWithin p D, ∀ i, u p i - 1 ≤ u q i := by
      rw [Filter.eventually_all]
      intro i
      have := (tendsto_pi_nhds.1 (hcu p hp) i)
      filter_upwards [this.eventually_const_lt (show u p i - 1 < u p i by linarith)] with q hq using hq.le
    filter_upwards [this] with q hq using fun i => hq i
  have hhi : ∀ᶠ q in nhdsWithin p D, v q ≤ v p + 1 := by
    have : ∀ᶠ q in nhdsWithin p D, ∀ i, v q i ≤ v p i + 1 := by
      rw [Filter.eventually_all]
      intro i
      have := (tendsto_pi_nhds.1 (hcv p hp) i)
      filter_upwards [this.eventually_lt_const (show v p i < v p i + 1 by linarith)] with q hq using hq.le
    filter_upwards [this] with q hq using fun i => hq i
  refine isCompact_Icc.tendsto_nhds_of_unique_mapClusterPt (s := Icc (u p - 1) (v p + 1)) ?_ ?_
  · filter_upwards [hD, hlo, hhi] with q hq h1 h2
    have := (hmem q _).1 (hy q hq).1
    exact ⟨h1.trans this.1, this.2.trans h2⟩
  · intro z _ hz
    rw [mapClusterPt_iff_ultrafilter] at hz
    obtain ⟨U, hU, hzU⟩ := hz
    have hDU : ∀ᶠ q in (U : Filter P), q ∈ D := hU hD
    have hid : Filter.Tendsto (fun q : P => q) U (nhds p) := hU.trans nhdsWithin_le_nhds
    have h0 : f p z = 0 := by
      have h1 : Filter.Tendsto (fun q => f q (y q)) U (nhds (f p z)) :=
        (hf.tendsto (p, z)).comp (hid.prodMk_nhds hzU)
      have h2 : Filter.Tendsto (fun q => f q (y q)) U (nhds 0) := by
        refine tendsto_const_nhds.congr' ?_
        filter_upwards [hDU] with q hq
        exact (hy q hq).2.symm
      exact tendsto_nhds_unique h1 h2
    refine hu p hp z ((hmem p z).2 ⟨?_, ?_⟩) h0
    · refine le_of_tendsto_of_tendsto ((hcu p hp).mono_left hU) hzU ?_
      filter_upwards [hDU] with q hq
      exact ((hmem q _).1 (hy q hq).1).1
    · refine le_of_tendsto_of_tendsto hzU ((hcv p hp).mono_left hU) ?_
      filter_upwards [hDU] with q hq
      exact ((hmem q _).1 (hy q hq).1).2

end Theorems

/-- **C58**: for one equation in one variable, the function returned by `implicit` encloses a solution for
each parameter; each solution in `ix` is this solution; and it depends continuously on the parameter. -/
theorem C58_implicit_scalar {P : Type*} [TopologicalSpace P] {D : Set P} {f : P → (Fin 1 → ℝ) → Fin 1 → ℝ}
    {step : Patch P 1 ℝ → Option (Patch P 1 ℝ)} {t : Tests P 1 ℝ} (hs : ImplicitSound D f step)
    (hu : ImplicitUnique D f step) (ht : t.Sound D)
    (hf : Continuous fun q : P × (Fin 1 → ℝ) => f q.1 q.2)
    (hcp : ∀ h nh, ContPatch D h → step h = some nh → ContPatch D nh) {ix : Box 1 ℝ} (hix : GoodBox RE ix)
    {steps : ℕ} {r : Patch P 1 ℝ} (h : implicit t step steps ix = .ok r) :
    ∃ y : P → Fin 1 → ℝ, ContinuousOn y D ∧ ∀ p ∈ D, Mem (r p) (y p) ∧ f p (y p) = 0 ∧
      ∀ x, Mem ix x → f p x = 0 → x = y p := by
  obtain ⟨-, hfl⟩ := (implicitLoop_spec steps (fun _ => false) (fun _ => ix) (.refl _) (by simp)).1 r h
  obtain ⟨b, c, q1, q2, q3, q4⟩ := hfl 0
  obtain ⟨y, hy⟩ := implicit_of_refining hs ht hix q1 q2 (fun i => by rw [Subsingleton.elim i 0]; exact q3) q4
  have hb := q1.sound hs fun _ _ => hix
  have huniq : ∀ p ∈ D, ∀ z, Mem (b p) z → f p z = 0 → z = y p := fun p hp z hz h0 =>
    hu b c hb.1 q2 p hp z (y p) hz (hy p hp).1 h0 (hy p hp).2.2
  have hcb : ContPatch D b := by
    have h0 : ContPatch D (fun _ : P => ix) := by
      choose a b e _ _ _ using hix
      exact ⟨fun _ => a, fun _ => b, continuousOn_const, continuousOn_const, fun _ i => e i⟩
    have key : ∀ a b, Reach step a b → ContPatch D a → ContPatch D b := by
      intro a b q
      induction q with
      | refl a => exact id
      | head e _ ih => intro h0; exact ih (hcp _ _ h0 e)
    exact key _ _ q1 h0
  refine ⟨y, continuousOn_of_unique hcb hf (fun p hp => ⟨(hy p hp).1, (hy p hp).2.2⟩) huniq, fun p hp =>
    ⟨(hy p hp).2.1, (hy p hp).2.2, fun x hx h0 => ?_⟩⟩
  exact huniq p hp x (hb.2 p hp x hx h0) h0

end Verif.Solver
