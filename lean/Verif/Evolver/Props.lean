import Verif.Evolver.Model

/-!
# Property C73: orbits of vector fields and of maps
-/

namespace Verif.Evolver

open Ariadne Ariadne.Logical Verif.ConstraintSolver Verif.Enclosure
open Ariadne.Ext (fin)

variable {m : ℕ} {K : Type*} [Field K] [LinearOrder K] [IsStrictOrderedRing K]

/-! ## Specification -/

/-- The state of the trajectory `ξ` at time `t` is in one of the sets, at the time `a+t` of the enclosure. -/
def Covered (ξ : K → Fin m → K) (a : K) (l : List (ESet m K)) (t : K) : Prop :=
  ∃ e ∈ l, ∃ d, (ξ t, a + t, d) ∈ e.2.pts

/-- The flow models returned by the integrator contain the trajectory. -/
structure Follows (flowStep : Box m K → Flow m K) (ξ : K → Fin m → K) : Prop where
  pos : ∀ B, 0 < (flowStep B).h
  has : ∀ B s, 0 ≤ s → Mem B (ξ s) → ∀ r, 0 ≤ r → r ≤ (flowStep B).h →
    ∀ i, ((flowStep B).fn i).has (ext (ξ s) r) (ξ (s + r) i)

/-- The operations of the evolver keep the points of the sets. -/
structure Tools.Ok (R : Rounding K) (τ : Tools m K) : Prop where
  round : τ.X = .ofRounding R
  sound : τ.C.Sound
  kuhn : ∀ E : ESet m K, E.2.pts ⊆ (τ.kuhn E).2.pts
  kuhn_inv : ∀ E : ESet m K, Enclosure.Inv R E.2 → Enclosure.Inv R (τ.kuhn E).2

variable {R : Rounding K} {τ : Tools m K} {flowStep : Box m K → Flow m K} {reached : K → Bool}

/-! ## Splitting -/

theorem inv_errorRecondition {C : Calc K} (hC : C.Sound) {n : ℕ} {E : Encl n m K} (ih : Enclosure.Inv R E) (l : List (Fin m)) :
    Enclosure.Inv R (E.errorRecondition C l) := by
  have hb : GoodBox R fun _ : Fin l.length => (between (-1) 1 : Bounds K) := fun _ =>
    ⟨-1, 1, rfl, R.rep_neg 1 R.rep_one, R.rep_one, by linarith [one_pos (α := K)]⟩
  refine ⟨good_append ih.good hb, ?_⟩
  intro r hr hc
  obtain ⟨p, t, rfl⟩ := append_cases r
  obtain ⟨h2, h3⟩ := mem_append.1 hr
  exact mem_append.2 ⟨ih.red p h2 (holds_of_map (fun _ _ hf => hC.embed_inv hf) hc), h3⟩

theorem split_inv {C : Calc K} {n : ℕ} {E : Encl n m K} (h : GoodBox R E.dom) {up : K → K} {rad : Bounds K → K} {u : Bool} {P}
    (hs : E.split (.ofRounding R) C up rad u = some P) : Enclosure.Inv R P.1 ∧ Enclosure.Inv R P.2 := by
  simp only [Encl.split, Option.map_eq_some_iff] at hs
  obtain ⟨j, -, rfl⟩ := hs
  exact ⟨⟨(C56_split_at h j).1, fun p hp _ => hp⟩, ⟨(C56_split_at h j).2.1, fun p hp _ => hp⟩⟩

theorem subdivide_covers (hτ : τ.Ok R) {E : ESet m K} (hE : Enclosure.Inv R E.2) {l} (hl : τ.subdivide E = some l) :
    (∀ e ∈ l, Enclosure.Inv R e.2) ∧ ∀ q ∈ E.2.pts, ∃ e ∈ l, q ∈ e.2.pts := by
  simp only [Tools.subdivide, Option.map_eq_some_iff, hτ.round] at hl
  obtain ⟨P, hP, rfl⟩ := hl
  have hi := split_inv hE.good hP
  refine ⟨fun e he => ?_, fun q hq => ?_⟩
  · simp only [List.mem_cons, List.not_mem_nil, or_false] at he
    rcases he with rfl | rfl
    · exact hi.1
    · exact hi.2
  · rcases C72_split hτ.sound hE.good _ _ _ P hP hq with h | h
    · exact ⟨⟨E.1, P.1⟩, by simp, h⟩
    · exact ⟨⟨E.1, P.2⟩, by simp, h⟩

theorem appendInitial_covers (hτ : τ.Ok R) (fuel : ℕ) : ∀ {n : ℕ} {E : Encl n m K} {w}, Enclosure.Inv R E →
    τ.appendInitial fuel E = some w →
    (∀ x ∈ w, Enclosure.Inv R x.2.2 ∧ x.1 = 0 ∧ τ.tooLarge x.2 = false) ∧ ∀ q ∈ E.pts, ∃ x ∈ w, q ∈ x.2.2.pts := by
  induction fuel with
  | zero => intro n E w _ h; cases h
  | succ fuel ih =>
    intro n E w hE h
    rw [Tools.appendInitial] at h
    by_cases hl : τ.tooLarge ⟨n, E⟩ = true
    · rw [if_pos hl] at h
      obtain ⟨P, hP, h⟩ := Option.bind_eq_some_iff.1 h
      obtain ⟨r₁, h1, h⟩ := Option.bind_eq_some_iff.1 h
      obtain ⟨r₂, h2, h⟩ := Option.bind_eq_some_iff.1 h
      obtain ⟨l₁, g1, h⟩ := Option.bind_eq_some_iff.1 h
      obtain ⟨l₂, g2, rfl⟩ := Option.map_eq_some_iff.1 h
      rw [hτ.round] at hP h1 h2
      have hi := split_inv hE.good hP
      have key : ∀ (F : Encl n m K) (r : LV × Encl n m K) (l), Enclosure.Inv R F → F.isEmpty (.ofRounding R) τ.C = some r →
          (if LV.definitely r.1 then some [] else τ.appendInitial fuel r.2) = some l →
          (∀ x ∈ l, Enclosure.Inv R x.2.2 ∧ x.1 = 0 ∧ τ.tooLarge x.2 = false) ∧ ∀ q ∈ F.pts, ∃ x ∈ l, q ∈ x.2.2.pts := by
        intro F r l hF hr hl
        obtain ⟨e1, e2, e3⟩ := C72_is_empty hτ.sound hF r.1 r.2 hr
        by_cases hd : LV.definitely r.1 = true
        · rw [if_pos hd] at hl
          obtain rfl := Option.some.inj hl
          have : r.1 = .true_ := by
            generalize r.1 = a at hd
            cases a <;> first | rfl | cases hd
          exact ⟨by simp, fun q hq => by rw [e1 this] at hq; exact hq.elim⟩
        · rw [if_neg hd] at hl
          obtain ⟨h3, h4⟩ := ih e3 hl
          exact ⟨h3, fun q hq => h4 q (by rw [e2.pts]; exact hq)⟩
      obtain ⟨a1, a2⟩ := key P.1 r₁ l₁ hi.1 h1 g1
      obtain ⟨b1, b2⟩ := key P.2 r₂ l₂ hi.2 h2 g2
      refine ⟨fun x hx => (List.mem_append.1 hx).elim (a1 x) (b1 x), fun q hq => ?_⟩
      rcases C72_split hτ.sound hE.good _ _ _ P hP hq with h | h
      · obtain ⟨x, hx, h⟩ := a2 q h
        exact ⟨x, List.mem_append_left _ hx, h⟩
      · obtain ⟨x, hx, h⟩ := b2 q h
        exact ⟨x, List.mem_append_right _ hx, h⟩
    · rw [if_neg hl] at h
      obtain rfl := Option.some.inj h
      refine ⟨fun x hx => ?_, fun q hq => ⟨(0, ⟨n, E⟩), by simp, hq⟩⟩
      rw [List.mem_singleton.1 hx]
      exact ⟨hE, rfl, by simpa using hl⟩

/-! ## Vector fields -/

/-- What is known about a trajectory: it is in the set at the time `t`, and was reached before. -/
def OnTrack (ξ : K → Fin m → K) (a : K) (t : K) (E : ESet m K) (P : ESet m K → Prop) : Prop :=
  0 ≤ t ∧ (∃ d, (ξ t, a + t, d) ∈ E.2.pts) ∧
    (0 < t → ∀ r, 0 ≤ r → r ≤ t → ∃ e, P e ∧ ∃ d, (ξ r, a + r, d) ∈ e.2.pts)

theorem OnTrack.mono {ξ : K → Fin m → K} {a t : K} {E : ESet m K} {P Q : ESet m K → Prop} (h : ∀ e, P e → Q e)
    (hp : OnTrack ξ a t E P) : OnTrack ξ a t E Q :=
  ⟨hp.1, hp.2.1, fun h0 r h1 h2 => let ⟨e, he, hd⟩ := hp.2.2 h0 r h1 h2; ⟨e, h e he, hd⟩⟩

/-- The goal for one trajectory. -/
def goal (R : Rounding K) (τ : Tools m K) (reached : K → Bool) (ξ : K → Fin m → K) (a : K) : Goal (ESet m K) (K × ESet m K) where
  push x P := Enclosure.Inv R x.2.2 ∧ OnTrack ξ a x.1 x.2 P
  final e P := ∃ t, reached t = true ∧ OnTrack ξ a t e P
  drop x P := reached x.1 = false ∧ τ.upper = false ∧ τ.tooLarge x.2 = true ∧ OnTrack ξ a x.1 x.2 P

theorem goal_mono (ξ : K → Fin m → K) (a : K) : (goal R τ reached ξ a).Mono where
  push h g := ⟨g.1, g.2.mono h⟩
  final h := fun ⟨t, g1, g2⟩ => ⟨t, g1, g2.mono h⟩
  drop h g := ⟨g.1, g.2.1, g.2.2.1, g.2.2.2.mono h⟩

theorem goal_process (hτ : τ.Ok R) {ξ : K → Fin m → K} (hξ : Follows flowStep ξ) (a : K) (x : K × ESet m K) (as P)
    (hx : τ.field flowStep reached x = some as) (hg : (goal R τ reached ξ a).push x P) :
    (goal R τ reached ξ a).actions P as := by
  obtain ⟨t, E⟩ := x
  obtain ⟨hi, ht⟩ := hg
  have h0 : 0 ≤ t := ht.1
  obtain ⟨d, hd⟩ : ∃ d, (ξ t, a + t, d) ∈ E.2.pts := ht.2.1
  simp only [Tools.field] at hx
  by_cases h1 : reached t = true
  · rw [if_pos h1] at hx
    obtain rfl := Option.some.inj hx
    exact ⟨[], _, [], rfl, t, h1, ht.mono fun e he => Or.inl he⟩
  rw [if_neg h1] at hx
  by_cases h2 : (τ.upper && τ.subdivisions && τ.tooLarge E) = true
  · rw [if_pos h2] at hx
    obtain ⟨l, hl, rfl⟩ := Option.map_eq_some_iff.1 hx
    obtain ⟨hl1, hl2⟩ := subdivide_covers hτ hi hl
    obtain ⟨e, he, hq⟩ := hl2 _ hd
    obtain ⟨l₁, l₂, rfl⟩ := List.append_of_mem he
    refine ⟨l₁.map fun E => .push (t, E), .push (t, e), l₂.map fun E => .push (t, E), by simp, ?_⟩
    exact ⟨hl1 e he, h0, ⟨d, hq⟩, fun h r h1 h2 =>
      let ⟨e, he, hd⟩ := ht.2.2 h r h1 h2; ⟨e, Or.inl he, hd⟩⟩
  rw [if_neg h2] at hx
  by_cases h3 : (!τ.upper && τ.tooLarge E) = true
  · rw [if_pos h3] at hx
    obtain rfl := Option.some.inj hx
    simp only [Bool.and_eq_true, Bool.not_eq_true'] at h3
    exact ⟨[], _, [], rfl, by simpa using h1, h3.1, h3.2, ht.mono fun e he => Or.inl he⟩
  rw [if_neg h3] at hx
  obtain rfl := Option.some.inj hx
  simp only [Tools.fieldStep]
  by_cases h4 : (τ.reconditioning && decide (τ.maximumError < τ.errorNorm E)) = true
  · rw [if_pos h4]
    refine ⟨[], _, [], rfl, hτ.kuhn_inv _ (inv_errorRecondition hτ.sound hi _), h0, ⟨d, ?_⟩,
      (ht.mono fun e he => Or.inl he).2.2⟩
    exact hτ.kuhn _ (C72_uniform_error_recondition hτ.sound _ hd)
  rw [if_neg h4]
  have hB := C72_bounding_box hτ.sound _ hd
  have hf := hξ.has _ t h0 hB
  have hp := hξ.pos (E.2.boundingBox τ.C)
  refine ⟨[_, _], _, [], rfl, ⟨hi.good, hi.red⟩, add_nonneg h0 hp.le, ⟨d + (flowStep (E.2.boundingBox τ.C)).h, ?_⟩, ?_⟩
  · have := C72_fixed_evolve hτ.sound true _ _ _ hd _ (hf _ hp.le le_rfl)
    rw [← add_assoc]
    exact this
  · intro _ r hr0 hr1
    by_cases hr : t ≤ r
    · have h5 : r - t ≤ (flowStep (E.2.boundingBox τ.C)).h := by
        have : r ≤ t + (flowStep (E.2.boundingBox τ.C)).h := hr1
        linarith
      have h6 := C72_full_reach hτ.sound (flowStep (E.2.boundingBox τ.C)) _ hd (r - t) (sub_nonneg.2 hr) h5 _
        (hf _ (sub_nonneg.2 hr) h5)
      refine ⟨_, Or.inr (List.mem_cons_self ..), r - t, ?_⟩
      rw [show ξ (t + (r - t)) = ξ r by rw [add_sub_cancel]] at h6
      rw [show (a + r : K) = a + t + (r - t) by ring]
      exact h6
    · obtain ⟨e, he, hd⟩ := ht.2.2 (lt_of_le_of_lt hr0 (not_le.1 hr)) r hr0 (not_le.1 hr).le
      exact ⟨e, Or.inl he, hd⟩

theorem goal_init (hτ : τ.Ok R) {n : ℕ} {E : Encl n m K} (hE : Enclosure.Inv R E) {fuel : ℕ} {s₀}
    (h : τ.fieldInit fuel E = some s₀) {ξ : K → Fin m → K} {a d : K} (hd : (ξ 0, a, d) ∈ E.pts) :
    (goal R τ reached ξ a).Holds s₀ := by
  obtain ⟨w, hw, rfl⟩ := Option.map_eq_some_iff.1 h
  obtain ⟨h1, h2⟩ := appendInitial_covers hτ fuel hE hw
  obtain ⟨x, hx, hq⟩ := h2 _ hd
  refine Or.inl ⟨x, hx, (h1 x hx).1, ?_⟩
  rw [(h1 x hx).2.1]
  exact ⟨le_rfl, ⟨d, by rw [add_zero]; exact hq⟩, fun h => (lt_irrefl _ h).elim⟩

/-- **C73**: at every moment of the computation, whatever the threads have done so far, each trajectory from the
initial set is either about to be handled by a thread, or it is at some time `t` in a set still to be evolved, in a
final set or in a set given up; and then all its states up to the time `t` are in the sets reached so far. -/
theorem C73_field_moment (hτ : τ.Ok R) {n : ℕ} {E : Encl n m K} (hE : Enclosure.Inv R E) {fuel : ℕ} {s₀ s}
    (h : τ.fieldInit fuel E = some s₀) (hs : Steps (τ.field flowStep reached) s₀ s) {ξ : K → Fin m → K}
    (hξ : Follows flowStep ξ) {a d : K} (hd : (ξ 0, a, d) ∈ E.pts) :
    s.busy ≠ [] ∨ ∃ t, 0 ≤ t ∧ (0 < t → ∀ r, 0 ≤ r → r ≤ t → Covered ξ a s.orbit.reach r) ∧
      ((∃ x ∈ s.work, x.1 = t ∧ Covered ξ a [x.2] t) ∨
       (reached t = true ∧ Covered ξ a s.orbit.final t) ∨
       (∃ x ∈ s.orbit.dropped, x.1 = t ∧ Covered ξ a [x.2] t ∧ τ.upper = false ∧ τ.tooLarge x.2 = true)) := by
  rcases (goal R τ reached ξ a).steps (goal_mono ξ a) (goal_process hτ hξ a) (goal_init hτ hE h hd) hs with
    ⟨x, hx, -, h1, h2, h3⟩ | ⟨as, ha, -⟩ | ⟨e, he, t, h0, h1, h2, h3⟩ | ⟨x, hx, -, h4, h5, h1, h2, h3⟩
  · exact Or.inr ⟨x.1, h1, fun h r h0 h1 => h3 h r h0 h1, Or.inl ⟨x, hx, rfl, x.2, by simp, h2⟩⟩
  · exact Or.inl fun e => by rw [e] at ha; cases ha
  · exact Or.inr ⟨t, h1, fun h r h0 h1 => h3 h r h0 h1, Or.inr (Or.inl ⟨h0, e, he, h2⟩)⟩
  · exact Or.inr ⟨x.1, h1, fun h r h0 h1 => h3 h r h0 h1, Or.inr (Or.inr ⟨x, hx, rfl, ⟨x.2, by simp, h2⟩, h4, h5⟩)⟩

/-- Nothing is given up with upper semantics. -/
theorem upper_dropped (hu : τ.upper = true) {n : ℕ} {E : Encl n m K} {fuel : ℕ} {s₀ s}
    (h : τ.fieldInit fuel E = some s₀) (hs : Steps (τ.field flowStep reached) s₀ s) : s.orbit.dropped = [] := by
  let V : Inv (ESet m K) (K × ESet m K) := ⟨fun _ => True, fun _ => True, fun _ => True, fun _ => True, fun _ => False⟩
  have hV : V.Holds s := by
    refine V.steps (proc := τ.field flowStep reached) (fun x as hx _ a ha => ?_) ?_ hs
    · cases a with
      | drop i =>
        simp only [Tools.field, hu, Bool.not_true, Bool.false_and, Bool.false_eq_true, if_false] at hx
        split_ifs at hx
        · obtain rfl := Option.some.inj hx; simp at ha
        · obtain ⟨l, -, rfl⟩ := Option.map_eq_some_iff.1 hx; simp at ha
        · obtain rfl := Option.some.inj hx
          simp only [Tools.fieldStep] at ha
          split_ifs at ha <;> simp at ha
      | _ => exact trivial
    · obtain ⟨w, -, rfl⟩ := Option.map_eq_some_iff.1 h
      exact ⟨fun _ _ => trivial, by simp, by simp [Orbit.none], by simp [Orbit.none], by simp [Orbit.none], by simp [Orbit.none]⟩
  exact List.eq_nil_iff_forall_not_mem.2 fun x hx => hV.drop x hx

/-- **C73**: with upper semantics, when `orbit` returns, for any schedule of the threads, every state on a trajectory
from the initial set up to the evolution time is in `reach()`, and the trajectory ends in `final()` at a time which is
not before the evolution time. -/
theorem C73_field_orbit (hτ : τ.Ok R) (hu : τ.upper = true) {n : ℕ} {E : Encl n m K} (hE : Enclosure.Inv R E) {fuel : ℕ}
    {s₀ s} (h : τ.fieldInit fuel E = some s₀) (hs : Steps (τ.field flowStep reached) s₀ s) (hdone : s.Done) {T : K}
    (hT : 0 < T) (hr : ∀ t, reached t = true → T ≤ t) {ξ : K → Fin m → K} (hξ : Follows flowStep ξ) {a d : K}
    (hd : (ξ 0, a, d) ∈ E.pts) :
    (∀ r, 0 ≤ r → r ≤ T → Covered ξ a s.orbit.reach r) ∧ ∃ t, T ≤ t ∧ Covered ξ a s.orbit.final t := by
  rcases C73_field_moment hτ hE h hs hξ hd with h1 | ⟨t, -, h2, ⟨x, hx, -⟩ | ⟨h3, h4⟩ | ⟨x, hx, -⟩⟩
  · exact (h1 hdone.2).elim
  · rw [hdone.1] at hx; cases hx
  · have := hr t h3
    exact ⟨fun r h5 h6 => h2 (lt_of_lt_of_le hT this) r h5 (h6.trans this), t, this, h4⟩
  · rw [upper_dropped hu h hs] at hx; cases hx

/-- **C73**: with lower semantics the same holds up to the time at which the set was given up because it was too
large. -/
theorem C73_field_lower (hτ : τ.Ok R) {n : ℕ} {E : Encl n m K} (hE : Enclosure.Inv R E) {fuel : ℕ}
    {s₀ s} (h : τ.fieldInit fuel E = some s₀) (hs : Steps (τ.field flowStep reached) s₀ s) (hdone : s.Done) {T : K}
    (hT : 0 < T) (hr : ∀ t, reached t = true → T ≤ t) {ξ : K → Fin m → K} (hξ : Follows flowStep ξ) {a d : K}
    (hd : (ξ 0, a, d) ∈ E.pts) :
    ((∀ r, 0 ≤ r → r ≤ T → Covered ξ a s.orbit.reach r) ∧ ∃ t, T ≤ t ∧ Covered ξ a s.orbit.final t) ∨
    ∃ x ∈ s.orbit.dropped, τ.tooLarge x.2 = true ∧ Covered ξ a [x.2] x.1 ∧
      (0 < x.1 → ∀ r, 0 ≤ r → r ≤ x.1 → Covered ξ a s.orbit.reach r) := by
  rcases C73_field_moment hτ hE h hs hξ hd with h1 | ⟨t, -, h2, ⟨x, hx, -⟩ | ⟨h3, h4⟩ | ⟨x, hx, rfl, h5, -, h6⟩⟩
  · exact (h1 hdone.2).elim
  · rw [hdone.1] at hx; cases hx
  · have := hr t h3
    exact Or.inl ⟨fun r h5 h6 => h2 (lt_of_lt_of_le hT this) r h5 (h6.trans this), t, this, h4⟩
  · exact Or.inr ⟨x, hx, h6, h5, h2⟩

/-- **C73**: the sets of the orbit do not depend on the schedule of the threads, only their order does. -/
theorem C73_schedule {S I : Type*} {proc : I → Option (List (Action S I))} {s₀ s s' : WState S I} (h : Steps proc s₀ s)
    (h' : Steps proc s₀ s') (hd : s.Done) (hd' : s'.Done) : s.orbit.Same s'.orbit := by
  obtain ⟨o, n, he, hs⟩ := done_orbit h hd
  obtain ⟨o', n', he', hs'⟩ := done_orbit h' hd'
  obtain ⟨rfl, -⟩ := he.unique he'
  exact hs.trans hs'.symm

/-- **C73**: if one schedule completes then all do, after the same number of steps, and no schedule gets stuck. -/
theorem C73_schedule_completes {S I : Type*} {proc : I → Option (List (Action S I))} {s₀ s : WState S I} {n : ℕ}
    (h : StepsN proc n s₀ s) (hd : s.Done) {k : ℕ} {s' : WState S I} (h' : StepsN proc k s₀ s') :
    k ≤ n ∧ ∃ s'', StepsN proc (n - k) s' s'' ∧ s''.Done := by
  obtain ⟨o, n1, he⟩ := steps_evals_back h.steps (done_evals hd)
  obtain ⟨o1, n2, e2, h2⟩ := stepsN_evals h he
  obtain ⟨-, rfl⟩ := h2.unique (done_evals hd)
  obtain ⟨o3, n3, e3, h3⟩ := stepsN_evals h' he
  obtain ⟨s'', h4, h5⟩ := evals_completes n3 h3
  obtain rfl : n3 = n - k := by omega
  exact ⟨by omega, s'', h4, h5⟩

/-- One item can be completed, if the step sizes have a positive lower bound. -/
theorem field_eval (hsub : τ.subdivisions = false) (hrec : τ.reconditioning = false) {T' h₀ : K}
    (hr : ∀ t, T' ≤ t → reached t = true) (hh : ∀ B, h₀ ≤ (flowStep B).h) (k : ℕ) : ∀ (t : K) (E : ESet m K),
    T' ≤ t + k * h₀ → ∃ o n, Eval (τ.field flowStep reached) (.item (t, E)) o n := by
  induction k with
  | zero =>
    intro t E ht
    have : reached t = true := hr t (by simpa using ht)
    exact ⟨_, _, .item (by rw [Tools.field, if_pos this]) (.act (fun i h => by cases h) .nil)⟩
  | succ k ih =>
    intro t E ht
    by_cases h1 : reached t = true
    · exact ⟨_, _, .item (by rw [Tools.field, if_pos h1]) (.act (fun i h => by cases h) .nil)⟩
    by_cases h2 : (!τ.upper && τ.tooLarge E) = true
    · exact ⟨_, _, .item (as := [.drop (t, E)]) (by simp only [Tools.field]; rw [if_neg h1, hsub]; simp only [Bool.and_false, Bool.false_and, Bool.false_eq_true, if_false]; rw [if_pos h2])
        (.act (fun i h => by cases h) .nil)⟩
    have hp : τ.field flowStep reached (t, E) = some (τ.fieldStep flowStep t E) := by
      simp only [Tools.field]
      rw [if_neg h1, hsub]
      simp only [Bool.and_false, Bool.false_and, Bool.false_eq_true, if_false]
      rw [if_neg h2]
    simp only [Tools.fieldStep, hrec, Bool.false_and, Bool.false_eq_true, if_false] at hp
    have hb := hh (E.2.boundingBox τ.C)
    obtain ⟨o, n, he⟩ := ih (t + (flowStep (E.2.boundingBox τ.C)).h)
      ⟨E.1, E.2.applyFixedEvolveStep τ.C true (flowStep (E.2.boundingBox τ.C)).fn (flowStep (E.2.boundingBox τ.C)).h⟩ (by
        push_cast at ht
        nlinarith [ht, hb])
    exact ⟨_, _, .item hp (.act (fun i h => by cases h) (.act (fun i h => by cases h) (.push he .nil)))⟩

theorem evals_of_all {S I : Type*} {proc : I → Option (List (Action S I))} (ts : List (Task S I))
    (h : ∀ t ∈ ts, ∃ o n, Eval proc t o n) : ∃ o n, Evals proc ts o n := by
  induction ts with
  | nil => exact ⟨_, _, .nil⟩
  | cons t ts ih =>
    obtain ⟨o, n, h1⟩ := h t (by simp)
    obtain ⟨o', n', h2⟩ := ih fun t ht => h t (List.mem_cons_of_mem _ ht)
    exact ⟨_, _, .cons h1 h2⟩

/-- **C73**: without subdivisions and reconditioning, if the step sizes have a positive lower bound then the
computation ends, for every schedule. -/
theorem C73_field_terminates (hsub : τ.subdivisions = false) (hrec : τ.reconditioning = false) {T' h₀ : K} {N : ℕ}
    (hr : ∀ t, T' ≤ t → reached t = true) (hh : ∀ B, h₀ ≤ (flowStep B).h) (hN : T' ≤ N * h₀)
    {n : ℕ} {E : Encl n m K} (hτ : τ.Ok R) (hE : Enclosure.Inv R E) {fuel : ℕ} {s₀} (h : τ.fieldInit fuel E = some s₀) :
    ∃ k, ∀ j s, StepsN (τ.field flowStep reached) j s₀ s →
      j ≤ k ∧ (j = k → s.Done) ∧ ∃ s', StepsN (τ.field flowStep reached) (k - j) s s' ∧ s'.Done := by
  obtain ⟨w, hw, rfl⟩ := Option.map_eq_some_iff.1 h
  obtain ⟨h1, -⟩ := appendInitial_covers hτ fuel hE hw
  have hall : ∃ o k, Evals (τ.field flowStep reached) (WState.tasks ⟨w, [], Orbit.none⟩) o k := by
    refine evals_of_all _ fun t ht => ?_
    simp only [WState.tasks, List.map_nil, List.append_nil, List.mem_map] at ht
    obtain ⟨x, hx, rfl⟩ := ht
    exact field_eval hsub hrec hr hh N x.1 x.2 (by rw [(h1 x hx).2.1, zero_add]; exact hN)
  obtain ⟨o, k, he⟩ := hall
  obtain ⟨s₁, g1, g2⟩ := evals_completes k he
  refine ⟨k, fun j s hj => ?_⟩
  obtain ⟨h2, s'', h3, h4⟩ := C73_schedule_completes g1 g2 hj
  refine ⟨h2, fun e => ?_, s'', h3, h4⟩
  subst e
  rw [Nat.sub_self] at h3
  cases h3
  exact h4

/-! ## Exactness -/

/-- The flow of a differential equation. -/
structure IsFlow (Φ : K → (Fin m → K) → Fin m → K) : Prop where
  zero : ∀ x, Φ 0 x = x
  add : ∀ s t x, 0 ≤ s → 0 ≤ t → Φ (s + t) x = Φ t (Φ s x)

/-- Flow models without errors. -/
structure FlowExact (flowStep : Box m K → Flow m K) (Φ : K → (Fin m → K) → Fin m → K) : Prop where
  pos : ∀ B, 0 < (flowStep B).h
  t0 : ∀ B, (flowStep B).t0 < (flowStep B).h
  has : ∀ B x, Mem B x → ∀ r, 0 ≤ r → r ≤ (flowStep B).h → ∀ i y, ((flowStep B).fn i).has (ext x r) y ↔ y = Φ r x i

theorem piece_fun {C : Calc K} (hC : C.Sound) (hX : C.Exact) {n : ℕ} {E : Encl n m K} (hE : E.Fun) {d : Box n K}
    (hd : ∀ p, Mem d p → Mem E.dom p) (u : Bool) : (E.piece C u d).Fun := by
  have key : ∀ f : Patch n K, f.IsFun E.dom → (C.restrict d f).IsFun d := fun f hf p hp => by
    obtain ⟨y, hy, hu⟩ := hf p (hd p hp)
    exact ⟨y, hC.restrict hp hy, fun z hz => hu z (hX.restrict hp hz)⟩
  refine ⟨fun i p hp => ?_, key _ hE.time, key _ hE.dwell⟩
  obtain ⟨y, hy, hu⟩ := key _ (hE.fn i) p hp
  exact ⟨y, hC.create hp hy, fun z hz => hu z (hX.create hp hz)⟩

theorem addBounds_fun {C : Calc K} (hC : C.Sound) (hX : C.Exact) {n : ℕ} {D : Box n K} {f : Patch n K} (hf : f.IsFun D) (h : K) :
    (C.addBounds f (between h h)).IsFun D := fun p hp => by
  obtain ⟨y, hy, hu⟩ := hf p hp
  refine ⟨y + h, hC.addBounds hy ⟨le_rfl, le_rfl⟩, fun z hz => ?_⟩
  obtain ⟨a, c, ha, hc, e⟩ := hX.addBounds hz
  rw [e, hu a ha, le_antisymm hc.2 hc.1]

theorem fixed_fun {C : Calc K} (hC : C.Sound) (hX : C.Exact) {Φ : K → (Fin m → K) → Fin m → K} (hf : FlowExact flowStep Φ)
    {n : ℕ} {E : Encl n m K} (hE : E.Fun) :
    (E.applyFixedEvolveStep C true (flowStep (E.boundingBox C)).fn (flowStep (E.boundingBox C)).h).Fun := by
  refine ⟨fun i p hp => ?_, addBounds_fun hC hX hE.time _, addBounds_fun hC hX hE.dwell _⟩
  obtain ⟨x, hx⟩ := fun_choose hE.fn hp
  have hB : Mem (E.boundingBox C) x := fun j => hC.range hp (hx j)
  have hh := hf.has _ x hB _ (hf.pos _).le le_rfl i
  refine ⟨_, hC.compose hp hx (hC.partialEval ((hh _).2 rfl)), fun z hz => ?_⟩
  exact (hh z).1 (hX.partialEval (compose_fun hX hE.fn hp hx hz))

/-- The points of `F` come from the points of `E` after the time `t`. -/
def From {n k : ℕ} (Φ : K → (Fin m → K) → Fin m → K) (E : Encl n m K) (t : K) (F : Encl k m K) : Prop :=
  ∀ q ∈ F.pts, ∃ p ∈ E.pts, q.1 = Φ t p.1 ∧ q.2.1 = p.2.1 + t

theorem split_parts {C : Calc K} (hC : C.Sound) (hX : C.Exact) {n : ℕ} {E : Encl n m K} (h : GoodBox R E.dom) (hE : E.Fun)
    {up : K → K} {rad : Bounds K → K} {u : Bool} {P} (hs : E.split (.ofRounding R) C up rad u = some P) :
    (P.1.Fun ∧ P.1.pts ⊆ E.pts) ∧ P.2.Fun ∧ P.2.pts ⊆ E.pts := by
  simp only [Encl.split, Option.map_eq_some_iff] at hs
  obtain ⟨j, -, rfl⟩ := hs
  have hx := C72_split_at_exact hC hX h u j
  have h1 : ∀ p, Mem (ConstraintSolver.splitAt (.ofRounding R) E.dom j).1 p → Mem E.dom p := fun p hp =>
    ((C56_split_at h j).2.2 p).2 (Or.inl hp)
  have h2 : ∀ p, Mem (ConstraintSolver.splitAt (.ofRounding R) E.dom j).2 p → Mem E.dom p := fun p hp =>
    ((C56_split_at h j).2.2 p).2 (Or.inr hp)
  exact ⟨⟨piece_fun hC hX hE h1 u, fun q hq => hx ▸ Or.inl hq⟩, piece_fun hC hX hE h2 u, fun q hq => hx ▸ Or.inr hq⟩

theorem sameSet_fun {n : ℕ} {E E' : Encl n m K} (h : SameSet E' E) (hE : E.Fun) : E'.Fun := by
  obtain ⟨h1, h2, h3, h4, -⟩ := h
  exact ⟨fun i => by rw [h1, h2]; exact hE.fn i, by rw [h1, h3]; exact hE.time, by rw [h1, h4]; exact hE.dwell⟩

theorem appendInitial_exact (hτ : τ.Ok R) (hX : τ.C.Exact) (fuel : ℕ) : ∀ {n : ℕ} {E : Encl n m K} {w},
    Enclosure.Inv R E → E.Fun → τ.appendInitial fuel E = some w → ∀ x ∈ w, x.2.2.Fun ∧ x.2.2.pts ⊆ E.pts := by
  induction fuel with
  | zero => intro n E w _ _ h; cases h
  | succ fuel ih =>
    intro n E w hE hF h
    rw [Tools.appendInitial] at h
    by_cases hl : τ.tooLarge ⟨n, E⟩ = true
    · rw [if_pos hl] at h
      obtain ⟨P, hP, h⟩ := Option.bind_eq_some_iff.1 h
      obtain ⟨r₁, h1, h⟩ := Option.bind_eq_some_iff.1 h
      obtain ⟨r₂, h2, h⟩ := Option.bind_eq_some_iff.1 h
      obtain ⟨l₁, g1, h⟩ := Option.bind_eq_some_iff.1 h
      obtain ⟨l₂, g2, rfl⟩ := Option.map_eq_some_iff.1 h
      rw [hτ.round] at hP h1 h2
      have hi := split_inv hE.good hP
      have hp := split_parts hτ.sound hX hE.good hF hP
      have key : ∀ (F : Encl n m K) (r : LV × Encl n m K) (l), Enclosure.Inv R F → F.Fun → F.pts ⊆ E.pts →
          F.isEmpty (.ofRounding R) τ.C = some r →
          (if LV.definitely r.1 then some [] else τ.appendInitial fuel r.2) = some l →
          ∀ x ∈ l, x.2.2.Fun ∧ x.2.2.pts ⊆ E.pts := by
        intro F r l hF hu hs hr hl
        obtain ⟨-, e2, e3⟩ := C72_is_empty hτ.sound hF r.1 r.2 hr
        by_cases hd : LV.definitely r.1 = true
        · rw [if_pos hd] at hl
          obtain rfl := Option.some.inj hl
          simp
        · rw [if_neg hd] at hl
          intro x hx
          obtain ⟨h3, h4⟩ := ih e3 (sameSet_fun e2 hu) hl x hx
          exact ⟨h3, fun q hq => hs (by rw [← e2.pts]; exact h4 hq)⟩
      intro x hx
      rcases List.mem_append.1 hx with hx | hx
      · exact key P.1 r₁ l₁ hi.1 hp.1.1 hp.1.2 h1 g1 x hx
      · exact key P.2 r₂ l₂ hi.2 hp.2.1 hp.2.2 h2 g2 x hx
    · rw [if_neg hl] at h
      obtain rfl := Option.some.inj h
      intro x hx
      rw [List.mem_singleton.1 hx]
      exact ⟨hF, subset_rfl⟩

/-- **C73**: if the operations on functions and the flow models are exact and there is no reconditioning, then every
state of `reach()` and of `final()` lies on a trajectory from the initial set, at its time; the states of `reach()`
come from a step which began before the evolution time was known to be reached, and those of `final()` from a time
at which it was. -/
theorem C73_field_exact (hτ : τ.Ok R) (hX : τ.C.Exact) (hrec : τ.reconditioning = false)
    {Φ : K → (Fin m → K) → Fin m → K} (hΦ : IsFlow Φ) (hf : FlowExact flowStep Φ) {n : ℕ} {E : Encl n m K}
    (hE : Enclosure.Inv R E) (hF : E.Fun) {fuel : ℕ} {s₀ s} (h : τ.fieldInit fuel E = some s₀)
    (hs : Steps (τ.field flowStep reached) s₀ s) :
    (∀ e ∈ s.orbit.reach, ∀ q ∈ e.2.pts, ∃ p ∈ E.pts, ∃ t r, 0 ≤ t ∧ reached t = false ∧ t ≤ r ∧
      q.1 = Φ r p.1 ∧ q.2.1 = p.2.1 + r) ∧
    (∀ e ∈ s.orbit.inter, ∃ t, 0 ≤ t ∧ From Φ E t e.2) ∧
    (∀ e ∈ s.orbit.final, ∃ t, 0 ≤ t ∧ reached t = true ∧ From Φ E t e.2) := by
  let V : Inv (ESet m K) (K × ESet m K) :=
    ⟨fun x => Enclosure.Inv R x.2.2 ∧ x.2.2.Fun ∧ 0 ≤ x.1 ∧ From Φ E x.1 x.2.2,
     fun e => ∀ q ∈ e.2.pts, ∃ p ∈ E.pts, ∃ t r, 0 ≤ t ∧ reached t = false ∧ t ≤ r ∧ q.1 = Φ r p.1 ∧ q.2.1 = p.2.1 + r,
     fun e => ∃ t, 0 ≤ t ∧ From Φ E t e.2, fun e => ∃ t, 0 ≤ t ∧ reached t = true ∧ From Φ E t e.2, fun _ => True⟩
  have hV : V.Holds s := by
    refine V.steps (proc := τ.field flowStep reached) ?_ ?_ hs
    · rintro ⟨t, F⟩ as hx ⟨h1, h2, h3, h4⟩ c hc
      have h1 : Enclosure.Inv R F.2 := h1
      have h2 : F.2.Fun := h2
      have h3 : 0 ≤ t := h3
      have h4 : From Φ E t F.2 := h4
      simp only [Tools.field] at hx
      by_cases g1 : reached t = true
      · rw [if_pos g1] at hx
        obtain rfl := Option.some.inj hx
        rw [List.mem_singleton.1 hc]
        exact ⟨t, h3, g1, h4⟩
      rw [if_neg g1] at hx
      by_cases g2 : (τ.upper && τ.subdivisions && τ.tooLarge F) = true
      · rw [if_pos g2] at hx
        obtain ⟨l, hl, rfl⟩ := Option.map_eq_some_iff.1 hx
        simp only [Tools.subdivide, Option.map_eq_some_iff, hτ.round] at hl
        obtain ⟨P, hP, rfl⟩ := hl
        have hi := split_inv h1.good hP
        have hp := split_parts hτ.sound hX h1.good h2 hP
        simp only [List.map_cons, List.map_nil, List.mem_cons, List.not_mem_nil, or_false] at hc
        rcases hc with rfl | rfl
        · exact ⟨hi.1, hp.1.1, h3, fun q hq => h4 q (hp.1.2 hq)⟩
        · exact ⟨hi.2, hp.2.1, h3, fun q hq => h4 q (hp.2.2 hq)⟩
      rw [if_neg g2] at hx
      by_cases g3 : (!τ.upper && τ.tooLarge F) = true
      · rw [if_pos g3] at hx
        obtain rfl := Option.some.inj hx
        rw [List.mem_singleton.1 hc]
        exact trivial
      rw [if_neg g3] at hx
      obtain rfl := Option.some.inj hx
      simp only [Tools.fieldStep, hrec, Bool.false_and, Bool.false_eq_true, if_false] at hc
      have hn : From Φ E (t + (flowStep (F.2.boundingBox τ.C)).h)
          (F.2.applyFixedEvolveStep τ.C true (flowStep (F.2.boundingBox τ.C)).fn (flowStep (F.2.boundingBox τ.C)).h) := by
        intro q hq
        rw [C72_fixed_evolve_exact hτ.sound hX h2] at hq
        obtain ⟨q', hq', k1, k2, -⟩ := hq
        obtain ⟨p, hp, k3, k4⟩ := h4 q' hq'
        have hB := C72_bounding_box hτ.sound _ hq'
        refine ⟨p, hp, ?_, by rw [k2, k4, add_assoc]⟩
        rw [hΦ.add _ _ _ h3 (hf.pos _).le, ← k3]
        funext i
        exact (hf.has _ _ hB _ (hf.pos _).le le_rfl i _).1 (k1 i)
      simp only [List.mem_cons, List.not_mem_nil, or_false] at hc
      rcases hc with rfl | rfl | rfl
      · intro q hq
        have hq : q ∈ (F.2.applyFullReachStep τ.C (flowStep (F.2.boundingBox τ.C))).pts := hq
        rw [C72_full_reach_exact hτ.sound hX h2 _ (hf.t0 _)] at hq
        obtain ⟨q', hq', r, r0, r1, k1, k2, -⟩ := hq
        obtain ⟨p, hp, k3, k4⟩ := h4 q' hq'
        have hB := C72_bounding_box hτ.sound _ hq'
        refine ⟨p, hp, t, t + r, h3, by simpa using g1, by linarith, ?_, by rw [k2, k4, add_assoc]⟩
        rw [hΦ.add _ _ _ h3 r0, ← k3]
        funext i
        exact (hf.has _ _ hB _ r0 r1 i _).1 (k1 i)
      · exact ⟨_, add_nonneg h3 (hf.pos _).le, hn⟩
      · exact ⟨⟨h1.good, h1.red⟩, fixed_fun hτ.sound hX hf h2, add_nonneg h3 (hf.pos _).le, hn⟩
    · obtain ⟨w, hw, rfl⟩ := Option.map_eq_some_iff.1 h
      refine ⟨fun x hx => ?_, by simp, by simp [Orbit.none], by simp [Orbit.none], by simp [Orbit.none], by simp [Orbit.none]⟩
      obtain ⟨h1, h2, -⟩ := (appendInitial_covers hτ fuel hE hw).1 x hx
      obtain ⟨h3, h4⟩ := appendInitial_exact hτ hX fuel hE hF hw x hx
      refine ⟨h1, h3, h2.ge, fun q hq => ⟨q, h4 hq, ?_, ?_⟩⟩
      · rw [h2, hΦ.zero]
      · rw [h2, add_zero]
  exact ⟨hV.reach, hV.inter, hV.final⟩

/-! ## Reconditioning -/

/-- **C73, negative**: with reconditioning, a set whose errors are larger than `maximum_spacial_error` but not larger
than the tolerance built into `recondition` is put back on the list for ever: if `kuhn_recondition` has nothing to do,
the computation never ends, whatever the schedule. -/
theorem C73_recondition_loops (hC : τ.C.Sound) (hk : ∀ E, τ.kuhn E = E) (hrec : τ.reconditioning = true)
    (hu : τ.upper = true) (hsub : τ.subdivisions = false) {t : K} (ht : reached t = false) {s₀ s : WState (ESet m K) (K × ESet m K)}
    (hs : Steps (τ.field flowStep reached) s₀ s) (E : ESet m K) (hE : (t, E) ∈ s₀.work)
    (h1 : ∀ i, τ.C.error (E.2.fn i) ≤ τ.errorTolerance) (h2 : τ.maximumError < τ.errorNorm E) : ¬s.Done := by
  let Q : ESet m K → Prop := fun F => (∀ i, τ.C.error (F.2.fn i) ≤ τ.errorTolerance) ∧ τ.maximumError < τ.errorNorm F
  let G : Goal (ESet m K) (K × ESet m K) := ⟨fun x _ => x.1 = t ∧ Q x.2, fun _ _ => False, fun _ _ => False⟩
  have hG : G.Mono := ⟨fun _ h => h, fun _ h => h, fun _ h => h⟩
  have key : ∀ F : ESet m K, Q F → Q (τ.recondition F) := by
    intro F hF
    have hl : F.2.largeErrors τ.C τ.errorTolerance = [] := by
      simp only [Encl.largeErrors, List.filter_eq_nil_iff]
      intro i _
      simpa using hF.1 i
    have e0 : τ.recondition F = ⟨_, F.2.errorRecondition τ.C []⟩ := by
      rw [Tools.recondition, hk, Encl.uniformErrorRecondition, hl]
    have e1 : ∀ i, τ.C.error ((τ.recondition F).2.fn i) = τ.C.error (F.2.fn i) := by
      intro i
      rw [e0]
      exact hC.error_embed _ _
    refine ⟨fun i => by rw [e1 i]; exact hF.1 i, ?_⟩
    simp only [Tools.errorNorm, e1]
    exact hF.2
  have hh : G.Holds s := by
    refine G.steps hG (proc := τ.field flowStep reached) ?_ (Or.inl ⟨_, hE, rfl, h1, h2⟩) hs
    rintro ⟨t', F⟩ as P hx ⟨e, hF⟩
    have e : t' = t := e
    subst e
    have hF : Q F := hF
    simp only [Tools.field, ht, hu, hsub, Tools.fieldStep, hrec, Bool.and_false, Bool.false_and, Bool.not_true,
      Bool.false_eq_true, if_false, Bool.true_and, hF.2, decide_true, if_true] at hx
    obtain rfl := Option.some.inj hx
    exact ⟨[], _, [], rfl, rfl, key F hF⟩
  intro hd
  rcases hh with ⟨x, hx, -⟩ | ⟨x, hx, -⟩ | ⟨x, hx, h⟩ | ⟨x, hx, h⟩
  · rw [hd.1] at hx; cases hx
  · rw [hd.2] at hx; cases hx
  · exact h
  · exact h

/-! ## Maps -/

/-- The loop is one of the schedules. -/
theorem run_steps {S I : Type*} {proc : I → Option (List (Action S I))} (as : List (Action S I)) : ∀ (s : List I × Orbit S I),
    ∃ k, StepsN proc (k + 1) ⟨s.1, [as], s.2⟩ ⟨(runActions as s).1, [], (runActions as s).2⟩ := by
  induction as with
  | nil => exact fun s => ⟨0, .succ (.finish s.1 [] [] s.2) (.zero _)⟩
  | cons a as ih =>
    intro s
    obtain ⟨k, h⟩ := ih (a.run s.1 s.2)
    exact ⟨k + 1, .succ (.act s.1 [] a as [] s.2) h⟩

theorem loop_steps {S I : Type*} {proc : I → Option (List (Action S I))} (fuel : ℕ) : ∀ {s : List I × Orbit S I} {o : Orbit S I},
    loop proc fuel s = some o → Steps proc ⟨s.1, [], s.2⟩ ⟨[], [], o⟩ := by
  induction fuel with
  | zero => intro s o h; cases h
  | succ fuel ih =>
    intro s o h
    rw [loop] at h
    cases hg : s.1.getLast? with
    | none =>
      rw [hg] at h
      obtain rfl := Option.some.inj h
      rw [List.getLast?_eq_none_iff.1 hg]
    | some x =>
      rw [hg] at h
      obtain ⟨as, ha, h⟩ := Option.bind_eq_some_iff.1 h
      have hw : s.1 = s.1.dropLast ++ [x] := by
        obtain ⟨ys, hy⟩ := List.getLast?_eq_some_iff.1 hg
        rw [hy]; simp
      have h1 : Step proc ⟨s.1, [], s.2⟩ ⟨s.1.dropLast, [as], s.2⟩ := by
        have := Step.start (S := S) (proc := proc) s.1.dropLast x [] [] s.2 as ha
        rw [← hw, List.append_nil] at this
        exact this
      obtain ⟨k, h2⟩ := run_steps (proc := proc) as (s.1.dropLast, s.2)
      exact .head h1 (h2.steps.trans (ih h))

theorem loop_total {S I : Type*} {proc : I → Option (List (Action S I))} (fuel : ℕ) : ∀ {s : List I × Orbit S I} {o : Orbit S I}
    {n : ℕ}, Evals proc (WState.tasks ⟨s.1, [], s.2⟩) o n → n < fuel → ∃ o', loop proc fuel s = some o' := by
  induction fuel with
  | zero => intro s o n _ h; omega
  | succ fuel ih =>
    intro s o n he hn
    rw [loop]
    cases hg : s.1.getLast? with
    | none => exact ⟨_, rfl⟩
    | some x =>
      have hw : s.1 = s.1.dropLast ++ [x] := by
        obtain ⟨ys, hy⟩ := List.getLast?_eq_some_iff.1 hg
        rw [hy]; simp
      have hx : ∃ as, proc x = some as := by
        have hp : (WState.tasks ⟨s.1, [], s.2⟩ : List (Task S I)).Perm (.item x :: s.1.dropLast.map .item) := by
          rw [hw]
          simp only [WState.tasks, List.map_append, List.map_cons, List.map_nil, List.append_nil, List.dropLast_concat]
          exact List.perm_middle.trans (by rw [List.append_nil])
        obtain ⟨o1, h1, -⟩ := he.perm hp
        cases h1 with
        | cons h2 _ =>
          cases h2 with
          | item h _ => exact ⟨_, h⟩
      obtain ⟨as, ha⟩ := hx
      have h1 : Step proc ⟨s.1, [], s.2⟩ ⟨s.1.dropLast, [as], s.2⟩ := by
        have := Step.start (S := S) (proc := proc) s.1.dropLast x [] [] s.2 as ha
        rw [← hw, List.append_nil] at this
        exact this
      obtain ⟨k, h2⟩ := run_steps (proc := proc) as (s.1.dropLast, s.2)
      obtain ⟨o', n', e, he'⟩ := stepsN_evals (.succ h1 h2) he
      obtain ⟨o'', ho⟩ := ih he' (by omega)
      exact ⟨o'', by simp only [ha, Option.bind_some]; exact ho⟩

/-- The values of the map along the sequence `ξ`. -/
def Iterates (f : Fin m → Patch m K) (ξ : ℕ → Fin m → K) : Prop := ∀ k i, (f i).has (ξ k) (ξ (k + 1) i)

/-- The state of the sequence `ξ` at time `k` is in one of the sets, at the time `a+k` of the enclosure. -/
def CoveredAt (ξ : ℕ → Fin m → K) (a : K) (l : List (ESet m K)) (k : ℕ) : Prop :=
  ∃ e ∈ l, ∃ d, (ξ k, a + (k : K), d) ∈ e.2.pts

def mapGoal (R : Rounding K) (τ : Tools m K) (T : ℤ) (ξ : ℕ → Fin m → K) (a : K) : Goal (ESet m K) (ℤ × ESet m K) :=
  let on := fun (k : ℕ) (E : ESet m K) (P : ESet m K → Prop) => (k : ℤ) ≤ max T 0 ∧ (∃ d, (ξ k, a + (k : K), d) ∈ E.2.pts) ∧
    ∀ j : ℕ, 1 ≤ j → j ≤ k → ∃ e, P e ∧ ∃ d, (ξ j, a + (j : K), d) ∈ e.2.pts
  { push := fun x P => Enclosure.Inv R x.2.2 ∧ ∃ k : ℕ, x.1 = k ∧ on k x.2 P
    final := fun e P => ∃ k : ℕ, T ≤ k ∧ on k e P
    drop := fun x P => τ.upper = false ∧ τ.premature = true ∧ τ.tooLarge x.2 = true ∧ ∃ k : ℕ, x.1 = k ∧ (k : ℤ) < T ∧ on k x.2 P }

theorem mapGoal_mono (T : ℤ) (ξ : ℕ → Fin m → K) (a : K) : (mapGoal R τ T ξ a).Mono where
  push := fun h ⟨g, k, e, g1, g2, g3⟩ => ⟨g, k, e, g1, g2, fun j h1 h2 => let ⟨e, he, hd⟩ := g3 j h1 h2; ⟨e, h e he, hd⟩⟩
  final := fun h ⟨k, e, g1, g2, g3⟩ => ⟨k, e, g1, g2, fun j h1 h2 => let ⟨e, he, hd⟩ := g3 j h1 h2; ⟨e, h e he, hd⟩⟩
  drop := fun h ⟨a1, a2, a3, k, e, e', g1, g2, g3⟩ => ⟨a1, a2, a3, k, e, e', g1, g2,
    fun j h1 h2 => let ⟨e, he, hd⟩ := g3 j h1 h2; ⟨e, h e he, hd⟩⟩

theorem mapGoal_process (hτ : τ.Ok R) {f : Fin m → Patch m K} {T : ℤ} {ξ : ℕ → Fin m → K} (hξ : Iterates f ξ) (a : K)
    (x : ℤ × ESet m K) (as P) (hx : τ.mapItem f T x = some as) (hg : (mapGoal R τ T ξ a).push x P) :
    (mapGoal R τ T ξ a).actions P as := by
  obtain ⟨t, E⟩ := x
  obtain ⟨hi, k, e, hk, ⟨d, hd⟩, hj⟩ := hg
  have hi : Enclosure.Inv R E.2 := hi
  have e : t = k := e
  have hd : (ξ k, a + (k : K), d) ∈ E.2.pts := hd
  subst e
  simp only [Tools.mapItem] at hx
  by_cases h1 : T ≤ (k : ℤ)
  · rw [if_pos h1] at hx
    obtain rfl := Option.some.inj hx
    exact ⟨[], _, [], rfl, k, h1, hk, ⟨d, hd⟩, fun j a b => let ⟨e, he, hd⟩ := hj j a b; ⟨e, Or.inl he, hd⟩⟩
  rw [if_neg h1] at hx
  by_cases h2 : (τ.upper && τ.subdivisions && τ.tooLarge E) = true
  · rw [if_pos h2] at hx
    obtain ⟨l, hl, rfl⟩ := Option.map_eq_some_iff.1 hx
    obtain ⟨hl1, hl2⟩ := subdivide_covers hτ hi hl
    obtain ⟨e, he, hq⟩ := hl2 _ hd
    obtain ⟨l₁, l₂, rfl⟩ := List.append_of_mem he
    refine ⟨l₁.map fun E => .push ((k : ℤ), E), .push ((k : ℤ), e), l₂.map fun E => .push ((k : ℤ), E), by simp, hl1 e he, k, rfl, hk, ⟨d, hq⟩,
      fun j a b => let ⟨e, he, hd⟩ := hj j a b; ⟨e, Or.inl he, hd⟩⟩
  rw [if_neg h2] at hx
  by_cases h3 : (!τ.upper && τ.premature && τ.tooLarge E) = true
  · rw [if_pos h3] at hx
    obtain rfl := Option.some.inj hx
    simp only [Bool.and_eq_true, Bool.not_eq_true'] at h3
    exact ⟨[], _, [], rfl, h3.1.1, h3.1.2, h3.2, k, rfl, not_le.1 h1, hk, ⟨d, hd⟩,
      fun j a b => let ⟨e, he, hd⟩ := hj j a b; ⟨e, Or.inl he, hd⟩⟩
  rw [if_neg h3] at hx
  obtain rfl := Option.some.inj hx
  have hn := C72_map_step hτ.sound f _ hd _ (hξ k)
  have hc : (a + (k : K) + 1 : K) = a + ((k + 1 : ℕ) : K) := by push_cast; ring
  rw [hc] at hn
  refine ⟨[_, _], _, [], rfl, ⟨hi.good, hi.red⟩, k + 1, by push_cast; rfl, ?_, ⟨_, hn⟩, fun j j1 j2 => ?_⟩
  · push_cast
    omega
  · by_cases hjk : j ≤ k
    · obtain ⟨e, he, hd⟩ := hj j j1 hjk
      exact ⟨e, Or.inl he, hd⟩
    · obtain rfl : j = k + 1 := by omega
      exact ⟨_, Or.inr (List.mem_cons_self ..), _, hn⟩

theorem map_holds (hτ : τ.Ok R) {f : Fin m → Patch m K} {T : ℤ} {fuel : ℕ} {E : ESet m K} (hE : Enclosure.Inv R E.2)
    {o} (h : τ.mapOrbit f T fuel E = some o) {ξ : ℕ → Fin m → K} (hξ : Iterates f ξ) {a d : K} (hd : (ξ 0, a, d) ∈ E.2.pts) :
    (mapGoal R τ T ξ a).Holds ⟨[], [], o⟩ :=
  (mapGoal R τ T ξ a).steps (mapGoal_mono T ξ a) (mapGoal_process hτ hξ a)
    (Or.inl ⟨(0, E), by simp, hE, 0, rfl, le_max_right _ _, ⟨d, by rw [Nat.cast_zero, add_zero]; exact hd⟩,
      fun j h1 h2 => by omega⟩) (loop_steps fuel h)

/-- **C73**: the orbit of a map, with upper semantics: the states of every sequence of iterates from the initial set
are in `reach()` for the times `1,…,T`, and in `final()` for the time `T`. -/
theorem C73_map_orbit (hτ : τ.Ok R) (hu : τ.upper = true ∨ τ.premature = false) {f : Fin m → Patch m K} {T : ℕ} {fuel : ℕ}
    {E : ESet m K} (hE : Enclosure.Inv R E.2) {o} (h : τ.mapOrbit f T fuel E = some o) {ξ : ℕ → Fin m → K} (hξ : Iterates f ξ)
    {a d : K} (hd : (ξ 0, a, d) ∈ E.2.pts) :
    CoveredAt ξ a o.final T ∧ ∀ j, 1 ≤ j → j ≤ T → CoveredAt ξ a o.reach j := by
  rcases map_holds hτ hE h hξ hd with ⟨x, hx, -⟩ | ⟨x, hx, -⟩ | ⟨e, he, k, hk, hk', hd, hj⟩ | ⟨x, hx, h1, h2, -⟩
  · cases hx
  · cases hx
  · obtain rfl : k = T := by omega
    exact ⟨⟨e, he, hd⟩, fun j h1 h2 => hj j h1 h2⟩
  · rcases hu with hu | hu
    · rw [hu] at h1; cases h1
    · rw [hu] at h2; cases h2

/-- **C73**: with lower semantics and premature termination, the same up to the time at which the set was given up. -/
theorem C73_map_lower (hτ : τ.Ok R) {f : Fin m → Patch m K} {T : ℕ} {fuel : ℕ} {E : ESet m K} (hE : Enclosure.Inv R E.2)
    {o} (h : τ.mapOrbit f T fuel E = some o) {ξ : ℕ → Fin m → K} (hξ : Iterates f ξ) {a d : K} (hd : (ξ 0, a, d) ∈ E.2.pts) :
    (CoveredAt ξ a o.final T ∧ ∀ j, 1 ≤ j → j ≤ T → CoveredAt ξ a o.reach j) ∨
    ∃ x ∈ o.dropped, ∃ k : ℕ, x.1 = k ∧ k < T ∧ τ.tooLarge x.2 = true ∧ CoveredAt ξ a [x.2] k ∧
      ∀ j, 1 ≤ j → j ≤ k → CoveredAt ξ a o.reach j := by
  rcases map_holds hτ hE h hξ hd with ⟨x, hx, -⟩ | ⟨x, hx, -⟩ | ⟨e, he, k, hk, hk', hd, hj⟩ |
    ⟨x, hx, -, -, h3, k, h4, h5, -, h6, h7⟩
  · cases hx
  · cases hx
  · obtain rfl : k = T := by omega
    exact Or.inl ⟨⟨e, he, hd⟩, fun j h1 h2 => hj j h1 h2⟩
  · exact Or.inr ⟨x, hx, k, h4, by omega, h3, ⟨x.2, by simp, h6⟩, fun j a b => h7 j a b⟩

theorem map_eval (hsub : τ.subdivisions = false) {f : Fin m → Patch m K} {T : ℤ} (k : ℕ) : ∀ (t : ℤ) (E : ESet m K),
    T ≤ t + k → ∃ o n, Eval (τ.mapItem f T) (.item (t, E)) o n := by
  induction k with
  | zero =>
    intro t E ht
    have ht : T ≤ t := by simpa using ht
    exact ⟨_, _, .item (by rw [Tools.mapItem, if_pos ht]) (.act (fun i h => by cases h) .nil)⟩
  | succ k ih =>
    intro t E ht
    by_cases h1 : T ≤ t
    · exact ⟨_, _, .item (by rw [Tools.mapItem, if_pos h1]) (.act (fun i h => by cases h) .nil)⟩
    by_cases h2 : (!τ.upper && τ.premature && τ.tooLarge E) = true
    · exact ⟨_, _, .item (as := [.drop (t, E)]) (by
        simp only [Tools.mapItem]; rw [if_neg h1, hsub]
        simp only [Bool.and_false, Bool.false_and, Bool.false_eq_true, if_false]; rw [if_pos h2])
        (.act (fun i h => by cases h) .nil)⟩
    have hp : τ.mapItem f T (t, E) = some (τ.mapStep f t E) := by
      simp only [Tools.mapItem]
      rw [if_neg h1, hsub]
      simp only [Bool.and_false, Bool.false_and, Bool.false_eq_true, if_false]
      rw [if_neg h2]
    obtain ⟨o, n, he⟩ := ih (t + 1) ⟨E.1, E.2.applyMapStep τ.C f⟩ (by push_cast at ht; omega)
    exact ⟨_, _, .item hp (.act (fun i h => by cases h) (.act (fun i h => by cases h) (.push he .nil)))⟩

/-- **C73**: without subdivisions the orbit of a map is always computed. -/
theorem C73_map_terminates (hsub : τ.subdivisions = false) (f : Fin m → Patch m K) (T : ℤ) (E : ESet m K) :
    ∃ N, ∀ fuel, N ≤ fuel → ∃ o, τ.mapOrbit f T fuel E = some o := by
  obtain ⟨o, n, h⟩ := map_eval (τ := τ) hsub (f := f) (T := T) T.toNat 0 E (by omega)
  refine ⟨n + 1, fun fuel hf => ?_⟩
  exact loop_total (proc := τ.mapItem f T) fuel (s := ([(0, E)], Orbit.none)) (o := o.append Orbit.none) (n := n + 0)
    (.cons h .nil) (by omega)

theorem map_fun {C : Calc K} (hC : C.Sound) (hX : C.Exact) {f : Fin m → Patch m K} (hf : ∀ i x, ∃! y, (f i).has x y)
    {n : ℕ} {E : Encl n m K} (hE : E.Fun) : (E.applyMapStep C f).Fun := by
  refine ⟨fun i p hp => ?_, addBounds_fun hC hX hE.time _, const_isFun hC hX _ _⟩
  have hp : Mem E.dom p := hp
  obtain ⟨x, hx⟩ := fun_choose hE.fn hp
  obtain ⟨y, hy, hu⟩ := hf i x
  exact ⟨y, hC.compose hp hx hy, fun z hz => hu z (compose_fun hX hE.fn hp hx hz)⟩

/-- **C73**: if the operations on functions are exact, every state of `reach()` and `final()` is an iterate of a state
of the initial set. -/
theorem C73_map_exact (hτ : τ.Ok R) (hX : τ.C.Exact) {f : Fin m → Patch m K} {g : (Fin m → K) → Fin m → K}
    (hf : ∀ i x y, (f i).has x y ↔ y = g x i) {T : ℕ} {fuel : ℕ} {E : ESet m K} (hE : Enclosure.Inv R E.2) (hF : E.2.Fun)
    {o} (h : τ.mapOrbit f T fuel E = some o) :
    (∀ e ∈ o.reach, ∀ q ∈ e.2.pts, ∃ p ∈ E.2.pts, ∃ k : ℕ, 1 ≤ k ∧ k ≤ T ∧ q.1 = g^[k] p.1 ∧ q.2.1 = p.2.1 + k) ∧
    (∀ e ∈ o.final, ∀ q ∈ e.2.pts, ∃ p ∈ E.2.pts, q.1 = g^[T] p.1 ∧ q.2.1 = p.2.1 + T) := by
  let fr := fun (k : ℕ) (F : ESet m K) => ∀ q ∈ F.2.pts, ∃ p ∈ E.2.pts, q.1 = g^[k] p.1 ∧ q.2.1 = p.2.1 + (k : K)
  have hu : ∀ i x, ∃! y, (f i).has x y := fun i x => ⟨g x i, (hf i x _).2 rfl, fun y hy => (hf i x y).1 hy⟩
  let V : Inv (ESet m K) (ℤ × ESet m K) :=
    ⟨fun x => Enclosure.Inv R x.2.2 ∧ x.2.2.Fun ∧ ∃ k : ℕ, x.1 = k ∧ k ≤ T ∧ fr k x.2,
     fun e => ∃ k : ℕ, 1 ≤ k ∧ k ≤ T ∧ fr k e, fun _ => True, fun e => fr T e, fun _ => True⟩
  have hV : V.Holds ⟨[], [], o⟩ := by
    refine V.steps (proc := τ.mapItem f T) ?_ ?_ (loop_steps fuel h)
    · rintro ⟨t, F⟩ as hx ⟨h1, h2, k, e, hk, h4⟩ c hc
      have h1 : Enclosure.Inv R F.2 := h1
      have h2 : F.2.Fun := h2
      have e : t = k := e
      have h4 : fr k F := h4
      subst e
      simp only [Tools.mapItem] at hx
      by_cases g1 : (T : ℤ) ≤ (k : ℤ)
      · rw [if_pos g1] at hx
        obtain rfl := Option.some.inj hx
        rw [List.mem_singleton.1 hc]
        obtain rfl : k = T := by omega
        exact h4
      rw [if_neg g1] at hx
      by_cases g2 : (τ.upper && τ.subdivisions && τ.tooLarge F) = true
      · rw [if_pos g2] at hx
        obtain ⟨l, hl, rfl⟩ := Option.map_eq_some_iff.1 hx
        simp only [Tools.subdivide, Option.map_eq_some_iff, hτ.round] at hl
        obtain ⟨P, hP, rfl⟩ := hl
        have hi := split_inv h1.good hP
        have hp := split_parts hτ.sound hX h1.good h2 hP
        simp only [List.map_cons, List.map_nil, List.mem_cons, List.not_mem_nil, or_false] at hc
        rcases hc with rfl | rfl
        · exact ⟨hi.1, hp.1.1, k, rfl, hk, fun q hq => h4 q (hp.1.2 hq)⟩
        · exact ⟨hi.2, hp.2.1, k, rfl, hk, fun q hq => h4 q (hp.2.2 hq)⟩
      rw [if_neg g2] at hx
      by_cases g3 : (!τ.upper && τ.premature && τ.tooLarge F) = true
      · rw [if_pos g3] at hx
        obtain rfl := Option.some.inj hx
        rw [List.mem_singleton.1 hc]
        exact trivial
      rw [if_neg g3] at hx
      obtain rfl := Option.some.inj hx
      have hn : fr (k + 1) ⟨F.1, F.2.applyMapStep τ.C f⟩ := by
        intro q hq
        rw [C72_map_step_exact hτ.sound hX h2] at hq
        obtain ⟨q', hq', k1, k2, -⟩ := hq
        obtain ⟨p, hp, k3, k4⟩ := h4 q' hq'
        refine ⟨p, hp, ?_, by rw [k2, k4]; push_cast; ring⟩
        rw [Function.iterate_succ_apply', ← k3]
        funext i
        exact (hf i _ _).1 (k1 i)
      simp only [Tools.mapStep, List.mem_cons, List.not_mem_nil, or_false] at hc
      rcases hc with rfl | rfl | rfl
      · exact ⟨k + 1, by omega, by omega, hn⟩
      · exact trivial
      · exact ⟨⟨h1.good, h1.red⟩, map_fun hτ.sound hX hu h2, k + 1, by push_cast; rfl, by omega, hn⟩
    · refine ⟨fun x hx => ?_, by simp, by simp [Orbit.none], by simp [Orbit.none], by simp [Orbit.none], by simp [Orbit.none]⟩
      rw [List.mem_singleton.1 hx]
      exact ⟨hE, hF, 0, rfl, Nat.zero_le _, fun q hq => ⟨q, hq, rfl, by simp⟩⟩
  refine ⟨fun e he q hq => ?_, fun e he q hq => hV.final e he q hq⟩
  obtain ⟨k, h1, h2, h3⟩ := hV.reach e he
  obtain ⟨p, hp, h4, h5⟩ := h3 q hq
  exact ⟨p, hp, k, h1, h2, h4, h5⟩

end Verif.Evolver
