import Verif.HybridEvolver.Exact
import Verif.Evolver.Props

/-!
# Property C74: schedules, counterexamples and concrete cases
-/

namespace Verif.HybridEvolver

open Ariadne Ariadne.Logical Verif.ConstraintSolver Verif.Enclosure Verif.Evolver
open Ariadne.Ext (fin)

section General

variable {L Ev : Type*} {dim : L → ℕ} {n : ℕ} {K : Type*} [Field K] [LinearOrder K] [IsStrictOrderedRing K]
variable {τ : Tools K} {R : Rounding K} {Reg : (K → K) → Prop} {M : Sem L Ev dim K}
variable {terminating : Ev → Bool} {sys : (q : L) → List (Trans L Ev dim K q)}
variable {flowStep : (q : L) → Box (dim q) K → Flow (dim q) K}

/-- **C74**: two schedules of the threads which complete give the same sets, up to the order, and if one schedule
completes then all do, after the same number of steps. -/
theorem C74_schedule [DecidableEq Ev] {S : HSet L Ev dim K} {i j s s'}
    (h : StepsN (τ.process terminating sys flowStep) i (orbitInit S) s)
    (h' : StepsN (τ.process terminating sys flowStep) j (orbitInit S) s') (hd' : s'.Done) :
    (s.Done → s.orbit.Same s'.orbit) ∧ i ≤ j ∧ ∃ s'', StepsN (τ.process terminating sys flowStep) (j - i) s s'' ∧ s''.Done :=
  ⟨fun hd => C73_schedule h.steps h'.steps hd hd', C73_schedule_completes h' hd' h⟩

/-! ## Counterexamples -/

/-- **C74, negative**: if the initial time is not before the final time, for example because the final time is zero,
then the orbit is empty: not even the initial set is in it. -/
theorem C74_zero_time [DecidableEq Ev] {S : HSet L Ev dim K} (hl : τ.late S.set = true) {s}
    (h : Steps (τ.process terminating sys flowStep) (orbitInit S) s) :
    s.orbit.reach = [] ∧ s.orbit.inter = [] ∧ s.orbit.final = [] := by
  let V : Evolver.Inv (HSet L Ev dim K) (HSet L Ev dim K × Bool) :=
    ⟨fun i => i = (S, true), fun _ => False, fun _ => False, fun _ => False, fun _ => True⟩
  have hV := Evolver.Inv.steps (V := V) (proc := τ.process terminating sys flowStep) ?_ ?_ h
  · exact ⟨List.eq_nil_iff_forall_not_mem.2 hV.reach, List.eq_nil_iff_forall_not_mem.2 hV.inter,
      List.eq_nil_iff_forall_not_mem.2 hV.final⟩
  · rintro i as hx rfl a ha
    simp only [Tools.process, Tools.jumped, if_true, if_pos hl] at hx
    obtain rfl := Option.some.inj hx
    rw [List.mem_singleton.1 ha]
    exact trivial
  · exact ⟨fun i hi => List.mem_singleton.1 hi, by simp [orbitInit], by simp [orbitInit, Orbit.none],
      by simp [orbitInit, Orbit.none], by simp [orbitInit, Orbit.none], by simp [orbitInit, Orbit.none]⟩

/-- **C74, negative**: if the guard of an urgent event decreases along the flow then every state of the set jumps,
whether or not the guard is active in it (lines 938-944). -/
theorem C74_decreasing_spurious [DecidableEq Ev] (hτ : τ.Ok R Reg) {q : L} {φ : Flow (dim q) K} {E : Encl n (dim q) K}
    {events : List Ev} {t : Timing n K} {tr : Trans L Ev dim K q} (hk : tr.kind = .urgent)
    {blocking : List (Trans L Ev dim K q × Crossing (dim q) K)} (hb : ∀ c ∈ blocking, c.1.event = tr.event) {as}
    (h : τ.jump φ events E t blocking (tr, .decreasing) = some as) {p x t₀ d} (hon : On E p x t₀ d) {T : K}
    (hT : τ.final.Contains T) (ht : t₀ ≤ T) :
    ∃ G : Encl n (dim q) K, Action.push (τ.reset events tr G, true) ∈ as ∧ On G p x t₀ d := by
  simp only [Tools.jump, Tools.impact, hk, Tools.guardStep, reduceCtorEq, if_false, Option.bind_some] at h
  obtain ⟨l, h1, h2⟩ := Option.bind_eq_some_iff.1 h
  have he : (blocking.filter fun o => o.1.event ≠ tr.event) = [] :=
    List.filter_eq_nil_iff.2 fun c hc => by simp [hb c hc]
  rw [he] at h1
  simp only [Tools.otherGuards, List.isEmpty_nil, if_true] at h1
  obtain ⟨F, hF, h1⟩ := Option.bind_eq_some_iff.1 h1
  obtain rfl := Option.some.inj h1
  have honF : On F p x t₀ d := by
    by_cases c : τ.over E = true
    · rw [if_pos c] at hF
      obtain ⟨o, ho, rfl⟩ := Option.map_eq_some_iff.1 hF
      exact ((hon.boundTime hτ hT ht).isEmpty hτ ho).2
    · rw [if_neg c] at hF
      obtain rfl := Option.some.inj hF
      exact hon
  exact jumpAll_mem hτ h2 (List.mem_singleton_self _) honF

/-- **C74, negative**: if moreover another event blocks the flow then the assertion on line 1001 fails. -/
theorem C74_decreasing_assertion [DecidableEq Ev] {q : L} {φ : Flow (dim q) K} {E : Encl n (dim q) K}
    {events : List Ev} {t : Timing n K} {tr : Trans L Ev dim K q} (hk : tr.kind = .urgent)
    {blocking : List (Trans L Ev dim K q × Crossing (dim q) K)} (hb : ∃ c ∈ blocking, c.1.event ≠ tr.event) :
    τ.jump φ events E t blocking (tr, .decreasing) = none := by
  simp only [Tools.jump, Tools.impact, hk, Tools.guardStep, reduceCtorEq, if_false, Option.bind_some]
  have he : (blocking.filter fun o => o.1.event ≠ tr.event).isEmpty = false := by
    obtain ⟨c, hc, hc'⟩ := hb
    rw [List.isEmpty_eq_false_iff]
    exact List.ne_nil_of_mem (List.mem_filter.2 ⟨hc, by simpa using hc'⟩)
  simp only [Tools.otherGuards, he]
  cases (if τ.over E then ((τ.boundTime E).isEmpty τ.X τ.C).map Prod.snd else some E) <;> rfl

end General

/-! ## Concrete cases -/

/-- The function `a*x+b`. -/
def aff (a b : ℚ) : Patch 1 ℚ where
  has p y := y = p 0 * a + b
  ev B := Bounds.add (XE ℚ) (scaleIvl a (B 0)) (between b b)
  ok p y h B hB := by
    rw [h]; exact Bounds.C05_add _ (scaleIvl_contains (hB 0)) ⟨le_rfl, le_rfl⟩

/-- Two locations with one variable. -/
def one : Bool → ℕ := fun _ => 1

/-- The integrator for `ẋ=1` with steps of size one. -/
def unitStep (_ : Bool) (B : Box 1 ℚ) : Flow 1 ℚ :=
  ⟨B, 0, 1, fun _ => (exact ℚ).add ((exact ℚ).coord (ext B (between 0 1)) 0) ((exact ℚ).coord (ext B (between 0 1)) 1)⟩

theorem unitStep_has (q : Bool) (B : Box 1 ℚ) (x : Fin 1 → ℚ) (r : ℚ) (i : Fin 1) :
    ((unitStep q B).fn i).has (ext x r) (x 0 + r) := ⟨x 0, r, rfl, rfl, rfl⟩

/-- The event with guard `a*x>=c` and reset `x-c`. -/
def event (q : Bool) (kind : Kind) (a c : ℚ) : Trans Bool ℕ one ℚ q :=
  ⟨0, kind, aff a (-c), aff 0 a, aff 0 (-a), aff 0 0, !q, fun _ => aff 1 (-c)⟩

/-- The system with this event in the first location. -/
def switch (kind : Kind) (a c : ℚ) : (q : Bool) → List (Trans Bool ℕ one ℚ q)
  | false => [event false kind a c]
  | true => []

/-- What it means. -/
def sem (a c : ℚ) : Sem Bool ℕ one ℚ where
  g _ x := x (0 : Fin 1) * a + -c
  dg _ _ := a
  ddg _ _ := 0
  reset _ x _ := x (0 : Fin 1) + -c

/-- The solutions of `ẋ=1`. -/
def Line (q : Bool) (ξ : ℚ → Fin (one q) → ℚ) : Prop := ∃ c : ℚ, ∀ s, ξ s = fun _ => c + s

theorem deriv_affine (a b : ℚ) : Deriv (fun s : ℚ => s * a + b) fun _ => a where
  pos x y _ h hp := by
    have := mul_lt_mul_of_pos_right h (hp x le_rfl h.le)
    simpa using this
  nonneg x y _ h hp := by
    have := mul_le_mul_of_nonneg_right h (hp x le_rfl h)
    simpa using this
  nonpos x y _ h hp := by
    have := mul_le_mul_of_nonpos_right h (hp x le_rfl h)
    simpa using this
  neg x y _ h hp := by
    have := mul_lt_mul_of_neg_right h (hp x le_rfl h.le)
    simpa using this

theorem plant (kind : Kind) (a c : ℚ) : Plant (sem a c) Affine (switch kind a c) unitStep Line where
  describes q tr h := by
    cases q with
    | true => cases h
    | false =>
      obtain rfl := List.mem_singleton.1 h
      refine ⟨fun x => rfl, fun x => ?_, fun x => ?_, fun x => ?_, fun x i => ?_⟩
      · show a = x (0 : Fin 1) * 0 + a
        ring
      · show -a = x (0 : Fin 1) * 0 + -a
        ring
      · show (0 : ℚ) = x (0 : Fin 1) * 0 + 0
        ring
      · show x (0 : Fin 1) + -c = x (0 : Fin 1) * 1 + -c
        ring
  along q ξ h tr _ := by
    obtain ⟨b, h⟩ := h
    have h' : ∀ s, (sem a c).g tr (ξ s) = s * a + (b * a + -c) := fun s => by
      rw [h]
      show (b + s) * a + -c = _
      ring
    refine ⟨?_, ?_, fun r e _ => ⟨a, r * a + (b * a + -c) - e, fun y => ?_⟩, fun r _ => ⟨0, a, fun y => ?_⟩⟩
    · simp only [h']
      exact deriv_affine a _
    · have := deriv_affine 0 a
      simpa [sem] using this
    · show (sem a c).g tr (ξ (r + y)) - e = _
      rw [h']
      ring
    · show a = _
      ring
  follows q ξ h B r hr hB := by
    obtain ⟨b, h⟩ := h
    refine ⟨hr, one_pos, hB, fun s _ _ i => ?_⟩
    have := unitStep_has q B (ξ r) s i
    rw [h] at this ⊢
    rw [h (r + s)]
    show ((unitStep q B).fn i).has (ext (fun _ => b + r) s) (b + (r + s))
    rw [← add_assoc]
    exact this

/-- The execution from `x₀` which jumps when `x=1`. -/
def bounce (x₀ δ : ℚ) : Exec Bool ℕ one ℚ where
  loc | 0 => false | _ + 1 => true
  ξ | 0 => fun s _ => x₀ + s | _ + 1 => fun s _ => s
  δ | 0 => 1 - x₀ | _ + 1 => δ
  tr | 0 => event false .urgent 1 1 | _ + 1 => event true .urgent 1 1

theorem bounce_valid {x₀ δ : ℚ} (h : x₀ ≤ 1) : (bounce x₀ δ).Valid (sem 1 1) (switch .urgent 1 1) Line 1 where
  step k hk := by
    obtain rfl : k = 0 := by omega
    refine Or.inr ⟨⟨sub_nonneg.2 h, ⟨x₀, fun s => rfl⟩, fun tr htr _ s _ hs => ?_⟩, List.mem_singleton_self _, ⟨by simp [bounce, event], ?_, fun _ => ?_⟩⟩
    · have hs : s ≤ 1 - x₀ := hs
      show (x₀ + s) * 1 + -1 ≤ 0
      linarith
    · show 0 ≤ (x₀ + (1 - x₀)) * 1 + -1
      linarith
    · exact zero_le_one
  next k hk := by
    obtain rfl : k = 0 := by omega
    have : (fun _ => (x₀ + (1 - x₀)) + -1 : Fin 1 → ℚ) = fun _ => 0 := by funext i; ring
    exact congrArg (fun x : Fin 1 → ℚ => (⟨true, x⟩ : Σ q : Bool, Fin (one q) → ℚ)) this

theorem bounce_flows {x₀ δ : ℚ} (h : 0 ≤ δ) : (bounce x₀ δ).Flows (sem 1 1) (switch .urgent 1 1) Line 1 :=
  ⟨h, ⟨0, fun s => by funext i; exact (zero_add s).symm⟩, fun _ htr => by cases htr⟩

/-- The initial set `[a,b]`. -/
def initial (a b : ℚ) : HSet Bool ℕ one ℚ := ⟨false, [], 1, ofBox (exact ℚ) (side a b)⟩

theorem initial_on {a b : ℚ} {x : Fin 1 → ℚ} (hx : Mem (side a b) x) : On (ofBox (exact ℚ) (side a b)) x x 0 0 :=
  ⟨⟨hx, fun _ => rfl, rfl, rfl, fun _ h => by cases h⟩, hx, fun _ => ⟨a, b, rfl⟩⟩

/-- The evolution until the time `T` with at most five events. -/
abbrev proc (T : ℚ) (kind : Kind) (a c : ℚ) :=
  (exactTools ℚ (between T T) 5).process (fun _ => false) (switch kind a c) unitStep

/-- The orbit computed by one thread. -/
def orbitOf (T : ℚ) (kind : Kind) (a c : ℚ) (S : HSet Bool ℕ one ℚ) :=
  loop (proc T kind a c) 30 ([(S, true)], Orbit.none)

/-- The numbers of reached, intermediate and final sets. -/
def sizes (o : Option (Orbit (HSet Bool ℕ one ℚ) (HSet Bool ℕ one ℚ × Bool))) : Option (ℕ × ℕ × ℕ) :=
  o.map fun o => (o.reach.length, o.inter.length, o.final.length)

/-- The orbit from `[0,1/2]`: the evolver creeps up to the guard and then jumps. -/
theorem bounce_run : sizes (orbitOf 2 .urgent 1 1 (initial 0 (1 / 2))) = some (9, 6, 4) := by decide +kernel

theorem contains_final (T : ℚ) (N : ℕ) : (exactTools ℚ (between T T) N).final.Contains T := ⟨le_rfl, le_rfl⟩

theorem not_stops {T : ℚ} {es : List ℕ} (h : es.length < 5) :
    ¬ (exactTools ℚ (between T T) 5).Stops (fun _ => false) es := by
  rintro (h' | ⟨e, -, h'⟩)
  · exact absurd (show 5 ≤ es.length from h') (by omega)
  · cases h'

/-- The hypotheses of the theorem on reached states hold in this case, for every initial state, every schedule and
every time after the event. -/
example (x₀ δ : ℚ) (h0 : 0 ≤ x₀) (h1 : x₀ ≤ 1 / 2) (d0 : 0 ≤ δ) (d1 : 1 - x₀ + δ ≤ 2) (s)
    (h : Steps (proc 2 .urgent 1 1) (orbitInit (initial 0 (1 / 2))) s) (hd : s.Done) :
    ∃ S ∈ s.orbit.reach, S.events = [0] ∧ S.Has ⟨true, fun _ => δ⟩ (0 + (1 - x₀) + δ) := by
  have hE : On (ofBox (exact ℚ) (side 0 (1 / 2))) (fun _ => x₀) ((bounce x₀ δ).ξ 0 0) 0 0 := by
    have : (bounce x₀ δ).ξ 0 0 = fun _ : Fin 1 => x₀ := by
      show (fun _ : Fin 1 => x₀ + 0) = _
      rw [add_zero]
    rw [this]
    exact initial_on (mem_side.2 ⟨h0, h1⟩)
  exact C74_reach (N := 1) (X := bounce x₀ δ) (es := []) (exactTools_ok affine_crosses _ _)
    (exactTools_creepOk affine_crosses affine_first _ _) rfl (plant .urgent 1 1) (bounce_valid (by linarith)) (Or.inl (bounce_flows d0))
    (contains_final 2 5) (show 0 + (1 - x₀) < 2 by linarith) (show 0 + (1 - x₀) + δ ≤ 2 by linarith)
    (fun k hk => by
      have : k = 0 ∨ k = 1 := by omega
      rcases this with rfl | rfl <;> exact not_stops (by simp [Exec.events])) hE h hd

/-- There is such a schedule. -/
example : ∃ s, Steps (proc 2 .urgent 1 1) (orbitInit (initial 0 (1 / 2))) s ∧ s.Done := by
  cases h : orbitOf 2 .urgent 1 1 (initial 0 (1 / 2)) with
  | none => have := bounce_run; rw [h] at this; cases this
  | some o => exact ⟨_, loop_steps 30 h, rfl, rfl⟩

/-- With a permissive event the evolver never creeps, and the states at the final time are in the final sets, or in one of
the other sets of the theorem. -/
example (x₀ : ℚ) (h0 : 0 ≤ x₀) (h1 : x₀ ≤ 1 / 2) (s)
    (h : Steps (proc 2 .permissive 1 1) (orbitInit (initial 0 (1 / 2))) s) (hd : s.Done) :
    (∃ S ∈ s.orbit.final, S.events = [] ∧ S.Has ⟨false, fun _ => x₀ + 2⟩ 2) ∨
    (∃ i ∈ s.orbit.dropped, i.1.events = [] ∧ i.1.Has ⟨false, fun _ => x₀ + 2⟩ 2) ∨
    ∃ S ∈ s.orbit.reach, S.events = [] ∧ S.Has ⟨false, fun _ => x₀ + 2⟩ 2 ∧
      (exactTools ℚ (between 2 2) 5).over S.set = false := by
  let X : Exec Bool ℕ one ℚ := ⟨fun _ => false, fun _ s _ => x₀ + s, fun _ => 2, fun _ => event false .permissive 1 1⟩
  have hE : On (ofBox (exact ℚ) (side 0 (1 / 2))) (fun _ => x₀) (X.ξ 0 0) 0 0 := by
    have : X.ξ 0 0 = fun _ : Fin 1 => x₀ := by
      show (fun _ : Fin 1 => x₀ + 0) = _
      rw [add_zero]
    rw [this]
    exact initial_on (mem_side.2 ⟨h0, h1⟩)
  refine C74_final_time_partial (N := 0) (X := X) (es := []) (exactTools_ok affine_crosses _ _)
    (exactTools_creepOk affine_crosses affine_first _ _) rfl (plant .permissive 1 1) ⟨fun k hk => absurd hk (by omega), fun k hk => absurd hk (by omega)⟩
    ⟨by norm_num [X], ⟨x₀, fun _ => rfl⟩, fun tr htr hb => ?_⟩
    (contains_final 2 5) (show (0 : ℚ) < 2 by norm_num) (show (0 : ℚ) + 2 = 2 by norm_num)
    (fun k hk => by
      obtain rfl : k = 0 := by omega
      exact not_stops (by simp [Exec.events])) hE h hd ?_
  · obtain rfl := List.mem_singleton.1 htr
    exact absurd rfl hb
  · rintro s₁ - ⟨q, ev, n, E⟩ - ⟨o, φ, act, cr, -, -, h3, h4, h5, -⟩
    have hperm : ∀ c ∈ cr, c.1.kind = .permissive := by
      intro c hc
      have := activeEvents_sub h3 _ ((crossings_mem h4).1 c hc).1
      cases q with
      | true => cases this
      | false =>
        rw [List.mem_singleton.1 this]
        rfl
    have hw : ∀ (l : List (Trans Bool ℕ one ℚ q × Crossing (one q) ℚ)), (∀ c ∈ l, c.1.kind = .permissive) →
        (exactTools ℚ (between 2 2) 5).wantsCreep φ l false = false := by
      intro l
      induction l with
      | nil => exact fun _ => rfl
      | cons c l ih =>
        intro hl
        have ih := ih fun c h => hl c (List.mem_cons_of_mem _ h)
        have hc := hl c (by simp)
        obtain ⟨tr, c⟩ := c
        cases c <;> simp only [Tools.wantsCreep] <;> first | exact ih | (rw [if_pos hc]; exact ih)
    simp only [Tools.creep, hw cr hperm] at h5
    cases h5

/-- **C74, negative**: a state in which the guard of an impact is positive is lost without notice, as impacts are left
out of the starting events (line 506) although they block the flow.  The orbit of `[2,3]` with an impact at `x=1` has one
reached set, which is found to be empty, and no final set.  For an urgent event there are reached sets in the other
location. -/
theorem C74_impact_start :
    (orbitOf 2 .impact 1 1 (initial 2 3)).map (fun o => (o.reach.map fun S =>
      ((S.set.isEmpty (XE ℚ) (exact ℚ)).map fun r => LV.definitely r.1), o.final.length)) = some ([some true], 0) ∧
    (orbitOf 2 .urgent 1 1 (initial 2 3)).map (fun o => (o.reach.map fun S =>
      (S.loc, (S.set.isEmpty (XE ℚ) (exact ℚ)).map fun r => LV.definitely r.1))) =
        some [(false, some false), (true, some false), (true, some false)] := by
  constructor <;> decide +kernel

/-- The guard `x<=1` of an urgent event decreases along `ẋ=1`. -/
example : ((exactTools ℚ (between 2 2) 5).crossing (L := Bool) (Ev := ℕ) (dim := one) (q := false) (unitStep false (side 1 2))
    (initial 1 2).set (event false .urgent (-1) (-1))).map
      (fun c => match c with | some .decreasing => true | _ => false) = some true := by decide +kernel

end Verif.HybridEvolver
