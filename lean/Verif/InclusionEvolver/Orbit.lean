import Verif.InclusionEvolver.Schedule
import Verif.Bounds.Lemmas

/-!
# Choice of the best approximation, and orbits of differential inclusions
-/

namespace Verif.InclusionEvolver

open Ariadne (Ext Rounding)

variable {F G K : Type*} [Field K] [LinearOrder K] [IsStrictOrderedRing K]

theorem ext_lt_trans {a b c : Ext K} (h1 : Ext.lt a b = true) (h2 : Ext.lt b c = true) : Ext.lt a c = true := by
  cases a <;> cases b <;> cases c <;> simp_all [Ext.lt]
  exact h1.trans h2

theorem ext_lt_irrefl (a : Ext K) : Ext.lt a a = false := by cases a <;> simp [Ext.lt]

/-- What holds for the variables of the loop after the approximations `cs`. -/
structure SelInv (first : Kind) (cs : List (Cand F G K)) (s : Sel F G K) : Prop where
  best : s.best = first ∨ ∃ c ∈ cs, c.appr = s.best
  evolve : (s.evolve = none ∧ s.best = first ∧ s.reach = none ∧ s.volume = .pinf ∧
      ∀ c ∈ cs, Ext.lt c.volume .pinf = false) ∨
    ∃ c ∈ cs, s.best = c.appr ∧ s.evolve = some c.evolve ∧ s.volume = c.volume ∧
      (c.appr.rigorous = true → s.reach = some c.reach) ∧ Ext.lt c.volume .pinf = true ∧
      ∀ c' ∈ cs, Ext.lt c'.volume c.volume = false
  rig : (s.rigReach = none ∧ s.rigVolume = .pinf ∧
      ∀ c ∈ cs, c.appr.rigorous = true → Ext.lt c.volume .pinf = false) ∨
    ∃ c ∈ cs, c.appr.rigorous = true ∧ s.rigReach = some c.reach ∧ s.rigVolume = c.volume ∧
      Ext.lt c.volume .pinf = true ∧ ∀ c' ∈ cs, c'.appr.rigorous = true → Ext.lt c'.volume c.volume = false

theorem SelInv.step {first : Kind} {cs : List (Cand F G K)} {s : Sel F G K} (h : SelInv first cs s)
    (c : Cand F G K) : SelInv first (cs ++ [c]) (selStep s c) := by
  set s1 : Sel F G K :=
    if Ext.lt c.volume s.volume then
      { s with
        best := c.appr
        reach := if c.appr.rigorous then some c.reach else s.reach
        evolve := some c.evolve
        volume := c.volume }
    else s with hs1
  have h1 : (s1.best = first ∨ ∃ c' ∈ cs ++ [c], c'.appr = s1.best) ∧
      ((s1.evolve = none ∧ s1.best = first ∧ s1.reach = none ∧ s1.volume = .pinf ∧
        ∀ c' ∈ cs ++ [c], Ext.lt c'.volume .pinf = false) ∨
      ∃ c' ∈ cs ++ [c], s1.best = c'.appr ∧ s1.evolve = some c'.evolve ∧ s1.volume = c'.volume ∧
        (c'.appr.rigorous = true → s1.reach = some c'.reach) ∧ Ext.lt c'.volume .pinf = true ∧
        ∀ c'' ∈ cs ++ [c], Ext.lt c''.volume c'.volume = false) ∧
      s1.rigReach = s.rigReach ∧ s1.rigVolume = s.rigVolume := by
    by_cases hlt : Ext.lt c.volume s.volume = true
    · rw [if_pos hlt] at hs1
      rw [hs1]
      refine ⟨Or.inr ⟨c, by simp, rfl⟩, Or.inr ⟨c, by simp, rfl, rfl, rfl, fun hr => if_pos hr, ?_, ?_⟩, rfl, rfl⟩
      · rcases h.evolve with ⟨-, -, -, hv, -⟩ | ⟨c', -, -, -, hv, -, hp, -⟩
        · rw [← hv]
          exact hlt
        · rw [hv] at hlt
          exact ext_lt_trans hlt hp
      · intro c'' hc''
        rcases List.mem_append.1 hc'' with hc'' | hc''
        · by_contra hcon
          rw [Bool.not_eq_false] at hcon
          have := ext_lt_trans hcon hlt
          rcases h.evolve with ⟨-, -, -, hv, hall⟩ | ⟨c', -, -, -, hv, -, -, hall⟩
          · rw [hv, hall c'' hc''] at this
            exact Bool.noConfusion this
          · rw [hv, hall c'' hc''] at this
            exact Bool.noConfusion this
        · rw [List.mem_singleton] at hc''
          rw [hc'']
          exact ext_lt_irrefl _
    · rw [if_neg hlt] at hs1
      rw [hs1]
      rw [Bool.not_eq_true] at hlt
      refine ⟨?_, ?_, rfl, rfl⟩
      · rcases h.best with hb | ⟨c', hc', hb⟩
        · exact Or.inl hb
        · exact Or.inr ⟨c', List.mem_append_left _ hc', hb⟩
      · rcases h.evolve with ⟨he, hb, hr, hv, hall⟩ | ⟨c', hc', hb, he, hv, hr, hp, hall⟩
        · refine Or.inl ⟨he, hb, hr, hv, fun c'' hc'' => ?_⟩
          rcases List.mem_append.1 hc'' with hc'' | hc''
          · exact hall c'' hc''
          · rw [List.mem_singleton] at hc''
            rw [hc'', ← hv]
            exact hlt
        · refine Or.inr ⟨c', List.mem_append_left _ hc', hb, he, hv, hr, hp, fun c'' hc'' => ?_⟩
          rcases List.mem_append.1 hc'' with hc'' | hc''
          · exact hall c'' hc''
          · rw [List.mem_singleton] at hc''
            rw [hc'', ← hv]
            exact hlt
  obtain ⟨hb, he, hrr, hrv⟩ := h1
  have hstep : selStep s c = if c.appr.rigorous && Ext.lt c.volume s1.rigVolume then
      { s1 with rigReach := some c.reach, rigVolume := c.volume } else s1 := rfl
  rw [hstep]
  clear_value s1
  by_cases hif : (c.appr.rigorous && Ext.lt c.volume s1.rigVolume) = true
  · rw [if_pos hif]
    rw [Bool.and_eq_true] at hif
    obtain ⟨hcr, hlt⟩ := hif
    refine ⟨hb, he, Or.inr ⟨c, by simp, hcr, rfl, rfl, ?_, ?_⟩⟩
    · rw [hrv] at hlt
      rcases h.rig with ⟨-, hv, -⟩ | ⟨c', -, -, -, hv, hp, -⟩
      · rw [← hv]
        exact hlt
      · rw [hv] at hlt
        exact ext_lt_trans hlt hp
    · intro c'' hc'' hr''
      rcases List.mem_append.1 hc'' with hc'' | hc''
      · by_contra hcon
        rw [Bool.not_eq_false] at hcon
        rw [hrv] at hlt
        have := ext_lt_trans hcon hlt
        rcases h.rig with ⟨-, hv, hall⟩ | ⟨c', -, -, -, hv, -, hall⟩
        · rw [hv, hall c'' hc'' hr''] at this
          exact Bool.noConfusion this
        · rw [hv, hall c'' hc'' hr''] at this
          exact Bool.noConfusion this
      · rw [List.mem_singleton] at hc''
        rw [hc'']
        exact ext_lt_irrefl _
  · rw [if_neg hif]
    have hnot : c.appr.rigorous = true → Ext.lt c.volume s.rigVolume = false := by
      intro hr
      rw [hr, Bool.true_and, hrv] at hif
      simpa using hif
    refine ⟨hb, he, ?_⟩
    rw [hrr, hrv]
    rcases h.rig with ⟨hr, hv, hall⟩ | ⟨c', hc', hr, hg, hv, hp, hall⟩
    · refine Or.inl ⟨hr, hv, fun c'' hc'' hr'' => ?_⟩
      rcases List.mem_append.1 hc'' with hc'' | hc''
      · exact hall c'' hc'' hr''
      · rw [List.mem_singleton] at hc''
        subst hc''
        rw [← hv]
        exact hnot hr''
    · refine Or.inr ⟨c', List.mem_append_left _ hc', hr, hg, hv, hp, fun c'' hc'' hr'' => ?_⟩
      rcases List.mem_append.1 hc'' with hc'' | hc''
      · exact hall c'' hc'' hr''
      · rw [List.mem_singleton] at hc''
        subst hc''
        rw [← hv]
        exact hnot hr''

theorem selInv (first : Kind) (cs : List (Cand F G K)) :
    SelInv first cs (cs.foldl selStep ⟨first, none, none, .pinf, none, .pinf⟩) := by
  induction cs using List.reverseRecOn with
  | nil => exact ⟨Or.inl rfl, Or.inl ⟨rfl, rfl, rfl, rfl, by simp⟩, Or.inl ⟨rfl, rfl, by simp⟩⟩
  | append_singleton cs c ih =>
    rw [List.foldl_append]
    exact ih.step c

/-- **C82** (choice).  If the volume for some approximation is less than infinity, then the evolved set is that of an
approximation with the smallest volume, which is the best. -/
theorem C82_best (first : Kind) (cs : List (Cand F G K)) (h : ∃ c ∈ cs, Ext.lt c.volume .pinf = true) :
    ∃ c ∈ cs, (select first cs).1 = c.appr ∧ (select first cs).2.2 = some c.evolve ∧
      (c.appr.rigorous = true → (select first cs).2.1 = some c.reach) ∧
      ∀ c' ∈ cs, Ext.lt c'.volume c.volume = false := by
  have hi := selInv first cs
  rcases hi.evolve with ⟨-, -, -, -, hall⟩ | ⟨c, hc, hb, he, -, hr, -, hall⟩
  · obtain ⟨c, hc, hlt⟩ := h
    rw [hall c hc] at hlt
    exact Bool.noConfusion hlt
  · refine ⟨c, hc, hb, he, fun hcr => ?_, hall⟩
    show (if (cs.foldl selStep _).best.rigorous = true then _ else _) = _
    rw [if_pos (by rw [hb]; exact hcr)]
    exact hr hcr

/-- **C82** (rigorous reachable sets).  The reached set that is chosen is always one of an approximation whose
reachable sets are rigorous. -/
theorem C82_reach_rigorous (first : Kind) (cs : List (Cand F G K)) {g : G} (h : (select first cs).2.1 = some g) :
    ∃ c ∈ cs, c.appr.rigorous = true ∧ c.reach = g := by
  have hi := selInv first cs
  change (if (cs.foldl selStep ⟨first, none, none, .pinf, none, .pinf⟩).best.rigorous = true then
    (cs.foldl selStep ⟨first, none, none, .pinf, none, .pinf⟩).reach else
    (cs.foldl selStep ⟨first, none, none, .pinf, none, .pinf⟩).rigReach) = some g at h
  split_ifs at h with hbr
  · rcases hi.evolve with ⟨-, -, hr, -⟩ | ⟨c, hc, hb, -, -, hr, -⟩
    · rw [hr] at h
      exact absurd h (by simp)
    · rw [hb] at hbr
      rw [hr hbr] at h
      exact ⟨c, hc, hbr, Option.some.inj h⟩
  · rcases hi.rig with ⟨hr, -⟩ | ⟨c, hc, hcr, hr, -⟩
    · rw [hr] at h
      exact absurd h (by simp)
    · rw [hr] at h
      exact ⟨c, hc, hcr, Option.some.inj h⟩

/-- **C82** (reached set).  If the volume for some rigorous approximation is less than infinity, then there is a
reached set. -/
theorem C82_reach (first : Kind) (cs : List (Cand F G K))
    (h : ∃ c ∈ cs, c.appr.rigorous = true ∧ Ext.lt c.volume .pinf = true) : ∃ g, (select first cs).2.1 = some g := by
  have hi := selInv first cs
  show ∃ g, (if (cs.foldl selStep ⟨first, none, none, .pinf, none, .pinf⟩).best.rigorous = true then
    (cs.foldl selStep ⟨first, none, none, .pinf, none, .pinf⟩).reach else
    (cs.foldl selStep ⟨first, none, none, .pinf, none, .pinf⟩).rigReach) = some g
  obtain ⟨c0, hc0, hr0, hlt0⟩ := h
  split_ifs with hbr
  · rcases hi.evolve with ⟨-, -, -, -, hall⟩ | ⟨c, hc, hb, -, -, hr, -⟩
    · rw [hall c0 hc0] at hlt0
      exact Bool.noConfusion hlt0
    · rw [hb] at hbr
      exact ⟨_, hr hbr⟩
  · rcases hi.rig with ⟨-, -, hall⟩ | ⟨c, hc, hcr, hr, -⟩
    · rw [hall c0 hc0 hr0] at hlt0
      exact Bool.noConfusion hlt0
    · exact ⟨_, hr⟩

/-- **C82** (no choice).  If no volume is less than infinity, then there is no evolved set: the code uses a null
function. -/
theorem C82_unbounded (first : Kind) (cs : List (Cand F G K)) (h : ∀ c ∈ cs, Ext.lt c.volume .pinf = false) :
    (select first cs).2.2 = none := by
  rcases (selInv first cs).evolve with ⟨he, -⟩ | ⟨c, hc, -, -, -, -, hp, -⟩
  · exact he
  · rw [h c hc] at hp
    exact Bool.noConfusion hp

/-! ### Orbits -/

/-- The candidates of a step. -/
def cands (R : Rounding K) (M : Method F G K) (r : Run F G K) : List (Cand F G K) :=
  (toUse r.state).map fun a =>
    ⟨a, M.reach a r.evolve r.time (M.stepSize r.evolve),
      M.evolve a (M.reach a r.evolve r.time (M.stepSize r.evolve)) (R.down (r.time + M.stepSize r.evolve)),
      M.volume (M.evolve a (M.reach a r.evolve r.time (M.stepSize r.evolve))
        (R.down (r.time + M.stepSize r.evolve)))⟩

/-- What a step gives. -/
theorem orbitStep_some {R : Rounding K} {M : Method F G K} {freq : ℕ} {r r' : Run F G K}
    (h : orbitStep R M freq r = some r') :
    ∃ first g f s', (toUse r.state).head? = some first ∧ (select first (cands R M r)).2.1 = some g ∧
      (select first (cands R M r)).2.2 = some f ∧
      nextStep (recondition M freq f (updateWithBest M.sort r.state (select first (cands R M r)).1)).2 = some s' ∧
      r' = ⟨R.down (r.time + M.stepSize r.evolve),
        (recondition M freq f (updateWithBest M.sort r.state (select first (cands R M r)).1)).1, s',
        r.reached ++ [(r.time, R.down (r.time + M.stepSize r.evolve), g)],
        r.intermediate ++ [(R.down (r.time + M.stepSize r.evolve),
          (recondition M freq f (updateWithBest M.sort r.state (select first (cands R M r)).1)).1)]⟩ := by
  unfold orbitStep at h
  obtain ⟨first, h1, h⟩ := Option.bind_eq_some_iff.1 h
  obtain ⟨g, h2, h⟩ := Option.bind_eq_some_iff.1 h
  obtain ⟨f, h3, h⟩ := Option.bind_eq_some_iff.1 h
  obtain ⟨s', h4, h⟩ := Option.map_eq_some_iff.1 h
  exact ⟨first, g, f, s', h1, h2, h3, h4, h.symm⟩

theorem recondition_state (M : Method F G K) (freq : ℕ) (f : F) (s : State) :
    ∃ c, (recondition M freq f s).2 = { s with localCount := c } := by
  unfold recondition
  split_ifs
  · exact ⟨_, rfl⟩
  · exact ⟨s.localCount, rfl⟩

theorem select_best_mem (first : Kind) (as : List Kind) (mk : Kind → Cand F G K) (hmk : ∀ a, (mk a).appr = a)
    (hf : first ∈ as) : (select first (as.map mk)).1 ∈ as := by
  rcases (selInv first (as.map mk)).best with h | ⟨c, hc, h⟩
  · show (List.foldl _ _ _ : Sel F G K).best ∈ as
    rw [h]
    exact hf
  · show (List.foldl _ _ _ : Sel F G K).best ∈ as
    rw [← h]
    obtain ⟨a, ha, rfl⟩ := List.mem_map.1 hc
    rw [hmk]
    exact ha

/-- The state of an orbit is always a state that is reached by rounds of the schedule. -/
theorem orbitStep_round {R : Rounding K} {M : Method F G K} {freq : ℕ} {r r' : Run F G K}
    (h : orbitStep R M freq r = some r') : Round M.sort r.state r'.state := by
  obtain ⟨first, g, f, s', h1, h2, h3, h4, rfl⟩ := orbitStep_some h
  have hf : first ∈ toUse r.state := List.mem_of_mem_head? (by rw [h1]; exact rfl)
  obtain ⟨c, hc⟩ := recondition_state M freq f (updateWithBest M.sort r.state (select first (cands R M r)).1)
  rw [hc] at h4
  exact ⟨_, select_best_mem first _ _ (fun _ => rfl) hf, c, h4⟩

/-- **C83** (steps).  If the volumes are less than infinity, then no step of an orbit uses a null function, reads an
empty list or loops. -/
theorem C83_step {R : Rounding K} {M : Method F G K} (hsort : Sorts M.sort)
    (hvol : ∀ f, Ext.lt (M.volume f) .pinf = true) (freq : ℕ) {as : List Kind} {r : Run F G K}
    (hr : Reachable M.sort as r.state) : ∃ r', orbitStep R M freq r = some r' := by
  obtain ⟨a, ha, har⟩ := C82_rigorous hsort hr
  obtain ⟨first, hfirst⟩ : ∃ first, (toUse r.state).head? = some first := by
    cases hu : toUse r.state with
    | nil =>
      rw [hu] at ha
      simp at ha
    | cons b bs => exact ⟨b, rfl⟩
  have hmem : (⟨a, M.reach a r.evolve r.time (M.stepSize r.evolve),
      M.evolve a (M.reach a r.evolve r.time (M.stepSize r.evolve)) (R.down (r.time + M.stepSize r.evolve)),
      M.volume (M.evolve a (M.reach a r.evolve r.time (M.stepSize r.evolve))
        (R.down (r.time + M.stepSize r.evolve)))⟩ : Cand F G K) ∈ cands R M r := List.mem_map.2 ⟨a, ha, rfl⟩
  obtain ⟨g, hg⟩ := C82_reach first (cands R M r) ⟨_, hmem, har, hvol _⟩
  obtain ⟨c, hc, hb, he, -⟩ := C82_best first (cands R M r) ⟨_, hmem, hvol _⟩
  obtain ⟨lc, hlc⟩ := recondition_state M freq c.evolve
    (updateWithBest M.sort r.state (select first (cands R M r)).1)
  obtain ⟨s', hs', -⟩ := C82_progress hsort hr (select first (cands R M r)).1 lc
  rw [← hlc] at hs'
  refine Option.isSome_iff_exists.1 ?_
  unfold orbitStep
  rw [hfirst]
  show ((select first (cands R M r)).2.1.bind fun g => (select first (cands R M r)).2.2.bind fun f => _).isSome = true
  rw [hg, Option.bind_some, he, Option.bind_some]
  show ((nextStep (recondition M freq c.evolve
    (updateWithBest M.sort r.state (select first (cands R M r)).1)).2).map _).isSome = true
  rw [hs']
  rfl

/-- What holds for a run along the solution `x`. -/
structure RunInv {X : Type*} (pts : F → Set X) (tube : G → K → Set X) (x : K → X) (r : Run F G K) : Prop where
  evolve : x r.time ∈ pts r.evolve
  reached : r.time = 0 ∨ ∀ s, 0 ≤ s → s ≤ r.time → ∃ p ∈ r.reached, p.1 ≤ s ∧ s ≤ p.2.1 ∧ x s ∈ tube p.2.2 s
  intermediate : ∀ p ∈ r.intermediate, x p.1 ∈ pts p.2

/-- The parts of a step are correct for the solution `x`: if a set has the solution at the start of a step, then the
evolved set of any approximation has the solution at the end of the step, and the reached set of a rigorous
approximation has it in between; and simplification gives larger sets. -/
structure Sound {X : Type*} (R : Rounding K) (M : Method F G K) (pts : F → Set X) (tube : G → K → Set X)
    (x : K → X) : Prop where
  evolve : ∀ a f t, x t ∈ pts f → x (R.down (t + M.stepSize f)) ∈
    pts (M.evolve a (M.reach a f t (M.stepSize f)) (R.down (t + M.stepSize f)))
  reach : ∀ a f t, a.rigorous = true → x t ∈ pts f → ∀ s, t ≤ s → s ≤ R.down (t + M.stepSize f) →
    x s ∈ tube (M.reach a f t (M.stepSize f)) s
  reduce : ∀ s f, pts f ⊆ pts (M.reduce s f)
  incorporate : ∀ f, pts f ⊆ pts (M.incorporate f)

section
variable {X : Type*} {R : Rounding K} {M : Method F G K} {pts : F → Set X} {tube : G → K → Set X} {x : K → X}

theorem RunInv.step (hM : Sound R M pts tube x) {freq : ℕ} {r r' : Run F G K} (hr : RunInv pts tube x r)
    (h : orbitStep R M freq r = some r') : RunInv pts tube x r' := by
  obtain ⟨first, g, f, s', h1, h2, h3, h4, rfl⟩ := orbitStep_some h
  obtain ⟨c, hc, hcr, rfl⟩ := C82_reach_rigorous first (cands R M r) h2
  obtain ⟨a, ha, rfl⟩ := List.mem_map.1 hc
  have hf : ∃ c ∈ cands R M r, c.evolve = f := by
    rcases (selInv first (cands R M r)).evolve with ⟨he, -⟩ | ⟨c, hc, -, he, -⟩
    · have : (select first (cands R M r)).2.2 = none := he
      rw [this] at h3
      exact absurd h3 (by simp)
    · have : (select first (cands R M r)).2.2 = some c.evolve := he
      rw [this] at h3
      exact ⟨c, hc, Option.some.inj h3⟩
  obtain ⟨c', hc', rfl⟩ := hf
  obtain ⟨b, hb, rfl⟩ := List.mem_map.1 hc'
  have hin := hM.evolve b r.evolve r.time hr.evolve
  have hrec : x (R.down (r.time + M.stepSize r.evolve)) ∈ pts (recondition M freq
      (M.evolve b (M.reach b r.evolve r.time (M.stepSize r.evolve)) (R.down (r.time + M.stepSize r.evolve)))
      (updateWithBest M.sort r.state (select first (cands R M r)).1)).1 := by
    unfold recondition
    split_ifs
    · exact hM.incorporate _ (hM.reduce _ _ hin)
    · exact hM.incorporate _ hin
  have hre := hM.reach a r.evolve r.time hcr hr.evolve
  refine ⟨hrec, Or.inr ?_, ?_⟩
  · intro s hs0 hs
    have hnew : r.time ≤ s → ∃ p ∈ r.reached ++ [(r.time, R.down (r.time + M.stepSize r.evolve),
        M.reach a r.evolve r.time (M.stepSize r.evolve))], p.1 ≤ s ∧ s ≤ p.2.1 ∧ x s ∈ tube p.2.2 s :=
      fun hle => ⟨_, List.mem_append_right _ (List.mem_singleton.2 rfl), hle, hs, hre s hle hs⟩
    rcases hr.reached with h0 | hall
    · exact hnew (by rw [h0]; exact hs0)
    · rcases le_total s r.time with hle | hle
      · obtain ⟨p, hp, hp'⟩ := hall s hs0 hle
        exact ⟨p, List.mem_append_left _ hp, hp'⟩
      · exact hnew hle
  · intro p hp
    rcases List.mem_append.1 hp with hp | hp
    · exact hr.intermediate p hp
    · rw [List.mem_singleton] at hp
      subst hp
      exact hrec

theorem RunInv.loop (hM : Sound R M pts tube x) {freq : ℕ} {tmax : K} (n : ℕ) {r r' : Run F G K}
    (hr : RunInv pts tube x r) (h : orbitLoop R M freq tmax n r = some r') :
    RunInv pts tube x r' ∧ R.down tmax ≤ r'.time := by
  induction n generalizing r with
  | zero => simp [orbitLoop] at h
  | succ n ih =>
    unfold orbitLoop at h
    by_cases hlt : r.time < R.down tmax
    · rw [if_pos hlt] at h
      obtain ⟨r1, h1, h2⟩ := Option.bind_eq_some_iff.1 h
      exact ih (hr.step hM h1) h2
    · rw [if_neg hlt] at h
      obtain rfl := Option.some.inj h
      exact ⟨hr, le_of_not_gt hlt⟩

/-- **C83** (orbits).  If the parts of a step are correct, then the final set has the solution at the final time, the
intermediate sets have it at their times, and at any time of the evolution the solution is in a reached set for that
time. -/
theorem C83_orbit_partial (hM : Sound R M pts tube x) {freq : ℕ} {as : List Kind} {tmax : K} {f : F} {n : ℕ}
    {r : Run F G K} (h0 : x 0 ∈ pts f) (h : orbit R M freq as tmax f n = some r) :
    R.down tmax ≤ r.time ∧ x r.time ∈ pts r.evolve ∧ (∀ p ∈ r.intermediate, x p.1 ∈ pts p.2) ∧
      (0 < R.down tmax → ∀ s, 0 ≤ s → s ≤ r.time →
        ∃ p ∈ r.reached, p.1 ≤ s ∧ s ≤ p.2.1 ∧ x s ∈ tube p.2.2 s) := by
  have hinit : RunInv pts tube x (⟨0, f, init as, [], []⟩ : Run F G K) :=
    ⟨h0, Or.inl rfl, by simp⟩
  obtain ⟨h1, h2⟩ := hinit.loop hM n h
  refine ⟨h2, h1.evolve, h1.intermediate, fun hpos => ?_⟩
  rcases h1.reached with h3 | h3
  · exact absurd (hpos.trans_le h2) (by rw [h3]; exact lt_irrefl _)
  · exact h3

end

/-! ### Times -/

theorem time_loop {R : Rounding K} {M : Method F G K} {freq : ℕ} {tmax H : K} (hH : ∀ f, M.stepSize f ≤ H) (n : ℕ)
    {r r' : Run F G K} (hr : r.time < tmax + H) (h : orbitLoop R M freq tmax n r = some r') :
    r'.time < tmax + H := by
  induction n generalizing r with
  | zero => simp [orbitLoop] at h
  | succ n ih =>
    unfold orbitLoop at h
    by_cases hlt : r.time < R.down tmax
    · rw [if_pos hlt] at h
      obtain ⟨r1, h1, h2⟩ := Option.bind_eq_some_iff.1 h
      refine ih ?_ h2
      obtain ⟨first, g, f, s', -, -, -, -, rfl⟩ := orbitStep_some h1
      have e1 := R.down_le (r.time + M.stepSize r.evolve)
      have e2 := R.down_le tmax
      have e3 := hH r.evolve
      show R.down _ < _
      linarith
    · rw [if_neg hlt] at h
      obtain rfl := Option.some.inj h
      exact hr

/-- **C83** (final time).  The evolution goes beyond the given time by less than a step. -/
theorem C83_final_time {R : Rounding K} {M : Method F G K} {freq : ℕ} {as : List Kind} {tmax H : K} {f : F} {n : ℕ}
    {r : Run F G K} (hH : ∀ f, M.stepSize f ≤ H) (h0 : 0 < tmax + H) (h : orbit R M freq as tmax f n = some r) :
    R.down tmax ≤ r.time ∧ r.time < tmax + H := by
  refine ⟨?_, time_loop hH n h0 h⟩
  have : ∀ n (r r' : Run F G K), orbitLoop R M freq tmax n r = some r' → R.down tmax ≤ r'.time := by
    intro n
    induction n with
    | zero => intro r r' h; simp [orbitLoop] at h
    | succ n ih =>
      intro r r' h
      unfold orbitLoop at h
      by_cases hlt : r.time < R.down tmax
      · rw [if_pos hlt] at h
        obtain ⟨r1, h1, h2⟩ := Option.bind_eq_some_iff.1 h
        exact ih r1 r' h2
      · rw [if_neg hlt] at h
        obtain rfl := Option.some.inj h
        exact le_of_not_gt hlt
  exact this n _ _ h

/-- **C83** (no progress).  If the time does not change when a step size is added and rounded, then the evolution does not
terminate. -/
theorem C83_stuck {R : Rounding K} {M : Method F G K} {freq : ℕ} {tmax : K} {r : Run F G K}
    (ht : r.time < R.down tmax) (hst : ∀ f, R.down (r.time + M.stepSize f) = r.time) (n : ℕ) :
    orbitLoop R M freq tmax n r = none := by
  induction n generalizing r with
  | zero => rfl
  | succ n ih =>
    unfold orbitLoop
    rw [if_pos ht]
    cases h : orbitStep R M freq r with
    | none => rfl
    | some r' =>
      rw [Option.bind_some]
      have htime : r'.time = r.time := by
        obtain ⟨first, g, f, s', -, -, -, -, rfl⟩ := orbitStep_some h
        exact hst _
      exact ih (by rw [htime]; exact ht) (by rw [htime]; exact hst)

/-- **C83** (progress).  If every step adds at least `δ` to the time, and the volumes are less than infinity, then the
evolution terminates. -/
theorem C83_terminates {R : Rounding K} {M : Method F G K} (hsort : Sorts M.sort)
    (hvol : ∀ f, Ext.lt (M.volume f) .pinf = true) (freq : ℕ) (as : List Kind) {tmax δ : K} (f : F)
    (hδ : ∀ t f, 0 ≤ t → t < R.down tmax → t + δ ≤ R.down (t + M.stepSize f)) (hpos : 0 ≤ δ) {n : ℕ}
    (hn : R.down tmax ≤ n * δ) : ∃ r, orbit R M freq as tmax f (n + 1) = some r := by
  have key : ∀ (k : ℕ) (r : Run F G K), Reachable M.sort as r.state → 0 ≤ r.time → R.down tmax ≤ r.time + k * δ →
      ∃ r', orbitLoop R M freq tmax (k + 1) r = some r' := by
    intro k
    induction k with
    | zero =>
      intro r _ _ hle
      refine ⟨r, ?_⟩
      unfold orbitLoop
      rw [if_neg (by simpa using hle)]
    | succ k ih =>
      intro r hr h0 hle
      unfold orbitLoop
      by_cases hlt : r.time < R.down tmax
      · rw [if_pos hlt]
        obtain ⟨r1, h1⟩ := C83_step (R := R) hsort hvol freq hr
        have hround := orbitStep_round h1
        rw [h1, Option.bind_some]
        have htime : r.time + δ ≤ r1.time := by
          obtain ⟨first, g, f, s', -, -, -, -, rfl⟩ := orbitStep_some h1
          exact hδ _ _ h0 hlt
        refine ih r1 (hr.round hround) (by linarith) ?_
        push_cast at hle
        nlinarith
      · rw [if_neg hlt]
        exact ⟨r, rfl⟩
  exact key n _ .init le_rfl (by rw [zero_add]; exact hn)

end Verif.InclusionEvolver
