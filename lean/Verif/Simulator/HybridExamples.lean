import Verif.Simulator.HybridOrbit
import Verif.Hybrid.CompositeFunctions
import Mathlib.Data.Rat.Floor

/-!
# C101: invariants in the simulator, and examples

`_satisfies_invariants` (`hybrid_simulator.cpp` line 83) asks for the guard function of an invariant.
-/

namespace Verif.Simulator.Hybrid

open Verif.Hybrid Verif.Container Ariadne.Symbolic

section Invariants

variable {N κ ν V ε : Type*} [LinearOrder N] [LinearOrder κ] [LinearOrder ν] [LinearOrder V] [LinearOrder ε]

/-- The value of a formula at a point (`evaluate`, line 178), and 0 where it is not defined. -/
noncomputable def value (f : Expr ℕ) (x : ℕ → ℝ) : ℝ := (f.eval x).getD 0

/-- A `HybridAutomaton` as seen by the simulator (hybrid_automaton.cpp lines 738-782); the targets, resets and flows are any. -/
noncomputable def automatonSys (A : Automaton κ ν V ε (Expr V) (KExpr V)) (target : Loc κ ν → ε → Option (Loc κ ν))
    (reset : Loc κ ν → ε → Option ((ℕ → ℝ) → ℕ → ℝ)) (flow : Loc κ ν → Option ((ℕ → ℝ) → ℕ → ℝ)) :
    Sys (Loc κ ν) ε (ℕ → ℝ) ℝ :=
  ⟨events A, eventKind A, fun l e => ((modeOf A l).bind fun m => Mode.guardFunction m e).map value, target, reset, flow⟩

/-- A `CompositeHybridAutomaton` as seen by the simulator (hybrid_automaton-composite.cpp lines 278-289 and 469-475). -/
noncomputable def compositeSys (o : K3 → K3 → Bool) (C : SComposite N κ ν V ε) (target : Loc κ ν → ε → Option (Loc κ ν))
    (reset : Loc κ ν → ε → Option ((ℕ → ℝ) → ℕ → ℝ)) (flow : Loc κ ν → Option ((ℕ → ℝ) → ℕ → ℝ)) :
    Sys (Loc κ ν) ε (ℕ → ℝ) ℝ :=
  ⟨cEvents C, cEventKind C, fun l e => (cGuardFunction o C l e).map value, target, reset, flow⟩

/-- No step is simulated in a location of a hybrid automaton with an invariant, even where the invariant holds: the mode has no
guard for its event, so the simulation throws. -/
theorem C101_invariant_fails (A : Automaton κ ν V ε (Expr V) (KExpr V)) (target : Loc κ ν → ε → Option (Loc κ ν))
    (reset : Loc κ ν → ε → Option ((ℕ → ℝ) → ℕ → ℝ)) (flow : Loc κ ν → Option ((ℕ → ℝ) → ℕ → ℝ)) {l : Loc κ ν}
    {m : SMode κ ν V ε} (hm : modeOf A l = some m) {e : ε} {p : KExpr V} (hi : (e, p) ∈ m.invs)
    (hg : find e m.guards = none) (before : ℝ → Bool) (nmax : ℤ) (term : ε → Bool) (h : ℝ) (fuel : ℕ) (x : ℕ → ℝ) :
    (simulate (automatonSys A target reset flow) before nmax term h fuel l x).1 = [] := by
  have hna : ∀ x, ¬ Allowed (automatonSys A target reset flow) l x := by
    rintro x ⟨es, hes, hall⟩
    have hev : es = m.events := by
      have : events A l = some es := hes
      rw [events, hm] at this
      exact (Option.some.inj this).symm
    have hmem : e ∈ es := by
      rw [hev]
      unfold Mode.events
      rw [mem_adjoin, mem_adjoin]
      exact Or.inl (Or.inl (((keys_spec m.invs).2 e).2 ⟨p, hi⟩))
    obtain ⟨k, g, _, hgf, _⟩ := hall e hmem
    have hgf' : ((modeOf A l).bind fun m => Mode.guardFunction m e).map value = some g := hgf
    rw [hm, Option.bind_some, Mode.guardFunction, hg] at hgf'
    simp at hgf'
  unfold simulate
  cases (automatonSys A target reset flow).flow l with
  | none => rfl
  | some f =>
    cases guards (automatonSys A target reset flow) l with
    | none => rfl
    | some gs =>
      dsimp only
      obtain ⟨_, h2, _⟩ := C101_execution (automatonSys A target reset flow) before nmax term h fuel ⟨l, x, 0, 0, none⟩ _ _ rfl
      cases hw : (run (automatonSys A target reset flow) before nmax term h fuel ⟨l, x, 0, 0, none⟩).1 with
      | nil => rfl
      | cons b w =>
        rw [hw] at h2
        exact absurd (h2 ⟨l, x, 0, 0, none⟩ (by simp)).2.2.2 (hna x)

theorem substList_cst (c : ℝ) (as : List (V × Expr V)) : (Expr.cst c : Expr V).substList as = Expr.cst c := by
  unfold Expr.substList
  induction as with
  | nil => rfl
  | cons a as ih =>
    rw [List.foldl_cons]
    exact ih

/-- In a composition the guard function of an event without guards is the constant one. -/
theorem composite_guard {o : K3 → K3 → Bool} (ho : o .tt .tt = true) {C : SComposite N κ ν V ε} {l : Loc κ ν} {e : ε}
    (hg : ∀ c ∈ C, ∃ m, modeOf c.2 l = some m ∧ find e m.guards = none) (hs : (cSpace C l).isSome) (ha : (cAuxiliary C l).isSome) :
    cGuardFunction o C l e = some (Expr.cst 1) := by
  obtain ⟨sp, hsp⟩ := Option.isSome_iff_exists.1 hs
  obtain ⟨au, hau⟩ := Option.isSome_iff_exists.1 ha
  have hp : cGuardPredicate (cexprLang o) C l e = some (.const .tt) := by
    unfold cGuardPredicate
    change cPredicateLoop (cexprLang o) _ C (.const .tt) = _
    clear hs ha hsp hau
    induction C with
    | nil => rfl
    | cons c C ih =>
      obtain ⟨m, hm, hf⟩ := hg c List.mem_cons_self
      rw [cPredicateLoop]
      have : guardPredicate (cexprLang o).toLang c.2 l e = some (.const .tt) := by
        rw [guardPredicate, hm, Option.map_some, hf]
        rfl
      simp only [this]
      have hc : conjoin (cexprLang o : CLang V (Expr V) (KExpr V)) (.const .tt) (.const .tt) = .const .tt := by
        unfold conjoin
        split_ifs <;> first | rfl | simp_all [cexprLang, KExpr.isConst]
      rw [hc]
      exact ih fun d hd => hg d (List.mem_cons_of_mem _ hd)
  rw [cGuardFunction, hsp, Option.bind_some, hau, Option.bind_some, hp, Option.bind_some, makeConstraint]
  simp only [KExpr.indicator, Option.bind_some, if_true, substList_cst]
  rfl

/-- Invariants of a composite automaton are ignored: every point is allowed, whatever the invariants are, if the events of
invariants have no guards. -/
theorem C101_composite_ignores_invariants {o : K3 → K3 → Bool} (ho : o .tt .tt = true) (C : SComposite N κ ν V ε)
    (target : Loc κ ν → ε → Option (Loc κ ν)) (reset : Loc κ ν → ε → Option ((ℕ → ℝ) → ℕ → ℝ))
    (flow : Loc κ ν → Option ((ℕ → ℝ) → ℕ → ℝ)) {l : Loc κ ν} {es : List ε} (hes : cEvents C l = some es)
    (hs : (cSpace C l).isSome) (ha : (cAuxiliary C l).isSome)
    (he : ∀ e ∈ es, ∃ k, cEventKind C l e = some k ∧
      ((k = .invariant ∨ k = .progress) ∧ (∀ c ∈ C, ∃ m, modeOf c.2 l = some m ∧ find e m.guards = none) ∨
       (k ≠ .invariant ∧ k ≠ .progress) ∧ (cGuardFunction o C l e).isSome)) (x : ℕ → ℝ) :
    Allowed (compositeSys o C target reset flow) l x := by
  refine ⟨es, hes, fun e hee => ?_⟩
  obtain ⟨k, hk, ⟨hb, hg⟩ | ⟨hb, hg⟩⟩ := he e hee
  · refine ⟨k, value (Expr.cst 1), hk, ?_, fun _ => ?_⟩
    · change (cGuardFunction o C l e).map value = _
      rw [composite_guard ho hg hs ha]
      rfl
    · simp [value, Expr.cst, Expr.eval]
  · obtain ⟨f, hf⟩ := Option.isSome_iff_exists.1 hg
    refine ⟨k, value f, hk, ?_, fun hk' => ?_⟩
    · change (cGuardFunction o C l e).map value = _
      rw [hf]
      rfl
    · rcases hk' with hk' | hk'
      · exact absurd hk' hb.1
      · exact absurd hk' hb.2

/-- A mode with the dynamics `x' = 1` and the invariant `x ≤ 1` -/
noncomputable def clockMode : SMode ℕ ℕ ℕ ℕ :=
  ⟨⟨[], by simp [SortedKeys]⟩, [], [], [(0, .cst 1)], [(7, .cmp .leq (.var 0) (.cst 1))], [], [(7, .invariant)], [], []⟩

/-- The automaton with this mode only -/
noncomputable def clockAutomaton : Automaton ℕ ℕ ℕ ℕ (Expr ℕ) (KExpr ℕ) := [(⟨[], by simp [SortedKeys]⟩, clockMode)]

/-- The automaton is what the calls `new_mode` and `new_invariant` build. -/
example : newInvariant (([(⟨[], by simp [SortedKeys]⟩, { clockMode with invs := [], kinds := [] })] :
    Automaton ℕ ℕ ℕ ℕ (Expr ℕ) (KExpr ℕ))) ⟨[], by simp [SortedKeys]⟩ (.cmp .leq (.var 0) (.cst 1)) 7
      = (clockAutomaton, none) := by
  rfl

/-- The invariant `x ≤ 1` holds at `x = 0`, but the simulation does not make a step. -/
example (flow : Loc ℕ ℕ → Option ((ℕ → ℝ) → ℕ → ℝ)) (fuel : ℕ) :
    (simulate (automatonSys clockAutomaton (fun _ _ => none) (fun _ _ => none) flow) (fun t => decide (t < 1)) 5
      (fun _ => false) (1 / 2) fuel ⟨[], by simp [SortedKeys]⟩ (fun _ => 0)).1 = [] :=
  C101_invariant_fails clockAutomaton _ _ _ (m := clockMode) rfl (e := 7) (List.mem_singleton.2 rfl) rfl _ _ _ _ _ _

/-- The composition of this automaton alone has the same invariant, which fails at `x = 2`; but the point is allowed. -/
example (o : K3 → K3 → Bool) (ho : o .tt .tt = true) (flow : Loc ℕ ℕ → Option ((ℕ → ℝ) → ℕ → ℝ)) :
    Allowed (compositeSys o ([(0, clockAutomaton)] : SComposite ℕ ℕ ℕ ℕ ℕ) (fun _ _ => none) (fun _ _ => none) flow)
      ⟨[], by simp [SortedKeys]⟩ (fun _ => 2) := by
  refine C101_composite_ignores_invariants ho _ _ _ _ (es := [7]) rfl rfl rfl (fun e he => ⟨.invariant, ?_, Or.inl ⟨Or.inl rfl, ?_⟩⟩) _
  · rw [List.mem_singleton.1 he]
    rfl
  · intro c hc
    rw [List.mem_singleton.1 hc]
    exact ⟨clockMode, rfl, rfl⟩

end Invariants

section Examples

/-- A saw tooth: `x' = 1` in two locations, changing when `x` is above one -/
def saw : Sys Bool ℕ ℚ ℚ :=
  ⟨fun _ => some [3], fun _ _ => some .urgent, fun _ _ => some fun x => x - 1, fun l _ => some !l, fun _ _ => some fun _ => 0,
    fun _ => some fun x => x + 1 / 2⟩

/-- It is simulated until time 3: three steps of the integrator, an event, and three steps more. -/
example : (simulate saw (fun t => decide (t < 3)) 5 (fun _ => false) (1 / 2) 20 false 0).1.map
    (fun s => (s.loc, s.pt, s.time, s.steps)) =
    [(false, 1 / 2, 1 / 2, 0), (false, 1, 1, 0), (false, 3 / 2, 3 / 2, 0), (true, 0, 3 / 2, 1), (true, 1 / 2, 2, 1),
      (true, 1, 5 / 2, 1), (true, 3 / 2, 3, 1)] := by decide +kernel

example : Total saw := fun l => ⟨[3], rfl, rfl, fun e _ => ⟨.urgent, fun x => x - 1, rfl, rfl, fun _ _ => ⟨rfl, rfl⟩⟩⟩

/-- With the event as a terminating one the simulation ends after it. -/
example : (simulate saw (fun t => decide (t < 3)) 5 (fun e => e == 3) (1 / 2) 20 false 0).1.map
    (fun s => (s.loc, s.pt, s.time, s.steps)) =
    [(false, 1 / 2, 1 / 2, 0), (false, 1, 1, 0), (false, 3 / 2, 3 / 2, 0), (true, 0, 3 / 2, 1)] := by decide +kernel

/-- The orbit has one curve for each location which is visited. -/
example : orbit (fun t : ℚ => t) 0 false 0 (simulate saw (fun t => decide (t < 3)) 5 (fun _ => false) (1 / 2) 20 false 0).1 =
    some [(false, [(0, 0), (1 / 2, 1 / 2), (1, 1), (3 / 2, 3 / 2)]),
      (true, [(3 / 2, 0), (2, 1 / 2), (5 / 2, 1), (3, 3 / 2)])] := by decide +kernel

/-- The rounding of the times must be strictly increasing: states whose times round to the same number are lost. -/
theorem C101_orbit_fails : ∃ o : Curves Bool ℚ ℤ,
    orbit (fun t : ℚ => ⌊t⌋) 0 false 0 (simulate saw (fun t => decide (t < 1)) 5 (fun _ => false) (1 / 2) 20 false 0).1 = some o ∧
    (∃ s ∈ (simulate saw (fun t => decide (t < 1)) 5 (fun _ => false) (1 / 2) 20 false 0).1,
      ∀ c ∈ o, ∀ q ∈ c.2, q.2 ≠ s.pt) := by
  refine ⟨[(false, [(0, 0), (1, 1)])], by decide +kernel, ⟨false, 1 / 2, 1 / 2, 0, none⟩, ?_, by decide +kernel⟩
  have : (simulate saw (fun t => decide (t < 1)) 5 (fun _ => false) (1 / 2) 20 false 0).1 =
      [⟨false, 1 / 2, 1 / 2, 0, none⟩, ⟨false, 1, 1, 0, none⟩] := by decide +kernel
  rw [this]
  simp

/-- The orbit of an empty list of points cannot be constructed. -/
theorem C101_empty_list {L P T : Type*} [LinearOrder T] (zero : T) :
    listOrbit zero ([] : List (L × P)) = none := rfl

/-- A guard which is exactly zero is not taken: the event happens one step late. -/
example : iterate saw (1 / 2) ⟨false, 1, 0, 0, none⟩ = some (some ⟨false, 3 / 2, 1 / 2, 0, none⟩) := by decide +kernel

end Examples

end Verif.Simulator.Hybrid
