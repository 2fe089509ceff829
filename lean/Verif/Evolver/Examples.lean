import Verif.Evolver.Props
import Verif.Enclosure.Examples

/-!
# Property C73: further counterexamples and concrete cases
-/

namespace Verif.Evolver

open Ariadne Ariadne.Logical Verif.ConstraintSolver Verif.Enclosure
open Ariadne.Ext (fin)

/-! ## Counterexamples -/

section General

variable {m : ℕ} {K : Type*} [Field K] [LinearOrder K] [IsStrictOrderedRing K]

/-- **C73, negative**: an exception raised for one set, for instance because it cannot be split, means that the
computation of the orbit does not complete, for any schedule. -/
theorem C73_exception {S I : Type*} {proc : I → Option (List (Action S I))} {s₀ s : WState S I} {x : I}
    (hx : x ∈ s₀.work) (hp : proc x = none) (h : Steps proc s₀ s) : ¬s.Done := by
  intro hd
  let G : Goal S I := ⟨fun i _ => proc i = none, fun _ _ => False, fun _ _ => False⟩
  have hG : G.Mono := ⟨fun _ h => h, fun _ h => h, fun _ h => h⟩
  rcases G.steps hG (proc := proc) (fun i as P h1 h2 => by rw [show proc i = none from h2] at h1; cases h1)
    (Or.inl ⟨x, hx, hp⟩) h with ⟨x, hx, -⟩ | ⟨x, hx, -⟩ | ⟨x, hx, h⟩ | ⟨x, hx, h⟩
  · rw [hd.1] at hx; cases hx
  · rw [hd.2] at hx; cases hx
  · exact h
  · exact h

/-- **C73, negative**: if the evolution time is zero then `reach()` is empty: not even the initial set is in it. -/
theorem C73_zero_time {R : Rounding K} {τ : Tools m K} (hτ : τ.Ok R) {flowStep : Box m K → Flow m K} {reached : K → Bool}
    (hr : reached 0 = true) {n : ℕ} {E : Encl n m K} (hE : Enclosure.Inv R E) {fuel : ℕ} {s₀ s}
    (h : τ.fieldInit fuel E = some s₀) (hs : Steps (τ.field flowStep reached) s₀ s) : s.orbit.reach = [] := by
  let V : Inv (ESet m K) (K × ESet m K) := ⟨fun x => x.1 = 0, fun _ => False, fun _ => True, fun _ => True, fun _ => True⟩
  have hV : V.Holds s := by
    refine V.steps (proc := τ.field flowStep reached) ?_ ?_ hs
    · rintro ⟨t, F⟩ as hx h1 a ha
      have h1 : t = 0 := h1
      rw [Tools.field, if_pos (by rw [h1]; exact hr)] at hx
      obtain rfl := Option.some.inj hx
      rw [List.mem_singleton.1 ha]
      exact trivial
    · obtain ⟨w, hw, rfl⟩ := Option.map_eq_some_iff.1 h
      exact ⟨fun x hx => ((appendInitial_covers hτ fuel hE hw).1 x hx).2.1, by simp, by simp [Orbit.none],
        by simp [Orbit.none], by simp [Orbit.none], by simp [Orbit.none]⟩
  exact List.eq_nil_iff_forall_not_mem.2 fun x hx => hV.reach x hx

end General

/-! ## Concrete cases -/

/-- Half of the width. -/
def radQ : Bounds ℚ → Ext ℚ
  | ⟨fin a, fin b⟩ => fin ((b - a) / 2)
  | _ => .pinf

def radF : Bounds ℚ → ℚ
  | ⟨fin a, fin b⟩ => (b - a) / 2
  | _ => 1

/-- Exact operations. -/
noncomputable def tools (maximumRadius : ℚ) (upper reconditioning : Bool) : Tools 1 ℚ where
  X := XE ℚ
  C := real ℚ
  up := id
  rad := radF
  full := false
  radius B := radQ (B 0)
  kuhn E := E
  errorTolerance := 1 / 8
  maximumRadius := maximumRadius
  maximumError := 1 / 100
  reconditioning := reconditioning
  subdivisions := false
  premature := true
  upper := upper

theorem tools_ok (r : ℚ) (u c : Bool) : (tools r u c).Ok TaylorModel.exactRounding where
  round := rfl
  sound := real_sound
  kuhn _ _ h := h
  kuhn_inv _ h := h

theorem start_inv : Enclosure.Inv TaylorModel.exactRounding start := C72_made real_sound (.box _ (side_good (by norm_num)))

/-- The integrator for `ẋ=1`. -/
noncomputable def unit (_ : Box 1 ℚ) : Flow 1 ℚ := unitFlow

/-- The flow of `ẋ=1`. -/
def shift (t : ℚ) (x : Fin 1 → ℚ) : Fin 1 → ℚ := fun _ => x 0 + t

theorem unit_follows (x : Fin 1 → ℚ) : Follows unit fun t => shift t x where
  pos _ := one_pos
  has _ s _ _ r _ _ i := (unitFlow_has _ _ _ i).2 (by simp only [shift]; ring)

theorem shift_flow : IsFlow shift where
  zero x := by funext i; rw [Subsingleton.elim i 0]; simp [shift]
  add s t x _ _ := by funext i; simp only [shift]; ring

theorem unit_exact : FlowExact unit shift where
  pos _ := one_pos
  t0 _ := one_pos
  has _ x _ r _ _ i y := unitFlow_has x r y i

/-- The test for the evolution time `1/2`. -/
def half (t : ℚ) : Bool := decide (1 / 2 ≤ t)

/-- The initial set `[0,1]` is taken whole, or in two or in four parts. -/
example :
    ((tools 1 true false).appendInitial 3 start).map List.length = some 1 ∧
    ((tools (1 / 4) true false).appendInitial 3 start).map List.length = some 2 ∧
    ((tools (1 / 8) true false).appendInitial 3 start).map List.length = some 4 ∧
    ((tools (1 / 16) true false).appendInitial 3 start).map List.length = none := by
  refine ⟨?_, ?_, ?_, ?_⟩ <;> decide +kernel

/-- The state before the threads start. -/
noncomputable def init : WState (ESet 1 ℚ) (ℚ × ESet 1 ℚ) := ⟨[(0, ⟨1, start⟩)], [], Orbit.none⟩

theorem init_eq (u c : Bool) : (tools 1 u c).fieldInit 1 start = some init := by
  have h : (tools 1 u c).tooLarge ⟨1, start⟩ = false := by cases u <;> cases c <;> decide +kernel
  rw [Tools.fieldInit, Tools.appendInitial, h]
  rfl

/-- The orbit for the evolution time `1/2`. -/
theorem half_run : Steps ((tools 1 true false).field unit half) init
    ⟨[], [], ⟨[⟨2, start.applyFullReachStep (real ℚ) unitFlow⟩], [⟨1, after⟩], [⟨1, after⟩], []⟩⟩ := by
  have h0 : half 0 = false := by decide +kernel
  have h1 : half (0 + 1) = true := by decide +kernel
  have e1 : (tools 1 true false).field unit half (0, ⟨1, start⟩) =
      some [.reach ⟨2, start.applyFullReachStep (real ℚ) unitFlow⟩, .inter ⟨1, after⟩, .push (0 + 1, ⟨1, after⟩)] := by
    rw [Tools.field]
    simp only [h0]
    rfl
  have e2 : (tools 1 true false).field unit half (0 + 1, ⟨1, after⟩) = some [.final ⟨1, after⟩] := by
    rw [Tools.field]
    simp only [h1]
    rfl
  refine loop_steps 3 (s := (init.work, init.orbit)) ?_
  simp only [loop, init, List.getLast?_singleton, e1, Option.bind_some, List.dropLast_singleton]
  simp only [runActions, List.foldl_cons, List.foldl_nil, Action.run, Orbit.none, List.nil_append, List.getLast?_singleton, e2,
    Option.bind_some, List.dropLast_singleton, List.getLast?_nil]

/-- **C73, negative**: the final set is not the set at the evolution time.  For `ẋ=1` with steps of size one, from
`[0,1]` with evolution time `1/2`, every schedule gives a final set at time one, and states up to time one are in
`reach()`. -/
theorem C73_overshoot :
    (∃ s, Steps ((tools 1 true false).field unit half) init s ∧ s.Done) ∧
    ∀ s, Steps ((tools 1 true false).field unit half) init s → s.Done →
      (∃ e, e ∈ s.orbit.final) ∧ (∀ e ∈ s.orbit.final, ∀ q ∈ e.2.pts, q.2.1 = 1 ∧ 1 ≤ q.1 0) ∧
      ∃ e ∈ s.orbit.reach, ∃ q ∈ e.2.pts, q.1 0 = 2 ∧ q.2.1 = 1 := by
  refine ⟨⟨_, half_run, rfl, rfl⟩, fun s hs hd => ?_⟩
  have hp := C73_schedule hs half_run hd ⟨rfl, rfl⟩
  refine ⟨⟨⟨1, after⟩, hp.final.mem_iff.2 (by simp)⟩, fun e he q hq => ?_,
    ⟨2, start.applyFullReachStep (real ℚ) unitFlow⟩, hp.reach.mem_iff.2 (by simp), (fun _ => 2, 0 + 1, 1), ?_, rfl, by norm_num⟩
  · obtain rfl := List.mem_singleton.1 (hp.final.mem_iff.1 he)
    have hq : q ∈ after.pts := hq
    rw [after_pts] at hq
    exact ⟨hq.2.1, (mem_side.1 hq.1).1⟩
  · refine C72_full_reach real_sound unitFlow (fun _ => 1, 0, 0) ?_ 1 zero_le_one le_rfl _ fun i => ?_
    · rw [start_pts]
      exact ⟨mem_side.2 ⟨by norm_num, le_rfl⟩, rfl, rfl⟩
    · exact (unitFlow_has _ _ _ i).2 (by norm_num)

/-- The hypotheses of the main theorems hold for this case. -/
example (x : Fin 1 → ℚ) (hx : Mem (side 0 1) x) (s) (hs : Steps ((tools 1 true false).field unit half) init s) (hd : s.Done) :
    (∀ r, 0 ≤ r → r ≤ 1 / 2 → Covered (fun t => shift t x) 0 s.orbit.reach r) ∧
      ∃ t, 1 / 2 ≤ t ∧ Covered (fun t => shift t x) 0 s.orbit.final t := by
  refine C73_field_orbit (tools_ok _ _ _) rfl start_inv (init_eq _ _) hs hd (by norm_num)
    (fun t ht => of_decide_eq_true ht) (unit_follows x) (d := 0) ?_
  rw [start_pts, shift_flow.zero]
  exact ⟨hx, rfl, rfl⟩

example (s) (hs : Steps ((tools 1 true false).field unit half) init s) :
    ∀ e ∈ s.orbit.final, ∃ t, 0 ≤ t ∧ half t = true ∧ From shift start t e.2 :=
  (C73_field_exact (tools_ok _ _ _) real_exact rfl shift_flow unit_exact start_inv (ofBox_fun _) (init_eq _ _) hs).2.2

example : ∃ k, ∀ j s, StepsN ((tools 1 true false).field unit half) j init s →
    j ≤ k ∧ (j = k → s.Done) ∧ ∃ s', StepsN ((tools 1 true false).field unit half) (k - j) s s' ∧ s'.Done :=
  C73_field_terminates (T' := 1 / 2) (h₀ := 1) (N := 1) rfl rfl (fun _ h => decide_eq_true h) (fun _ => le_rfl) (by norm_num)
    (tools_ok 1 true false) start_inv (init_eq _ _)

/-- A set with error `1/10`. -/
noncomputable def fuzzy : Encl 1 1 ℚ := { start with fn := fun _ => widenP (1 / 10) idP }

theorem fuzzy_error (i : Fin 1) : (real ℚ).error (fuzzy.fn i) = 1 / 10 := by
  have h : Tube (widenP (1 / 10) idP) (fun p => p 0) (1 / 10) := by
    refine ⟨by norm_num, fun p y => ⟨?_, fun h => ⟨p 0, rfl, h⟩⟩⟩
    rintro ⟨z, hz, h⟩
    have hz : z = p 0 := hz
    rw [hz] at h
    exact h
  show errorP (widenP (1 / 10) idP) = 1 / 10
  rw [errorP, tubeOf_of h]
  rfl

/-- The evolution of this set never ends if reconditioning is enabled. -/
example (s) (hs : Steps ((tools 1 true true).field unit half) ⟨[(0, ⟨1, fuzzy⟩)], [], Orbit.none⟩ s) : ¬s.Done := by
  refine C73_recondition_loops (t := 0) (E := ⟨1, fuzzy⟩) real_sound (fun _ => rfl) rfl rfl rfl (by decide +kernel) hs (by simp) ?_ ?_
  · intro i
    show (real ℚ).error (fuzzy.fn i) ≤ 1 / 8
    rw [fuzzy_error]; norm_num
  · show (1 / 100 : ℚ) < (List.finRange 1).foldl (fun s i => max s ((real ℚ).error (fuzzy.fn i))) 0
    simp only [fuzzy_error]
    norm_num [List.finRange]

/-- A single point with a large error cannot be split. -/
noncomputable def blob : Encl 1 1 ℚ := { ofBox (real ℚ) (side 0 0) with fn := fun _ => widenP 1 idP }

example : (tools 1 true false).tooLarge ⟨1, blob⟩ = true ∧ ((tools 1 true false).subdivide ⟨1, blob⟩).isSome = false ∧
    ((tools (1 / 4) true false).subdivide ⟨1, start⟩).map List.length = some 2 := by
  refine ⟨?_, ?_, ?_⟩ <;> decide +kernel

/-! ## Maps -/

/-- The map `x ↦ 2x`. -/
noncomputable def double (_ : Fin 1) : Patch 1 ℚ := (real ℚ).add idP idP

theorem double_has (i : Fin 1) (x : Fin 1 → ℚ) (y : ℚ) : (double i).has x y ↔ y = 2 * x 0 := by
  constructor
  · rintro ⟨a, b, ha, hb, e⟩
    have ha : a = x 0 := ha
    have hb : b = x 0 := hb
    rw [e, ha, hb]; ring
  · intro h
    exact ⟨x 0, x 0, rfl, rfl, by rw [h]; ring⟩

/-- Three iterations of the doubling map; with lower semantics the set `[0,4]` is given up. -/
example :
    ((tools 1 true false).mapOrbit double 3 5 ⟨1, start⟩).map (fun o => (o.reach.length, o.final.length, o.dropped.length)) =
      some (3, 1, 0) ∧
    ((tools 1 false false).mapOrbit double 3 5 ⟨1, start⟩).map (fun o => (o.reach.length, o.final.length, o.dropped.length)) =
      some (2, 0, 1) := by
  constructor <;> decide +kernel

example (o) (h : (tools 1 true false).mapOrbit double 3 5 ⟨1, start⟩ = some o) :
    CoveredAt (fun k _ => 2 ^ k * (1 / 2)) 0 o.final 3 ∧ ∀ j, 1 ≤ j → j ≤ 3 → CoveredAt (fun k _ => 2 ^ k * (1 / 2)) 0 o.reach j := by
  refine C73_map_orbit (T := 3) (tools_ok _ _ _) (Or.inl rfl) start_inv h (fun k i => (double_has _ _ _).2 (by rw [pow_succ]; ring)) (d := 0) ?_
  show _ ∈ start.pts
  rw [start_pts]
  exact ⟨mem_side.2 ⟨by norm_num, by norm_num⟩, rfl, rfl⟩

/-- **C73, negative**: the initial set is not in `reach()` of the orbit of a map. -/
theorem C73_map_reach_lacks_start {o} {T : ℕ} {fuel : ℕ} {u c : Bool} {r : ℚ}
    (h : (tools r u c).mapOrbit double T fuel ⟨1, start⟩ = some o) (e) (he : e ∈ o.reach) (q) (hq : q ∈ e.2.pts) : 1 ≤ q.2.1 := by
  have hx := (C73_map_exact (tools_ok r u c) real_exact (f := double) (g := fun x _ => 2 * x 0) double_has
    (E := ⟨1, start⟩) start_inv (ofBox_fun _) h).1 e he q hq
  obtain ⟨p, hp, k, h1, -, -, h2⟩ := hx
  have hp : p ∈ start.pts := hp
  rw [start_pts] at hp
  rw [h2, hp.2.1, zero_add]
  exact_mod_cast h1

end Verif.Evolver
