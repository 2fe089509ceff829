import Verif.HybridEvolver.Starting

/-!
# C74: orbits of hybrid systems

Every state an execution of the hybrid system reaches is in the orbit, whatever the schedule of the threads.
-/

namespace Verif.HybridEvolver

open Ariadne Ariadne.Logical Verif.ConstraintSolver Verif.Enclosure Verif.Evolver
open Ariadne.Ext (fin)

/-! ## Pursuing one state -/

section aim

variable {S I : Type*}

/-- What is pursued: an item which still has to be processed, or a set in one of the lists of the orbit. -/
structure Aim (S I : Type*) where
  item : I → Prop
  reach : S → Prop
  final : S → Prop
  drop : I → Prop

def Aim.action (A : Aim S I) : Action S I → Prop
  | .push i => A.item i
  | .reach e => A.reach e
  | .final e => A.final e
  | .drop i => A.drop i
  | .inter _ => False

def Aim.Hit (A : Aim S I) (o : Orbit S I) : Prop :=
  (∃ e ∈ o.reach, A.reach e) ∨ (∃ e ∈ o.final, A.final e) ∨ ∃ e ∈ o.dropped, A.drop e

def Aim.Holds (A : Aim S I) (s : WState S I) : Prop :=
  (∃ i ∈ s.work, A.item i) ∨ (∃ as ∈ s.busy, ∃ a ∈ as, A.action a) ∨ A.Hit s.orbit

theorem Aim.hit_mono (A : Aim S I) (a : Action S I) (w : List I) {o : Orbit S I} (h : A.Hit o) : A.Hit (a.run w o).2 := by
  rcases h with ⟨e, he, h⟩ | ⟨e, he, h⟩ | ⟨e, he, h⟩
  · exact Or.inl ⟨e, run_reach_mono a w o e he, h⟩
  · exact Or.inr (Or.inl ⟨e, run_final_mono a w o e he, h⟩)
  · exact Or.inr (Or.inr ⟨e, run_dropped_mono a w o e he, h⟩)

theorem Aim.step {A : Aim S I} {proc : I → Option (List (Action S I))} {s s' : WState S I}
    (hp : ∀ i as, i ∈ s.work → proc i = some as → A.item i → ∃ a ∈ as, A.action a) (hs : A.Holds s)
    (h : Step proc s s') : A.Holds s' := by
  cases h with
  | start l₁ x l₂ b o as h =>
    rcases hs with ⟨i, hi, hg⟩ | ⟨bs, hb, hg⟩ | hs
    · simp only [List.mem_append, List.mem_cons] at hi
      rcases hi with hi | rfl | hi
      · exact Or.inl ⟨i, by simp [hi], hg⟩
      · exact Or.inr (Or.inl ⟨as, by simp, hp _ _ (by simp) h hg⟩)
      · exact Or.inl ⟨i, by simp [hi], hg⟩
    · exact Or.inr (Or.inl ⟨bs, List.mem_cons_of_mem _ hb, hg⟩)
    · exact Or.inr (Or.inr hs)
  | act w b₁ a as b₂ o =>
    rcases hs with ⟨i, hi, hg⟩ | ⟨bs, hb, c, hc, hg⟩ | hs
    · exact Or.inl ⟨i, run_work_mono a w o i hi, hg⟩
    · simp only [List.mem_append, List.mem_cons] at hb
      rcases hb with hb | rfl | hb
      · exact Or.inr (Or.inl ⟨bs, by simp [hb], c, hc, hg⟩)
      · rcases List.mem_cons.1 hc with rfl | hc
        · cases c with
          | push i => exact Or.inl ⟨i, by simp [Action.run], hg⟩
          | reach e => exact Or.inr (Or.inr (Or.inl ⟨e, by simp [Action.run], hg⟩))
          | final e => exact Or.inr (Or.inr (Or.inr (Or.inl ⟨e, by simp [Action.run], hg⟩)))
          | drop e => exact Or.inr (Or.inr (Or.inr (Or.inr ⟨e, by simp [Action.run], hg⟩)))
          | inter e => exact hg.elim
        · exact Or.inr (Or.inl ⟨as, by simp, c, hc, hg⟩)
      · exact Or.inr (Or.inl ⟨bs, by simp [hb], c, hc, hg⟩)
    · exact Or.inr (Or.inr (A.hit_mono a w hs))
  | finish w b₁ b₂ o =>
    rcases hs with hs | ⟨bs, hb, c, hc, hg⟩ | hs
    · exact Or.inl hs
    · simp only [List.mem_append, List.mem_cons] at hb
      rcases hb with hb | rfl | hb
      · exact Or.inr (Or.inl ⟨bs, by simp [hb], c, hc, hg⟩)
      · cases hc
      · exact Or.inr (Or.inl ⟨bs, by simp [hb], c, hc, hg⟩)
    · exact Or.inr (Or.inr hs)

/-- What is pursued is found in the end.  It is enough to look at the items which are processed. -/
theorem Aim.done {A : Aim S I} {proc : I → Option (List (Action S I))} {s s' : WState S I}
    (hp : ∀ i as, (∃ s₁, Steps proc s s₁ ∧ i ∈ s₁.work) → proc i = some as → A.item i → ∃ a ∈ as, A.action a)
    (hs : A.Holds s) (h : Steps proc s s') (hd : s'.Done) : A.Hit s'.orbit := by
  have h' : A.Holds s' := by
    clear hd
    induction h with
    | refl => exact hs
    | tail h1 h ih => exact Aim.step (fun i as hi => hp i as ⟨_, h1, hi⟩) ih h
  rcases h' with ⟨i, hi, -⟩ | ⟨as, ha, -⟩ | h'
  · rw [hd.1] at hi; cases hi
  · rw [hd.2] at ha; cases ha
  · exact h'

end aim

variable {L Ev : Type*} {dim : L → ℕ} {n : ℕ} {K : Type*} [Field K] [LinearOrder K] [IsStrictOrderedRing K]
variable {τ : Tools K} {R : Rounding K} {Reg : (K → K) → Prop} {M : Sem L Ev dim K}

/-! ## Executions -/

/-- The hybrid system: `Sol q ξ` says that `ξ`, defined for all times from zero on, solves the differential equation of
the location `q`; the functions of the system describe `M`, and the integrator is correct. -/
structure Plant (M : Sem L Ev dim K) (Reg : (K → K) → Prop) (sys : (q : L) → List (Trans L Ev dim K q))
    (flowStep : (q : L) → Box (dim q) K → Flow (dim q) K) (Sol : (q : L) → (K → Fin (dim q) → K) → Prop) : Prop where
  describes : ∀ q, ∀ tr ∈ sys q, M.Describes tr
  along : ∀ q ξ, Sol q ξ → ∀ tr ∈ sys q, Along M Reg tr ξ
  follows : ∀ q ξ, Sol q ξ → ∀ B r, 0 ≤ r → Mem B (ξ r) → Local (flowStep q B) ξ r

/-- An execution: for each `k` a location, a solution, the time spent in the location, and the event which ends it. -/
structure Exec (L Ev : Type*) (dim : L → ℕ) (K : Type*) [Field K] [LinearOrder K] [IsStrictOrderedRing K] where
  loc : ℕ → L
  ξ : (k : ℕ) → K → Fin (dim (loc k)) → K
  δ : ℕ → K
  tr : (k : ℕ) → Trans L Ev dim K (loc k)

namespace Exec

variable (X : Exec L Ev dim K)

/-- The state after the time `r` in the location number `k`. -/
def state (k : ℕ) (r : K) : Σ q : L, Fin (dim q) → K := ⟨X.loc k, X.ξ k r⟩

/-- The time of the event number `k`, for the initial time `t`. -/
def time (t : K) : ℕ → K
  | 0 => t
  | k + 1 => time t k + X.δ k

/-- The events until location number `k`, for the events before. -/
def events (es : List Ev) : ℕ → List Ev
  | 0 => es
  | k + 1 => events es k ++ [(X.tr k).event]

/-- The state satisfies the invariants. -/
def Invariant (M : Sem L Ev dim K) (sys : (q : L) → List (Trans L Ev dim K q)) (k : ℕ) : Prop :=
  ∀ tr ∈ sys (X.loc k), tr.kind = .invariant → M.g tr (X.ξ k 0) ≤ 0

/-- The next event happens without time passing. -/
structure Immediate (M : Sem L Ev dim K) (sys : (q : L) → List (Trans L Ev dim K q)) (k : ℕ) : Prop where
  delay : X.δ k = 0
  mem : X.tr k ∈ sys (X.loc k)
  kind : (X.tr k).kind = .urgent ∨ (X.tr k).kind = .permissive
  guard : 0 ≤ M.g (X.tr k) (X.ξ k 0)
  invariant : X.Invariant M sys k

/-- The solution is followed for the time `δ k`, during which no guard of a blocking event is passed. -/
structure Flows (M : Sem L Ev dim K) (sys : (q : L) → List (Trans L Ev dim K q))
    (Sol : (q : L) → (K → Fin (dim q) → K) → Prop) (k : ℕ) : Prop where
  delay : 0 ≤ X.δ k
  sol : Sol (X.loc k) (X.ξ k)
  safe : ∀ tr ∈ sys (X.loc k), tr.kind ≠ .permissive → ∀ s, 0 ≤ s → s ≤ X.δ k → M.g tr (X.ξ k s) ≤ 0

/-- The first `N` events follow the semantics of hybrid systems. -/
structure Valid (M : Sem L Ev dim K) (sys : (q : L) → List (Trans L Ev dim K q))
    (Sol : (q : L) → (K → Fin (dim q) → K) → Prop) (N : ℕ) : Prop where
  step : ∀ k, k < N → X.Immediate M sys k ∨
    X.Flows M sys Sol k ∧ X.tr k ∈ sys (X.loc k) ∧ Fires M (X.tr k) (X.ξ k (X.δ k))
  next : ∀ k, k < N → (⟨(X.tr k).target, M.reset (X.tr k) (X.ξ k (X.δ k))⟩ : Σ q : L, Fin (dim q) → K) = X.state (k + 1) 0

end Exec

/-- The set contains the state at the time. -/
def HSet.Has (S : HSet L Ev dim K) (y : Σ q : L, Fin (dim q) → K) (t : K) : Prop :=
  ∃ x d, (⟨S.loc, x⟩ : Σ q : L, Fin (dim q) → K) = y ∧ (x, t, d) ∈ S.set.pts

/-! ## Items -/

section

variable {terminating : Ev → Bool} {sys : (q : L) → List (Trans L Ev dim K q)}
variable {flowStep : (q : L) → Box (dim q) K → Flow (dim q) K} {Sol : (q : L) → (K → Fin (dim q) → K) → Prop}
variable {X : Exec L Ev dim K} {N : ℕ} {t₀ T : K} {es : List Ev}

theorem transport {q q' : L} {x : Fin (dim q) → K} {x' : Fin (dim q') → K} (h : (⟨q, x⟩ : Σ q : L, Fin (dim q) → K) = ⟨q', x'⟩)
    {E : Encl n (dim q) K} {p t d} (hE : On E p x t d) (ev : List Ev) :
    ∃ E' : Encl n (dim q') K, (⟨q, ev, n, E⟩ : HSet L Ev dim K) = ⟨q', ev, n, E'⟩ ∧ On E' p x' t d := by
  cases h
  exact ⟨E, rfl, hE⟩

/-- The event number `k` happens at the end of the time in the location. -/
def Ends (M : Sem L Ev dim K) (sys : (q : L) → List (Trans L Ev dim K q)) (X : Exec L Ev dim K) (N k : ℕ) : Prop :=
  k < N → X.tr k ∈ sys (X.loc k) ∧ Fires M (X.tr k) (X.ξ k (X.δ k))

/-- The set is about to be processed and contains a state of the execution, before the end. -/
def Item (M : Sem L Ev dim K) (sys : (q : L) → List (Trans L Ev dim K q)) (Sol : (q : L) → (K → Fin (dim q) → K) → Prop)
    (X : Exec L Ev dim K) (N : ℕ) (t₀ : K) (es : List Ev) (Good : ℕ → K → Prop) (i : HSet L Ev dim K × Bool) : Prop :=
  ∃ k r, ∃ (n : ℕ) (E : Encl n (dim (X.loc k)) K) (p : Fin n → K) (d : K), k ≤ N ∧ i.1 = ⟨X.loc k, X.events es k, n, E⟩ ∧
    On E p (X.ξ k r) (X.time t₀ k + r) d ∧
    (i.2 = true ∧ r = 0 ∨
      i.2 = false ∧ 0 ≤ r ∧ r ≤ X.δ k ∧ X.Flows M sys Sol k ∧ Ends M sys X N k ∧ Good k (X.time t₀ k + r))

theorem time_mono (hX : X.Valid M sys Sol N) {k : ℕ} (hk : k ≤ N) : X.time t₀ k ≤ X.time t₀ N := by
  obtain ⟨j, rfl⟩ := Nat.exists_eq_add_of_le hk
  induction j with
  | zero => exact le_rfl
  | succ j ih =>
    have h1 : 0 ≤ X.δ (k + j) := by
      rcases hX.step (k + j) (by omega) with h | h
      · exact h.delay.ge
      · exact h.1.delay
    have h2 := ih ⟨fun i hi => hX.step i (by omega), fun i hi => hX.next i (by omega)⟩ (by omega)
    have h3 : X.time t₀ (k + (j + 1)) = X.time t₀ (k + j) + X.δ (k + j) := rfl
    rw [h3]
    linarith

theorem item_reset (hτ : τ.Ok R Reg) (hP : Plant M Reg sys flowStep Sol) (hX : X.Valid M sys Sol N) {k : ℕ} (hk : k < N)
    {Good : ℕ → K → Prop} {E : Encl n (dim (X.loc k)) K} {p d} (hm : X.tr k ∈ sys (X.loc k))
    (hon : On E p (X.ξ k (X.δ k)) (X.time t₀ k + X.δ k) d) :
    Item M sys Sol X N t₀ es Good (τ.reset (X.events es k) (X.tr k) E, true) := by
  have h1 := hon.map hτ (fun i => (hP.describes _ _ hm).reset (X.ξ k (X.δ k)) i)
  obtain ⟨E', h2, h3⟩ := transport (hX.next k hk) h1 (X.events es (k + 1))
  refine ⟨k + 1, 0, n, E', p, 0, hk, h2, ?_, Or.inl ⟨rfl, rfl⟩⟩
  rw [add_zero]
  exact h3

theorem track (hP : Plant M Reg sys flowStep Sol) {k : ℕ} (hf : X.Flows M sys Sol k) :
    Track M Reg (sys (X.loc k)) (X.ξ k) (X.δ k) := ⟨hP.describes _, hP.along _ _ hf.sol, hf.safe⟩

theorem follows (hP : Plant M Reg sys flowStep Sol) {k : ℕ} (hf : X.Flows M sys Sol k) :
    Follows flowStep (X.ξ k) (X.δ k) := fun B r r0 _ h => hP.follows _ _ hf.sol B r r0 h

/-- A set which has just jumped. -/
theorem item_start (hτ : τ.Ok R Reg) (hP : Plant M Reg sys flowStep Sol) {k : ℕ} (hk : k ≤ N)
    (hT : τ.final.Contains T) (ht : X.time t₀ k < T) (hs : ¬ τ.Stops terminating (X.events es k)) {Good : ℕ → K → Prop}
    (hG : Good k (X.time t₀ k)) (hf : X.Flows M sys Sol k) (he : Ends M sys X N k) {E : Encl n (dim (X.loc k)) K} {p d}
    (hon : On E p (X.ξ k 0) (X.time t₀ k) d) {as}
    (h : τ.jumped terminating sys ⟨X.loc k, X.events es k, n, E⟩ = some as) :
    ∃ i, Action.push i ∈ as ∧ Item M sys Sol X N t₀ es Good i := by
  obtain ⟨G, g1, g2⟩ := jumped_flow hτ (hP.describes _) (fun tr htr hb => hf.safe tr htr hb 0 le_rfl hf.delay) hon hT ht hs h
  refine ⟨_, g1, k, 0, n, G, p, d, hk, rfl, ?_, Or.inr ⟨rfl, le_rfl, hf.delay, hf, he, ?_⟩⟩
  · rwa [add_zero]
  · rwa [add_zero]

/-- An item of which the step ends before the next event. -/
theorem item_flow {k : ℕ} (hk : k ≤ N) {Good : ℕ → K → Prop} (hf : X.Flows M sys Sol k) (he : Ends M sys X N k) {r : K}
    (r0 : 0 ≤ r) (r1 : r ≤ X.δ k) (hg : Good k (X.time t₀ k + r)) {as : List (HAction L Ev dim K)} {j : ℕ}
    {F : Encl j (dim (X.loc k)) K} (hF : Action.push (⟨X.loc k, X.events es k, j, F⟩, false) ∈ as)
    (hon : ∃ p d, On F p (X.ξ k r) (X.time t₀ k + r) d) :
    ∃ i, Action.push i ∈ as ∧ Item M sys Sol X N t₀ es Good i := by
  obtain ⟨p, d, hon⟩ := hon
  exact ⟨_, hF, k, r, j, F, p, d, hk, rfl, hon, Or.inr ⟨rfl, r0, r1, hf, he, hg⟩⟩

/-- An item before the last location leads to another item. -/
theorem item_advance [DecidableEq Ev] (hτ : τ.Ok R Reg) (hcreep : τ.CreepOk L Ev dim Reg) (hu : τ.upper = true)
    (hP : Plant M Reg sys flowStep Sol) (hX : X.Valid M sys Sol N) (hT : τ.final.Contains T) (ht : X.time t₀ N < T)
    {Good : ℕ → K → Prop} {k : ℕ} (hk : k < N) (hG : ∀ t, t < T → Good k t) (hs : ¬ τ.Stops terminating (X.events es k)) {b : Bool}
    {r : K} {E : Encl n (dim (X.loc k)) K} {p d} (hon : On E p (X.ξ k r) (X.time t₀ k + r) d)
    (hb : b = true ∧ r = 0 ∨
      b = false ∧ 0 ≤ r ∧ r ≤ X.δ k ∧ X.Flows M sys Sol k ∧ Ends M sys X N k ∧ Good k (X.time t₀ k + r)) {as}
    (h : τ.process terminating sys flowStep (⟨X.loc k, X.events es k, n, E⟩, b) = some as) :
    ∃ i, Action.push i ∈ as ∧ Item M sys Sol X N t₀ es Good i := by
  have hlt : X.time t₀ k + X.δ k < T := lt_of_le_of_lt (time_mono hX (k := k + 1) hk) ht
  rcases hb with ⟨rfl, rfl⟩ | ⟨rfl, r0, r1, hf, he, -⟩
  · rw [add_zero] at hon
    have htk : X.time t₀ k < T := lt_of_le_of_lt (time_mono hX hk.le) ht
    simp only [Tools.process, if_true] at h
    rcases hX.step k hk with hi | ⟨hf, he⟩
    · obtain ⟨G, -, g2, g3⟩ := jumped_jump hτ (hP.describes _) hi.invariant hi.mem hi.kind hi.guard hon hT htk hs h
      refine ⟨_, g2, item_reset hτ hP hX hk hi.mem (p := p) (d := d) ?_⟩
      rw [hi.delay, add_zero]
      exact g3
    · exact item_start hτ hP hk.le hT htk hs (hG _ htk) hf (fun _ => he) hon h
  · simp only [Tools.process, Bool.false_eq_true, if_false] at h
    obtain ⟨hm, hfire⟩ := he hk
    rcases evolution_moves hτ hcreep hu (follows hP hf) (track hP hf) hT hon r0 r1 (by linarith) h with
      ⟨-, h1⟩ | ⟨j, F, hF, h1⟩ | ⟨w, hw⟩
    · linarith
    · exact item_flow hk.le hf he r0 r1 (hG _ (by linarith)) hF h1
    · have hpush : r + w ≤ X.δ k → ∃ i, Action.push i ∈ as ∧ Item M sys Sol X N t₀ es Good i := by
        intro hrw
        rcases hw.push hrw (by linarith) with ⟨j, F, hF, h1⟩ | ⟨h1, -⟩
        · rw [add_assoc] at h1
          exact item_flow hk.le hf he (add_nonneg r0 hw.nonneg) hrw (hG _ (by linarith)) hF h1
        · linarith
      rcases le_or_gt (X.δ k - r) w with hle | hlt'
      · have e : r + (X.δ k - r) = X.δ k := by ring
        rcases hw.jump (X.tr k) hm (X.δ k - r) (by linarith) hle (by linarith) (by linarith) (by rw [e]; exact hfire) with
          h1 | ⟨j, G, hG', p', d', h1⟩
        · exact hpush (by linarith)
        · rw [add_assoc, e] at h1
          exact ⟨_, hG', item_reset hτ hP hX hk hm h1⟩
      · exact hpush (by linarith)

theorem has_of_on {k : ℕ} {r t : K} {E : Encl n (dim (X.loc k)) K} {p d} (h : On E p (X.ξ k r) t d) (ev : List Ev) :
    (⟨X.loc k, ev, n, E⟩ : HSet L Ev dim K).Has (X.state k r) t := ⟨X.ξ k r, d, rfl, p, h.at_⟩

/-- **C74**: if the semantics is `UPPER` then the orbit contains every state which an execution reaches by the final
time, whatever the schedule of the threads: the last event is before the final time, there are fewer events than the
maximum number of steps, and none of them is terminating. -/
theorem C74_reach [DecidableEq Ev] (hτ : τ.Ok R Reg) (hcreep : τ.CreepOk L Ev dim Reg) (hu : τ.upper = true)
    (hP : Plant M Reg sys flowStep Sol) (hX : X.Valid M sys Sol N)
    (hlast : X.Flows M sys Sol N ∨ X.Immediate M sys N) (hT : τ.final.Contains T) (ht : X.time t₀ N < T)
    (htN : X.time t₀ N + X.δ N ≤ T) (hs : ∀ k, k ≤ N → ¬ τ.Stops terminating (X.events es k))
    {E : Encl n (dim (X.loc 0)) K} {p d} (hE : On E p (X.ξ 0 0) t₀ d) {s}
    (h : Steps (τ.process terminating sys flowStep) (orbitInit ⟨X.loc 0, es, n, E⟩) s) (hd : s.Done) :
    ∃ S ∈ s.orbit.reach, S.events = X.events es N ∧ S.Has (X.state N (X.δ N)) (X.time t₀ N + X.δ N) := by
  let A : Aim (HSet L Ev dim K) (HSet L Ev dim K × Bool) :=
    ⟨Item M sys Sol X N t₀ es (fun _ t => t < T), fun S => S.events = X.events es N ∧ S.Has (X.state N (X.δ N)) (X.time t₀ N + X.δ N),
      fun _ => False, fun _ => False⟩
  have hhit := Aim.done (A := A) (fun i as hrun hi hitem => ?_) (Or.inl ⟨_, List.mem_singleton_self _, 0, 0, n, E, p, d,
    Nat.zero_le _, rfl, by simpa [Exec.time] using hE, Or.inl ⟨rfl, rfl⟩⟩) h hd
  · rcases hhit with h1 | ⟨_, _, h1⟩ | ⟨_, _, h1⟩
    · exact h1
    · exact h1.elim
    · exact h1.elim
  · obtain ⟨k, r, n, E, p, d, hk, e, hon, hb⟩ := hitem
    obtain ⟨S, b⟩ := i
    simp only at e hb
    subst e
    rcases lt_or_eq_of_le hk with hlt | rfl
    · obtain ⟨j, hj, hj'⟩ := item_advance hτ hcreep hu hP hX hT ht (Good := fun _ t => t < T) hlt (fun _ h => h) (hs k hk) hon hb hi
      exact ⟨_, hj, hj'⟩
    · rcases hb with ⟨rfl, rfl⟩ | ⟨rfl, r0, r1, hf, he, hg⟩
      · rw [add_zero] at hon
        simp only [Tools.process, if_true] at hi
        rcases hlast with hf | him
        · obtain ⟨j, hj, hj'⟩ := item_start hτ hP le_rfl hT ht (hs k le_rfl) (Good := fun _ t => t < T) ht hf
            (fun h => absurd h (lt_irrefl _)) hon hi
          exact ⟨_, hj, hj'⟩
        · obtain ⟨G, g1, -, g3⟩ := jumped_jump hτ (hP.describes _) him.invariant him.mem him.kind him.guard hon hT ht
            (hs k le_rfl) hi
          refine ⟨_, g1, rfl, ?_⟩
          rw [him.delay, add_zero]
          exact has_of_on g3 _
      · simp only [Tools.process, Bool.false_eq_true, if_false] at hi
        have hg' : X.time t₀ k + r < T := hg
        rcases evolution_moves hτ hcreep hu (follows hP hf) (track hP hf) hT hon r0 r1 hg'.le hi with
          ⟨-, h1⟩ | ⟨j, F, hF, h1⟩ | ⟨w, hw⟩
        · exact absurd h1 hg'.ne
        · obtain ⟨j, hj, hj'⟩ := item_flow (Good := fun _ t => t < T) le_rfl hf he r0 r1 hg hF h1
          exact ⟨_, hj, hj'⟩
        · rcases le_or_gt (X.δ k - r) w with hle | hlt'
          · have e : r + (X.δ k - r) = X.δ k := by ring
            obtain ⟨j, F, hF, p', d', h1⟩ := hw.reach (X.δ k - r) (by linarith) hle (by linarith) (by linarith)
            rw [add_assoc, e] at h1
            exact ⟨_, hF, rfl, has_of_on h1 _⟩
          · rcases hw.push (by linarith) (by linarith) with ⟨j, F, hF, h1⟩ | ⟨h1, -⟩
            · rw [add_assoc] at h1
              obtain ⟨j, hj, hj'⟩ := item_flow (Good := fun _ t => t < T) le_rfl hf he (add_nonneg r0 hw.nonneg) (by linarith)
                (show _ < T by linarith) hF h1
              exact ⟨_, hj, hj'⟩
            · linarith

/-- **C74**: if the evolution ends with the last event, as the maximum number of steps is reached or the event is
terminating, then the final sets contain the state after the event if it satisfies the invariants. -/
theorem C74_final_event [DecidableEq Ev] (hτ : τ.Ok R Reg) (hcreep : τ.CreepOk L Ev dim Reg) (hu : τ.upper = true)
    (hP : Plant M Reg sys flowStep Sol) (hX : X.Valid M sys Sol N) (hi : X.Invariant M sys N) (hT : τ.final.Contains T)
    (ht : X.time t₀ N < T) (hs : ∀ k, k < N → ¬ τ.Stops terminating (X.events es k))
    (hN : τ.Stops terminating (X.events es N))
    {E : Encl n (dim (X.loc 0)) K} {p d} (hE : On E p (X.ξ 0 0) t₀ d) {s}
    (h : Steps (τ.process terminating sys flowStep) (orbitInit ⟨X.loc 0, es, n, E⟩) s) (hd : s.Done) :
    ∃ S ∈ s.orbit.final, S.events = X.events es N ∧ S.Has (X.state N 0) (X.time t₀ N) := by
  let A : Aim (HSet L Ev dim K) (HSet L Ev dim K × Bool) :=
    ⟨Item M sys Sol X N t₀ es (fun k _ => k < N), fun _ => False,
      fun S => S.events = X.events es N ∧ S.Has (X.state N 0) (X.time t₀ N), fun _ => False⟩
  have hhit := Aim.done (A := A) (fun i as hrun hi hitem => ?_) (Or.inl ⟨_, List.mem_singleton_self _, 0, 0, n, E, p, d,
    Nat.zero_le _, rfl, by simpa [Exec.time] using hE, Or.inl ⟨rfl, rfl⟩⟩) h hd
  · rcases hhit with ⟨_, _, h1⟩ | h1 | ⟨_, _, h1⟩
    · exact h1.elim
    · exact h1
    · exact h1.elim
  · obtain ⟨k, r, n, E, p, d, hk, e, hon, hb⟩ := hitem
    obtain ⟨S, b⟩ := i
    simp only at e hb
    subst e
    rcases lt_or_eq_of_le hk with hlt | rfl
    · obtain ⟨j, hj, hj'⟩ := item_advance hτ hcreep hu hP hX hT ht (Good := fun k _ => k < N) hlt (fun _ _ => hlt)
        (hs k hlt) hon hb hi
      exact ⟨_, hj, hj'⟩
    · rcases hb with ⟨rfl, rfl⟩ | ⟨rfl, r0, r1, hf, he, hg⟩
      · rw [add_zero] at hon
        simp only [Tools.process, if_true] at hi
        obtain ⟨G, g1, g2⟩ := jumped_stop hτ (hP.describes _) ‹_› hon hT ht hN hi
        exact ⟨_, g1, rfl, has_of_on g2 _⟩
      · exact absurd hg (lt_irrefl _)

/-- **C74**: the state which an execution reaches at the final time is in one of the final sets, or in a set which was
dropped because all its times are at or after the final time (line 1225), or in a reached set without a time later
than the final time, which is not intersected with the final time (line 1444).  No set which is processed may creep up to a
guard if some of its states pass the final time in the step (line 1728).  What is missing is a proof that these
cases do not occur for the sets made by the evolver, or that the state is in a final set anyway. -/
theorem C74_final_time_partial [DecidableEq Ev] (hτ : τ.Ok R Reg) (hcreep : τ.CreepOk L Ev dim Reg) (hu : τ.upper = true)
    (hP : Plant M Reg sys flowStep Sol) (hX : X.Valid M sys Sol N) (hlast : X.Flows M sys Sol N)
    (hT : τ.final.Contains T) (ht : X.time t₀ N < T) (htN : X.time t₀ N + X.δ N = T)
    (hs : ∀ k, k ≤ N → ¬ τ.Stops terminating (X.events es k))
    {E : Encl n (dim (X.loc 0)) K} {p d} (hE : On E p (X.ξ 0 0) t₀ d) {s}
    (h : Steps (τ.process terminating sys flowStep) (orbitInit ⟨X.loc 0, es, n, E⟩) s) (hd : s.Done)
    (hnc : ∀ s₁, Steps (τ.process terminating sys flowStep) (orbitInit ⟨X.loc 0, es, n, E⟩) s₁ → ∀ S,
      (S, false) ∈ s₁.work → ¬ τ.CreepsPast sys flowStep S) :
    (∃ S ∈ s.orbit.final, S.events = X.events es N ∧ S.Has (X.state N (X.δ N)) T) ∨
    (∃ i ∈ s.orbit.dropped, i.1.events = X.events es N ∧ i.1.Has (X.state N (X.δ N)) T) ∨
    ∃ S ∈ s.orbit.reach, S.events = X.events es N ∧ S.Has (X.state N (X.δ N)) T ∧ τ.over S.set = false := by
  let A : Aim (HSet L Ev dim K) (HSet L Ev dim K × Bool) :=
    ⟨Item M sys Sol X N t₀ es (fun _ t => t ≤ T),
      fun S => S.events = X.events es N ∧ S.Has (X.state N (X.δ N)) T ∧ τ.over S.set = false,
      fun S => S.events = X.events es N ∧ S.Has (X.state N (X.δ N)) T,
      fun i => i.1.events = X.events es N ∧ i.1.Has (X.state N (X.δ N)) T⟩
  have hhit := Aim.done (A := A) (fun i as hrun hi hitem => ?_) (Or.inl ⟨_, List.mem_singleton_self _, 0, 0, n, E, p, d,
    Nat.zero_le _, rfl, by simpa [Exec.time] using hE, Or.inl ⟨rfl, rfl⟩⟩) h hd
  · rcases hhit with h1 | h1 | h1
    · exact Or.inr (Or.inr h1)
    · exact Or.inl h1
    · exact Or.inr (Or.inl h1)
  · obtain ⟨k, r, n, E, p, d, hk, e, hon, hb⟩ := hitem
    obtain ⟨S, b⟩ := i
    simp only at e hb
    subst e
    rcases lt_or_eq_of_le hk with hlt | rfl
    · obtain ⟨j, hj, hj'⟩ := item_advance hτ hcreep hu hP hX hT ht (Good := fun _ t => t ≤ T) hlt (fun _ h => h.le)
        (hs k hk) hon hb hi
      exact ⟨_, hj, hj'⟩
    · rcases hb with ⟨rfl, rfl⟩ | ⟨rfl, r0, r1, hf, he, hg⟩
      · rw [add_zero] at hon
        simp only [Tools.process, if_true] at hi
        obtain ⟨j, hj, hj'⟩ := item_start hτ hP le_rfl hT ht (hs k le_rfl) (Good := fun _ t => t ≤ T) ht.le hlast
          (fun h => absurd h (lt_irrefl _)) hon hi
        exact ⟨_, hj, hj'⟩
      · simp only [Tools.process, Bool.false_eq_true, if_false] at hi
        have hg' : X.time t₀ k + r ≤ T := hg
        rcases evolution_moves hτ hcreep hu (follows hP hf) (track hP hf) hT hon r0 r1 hg' hi with
          ⟨rfl, h1⟩ | ⟨j, F, hF, h1⟩ | ⟨w, hw⟩
        · have hr : r = X.δ k := by linarith
          subst hr
          exact ⟨_, List.mem_singleton_self _, rfl, h1 ▸ has_of_on hon _⟩
        · obtain ⟨j, hj, hj'⟩ := item_flow (Good := fun _ t => t ≤ T) le_rfl hf he r0 r1 hg hF h1
          exact ⟨_, hj, hj'⟩
        · rcases lt_or_ge (X.δ k - r) w with hlt' | hle
          · have e : r + (X.δ k - r) = X.δ k := by ring
            obtain ⟨j, F, hF, ⟨p', d', h1⟩, h2⟩ := hw.final (hnc _ hrun.choose_spec.1 _ hrun.choose_spec.2) (X.δ k - r) (by linarith) hlt' (by linarith) (by linarith)
            rw [e] at h1 h2
            rcases h2 with h2 | ⟨G, hG, p'', d'', h2⟩
            · exact ⟨_, hF, rfl, has_of_on h1 _, h2⟩
            · exact ⟨_, hG, rfl, has_of_on h2 _⟩
          · rcases hw.push (by linarith) (by linarith) with ⟨j, F, hF, h1⟩ | ⟨h1, j, F, hF, p', d', h2⟩
            · rw [add_assoc] at h1
              obtain ⟨j, hj, hj'⟩ := item_flow (Good := fun _ t => t ≤ T) le_rfl hf he (add_nonneg r0 hw.nonneg)
                (by linarith) (show _ ≤ T by linarith) hF h1
              exact ⟨_, hj, hj'⟩
            · have hr : r + w = X.δ k := by linarith
              rw [h1, hr] at h2
              exact ⟨_, hF, rfl, has_of_on h2 _⟩

end

end Verif.HybridEvolver
