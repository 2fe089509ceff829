import Verif.HybridEvolver.Step

/-!
# Starting events, and sets which have just jumped
-/

namespace Verif.HybridEvolver

open Ariadne Ariadne.Logical Verif.ConstraintSolver Verif.Enclosure Verif.Evolver
open Ariadne.Ext (fin)

variable {L Ev : Type*} {dim : L → ℕ} {n : ℕ} {K : Type*} [Field K] [LinearOrder K] [IsStrictOrderedRing K]
variable {τ : Tools K} {R : Rounding K} {Reg : (K → K) → Prop} {M : Sem L Ev dim K}
variable {q : L} {E I : Encl n (dim q) K} {p : Fin n → K} {x : Fin (dim q) → K} {t d : K} {events : List Ev}

theorem applyInvariants_on (hτ : τ.Ok R Reg) {l : List (Trans L Ev dim K q)} (hM : ∀ tr ∈ l, M.Describes tr)
    (hi : ∀ tr ∈ l, tr.kind = .invariant → M.g tr x ≤ 0) (hE : On E p x t d) (h : τ.applyInvariants l E = some I) :
    On I p x t d := by
  induction l generalizing E with
  | nil => obtain rfl := Option.some.inj h; exact hE
  | cons tr l ih =>
    have ih' := fun {E'} => @ih E' (fun a ha => hM a (List.mem_cons_of_mem _ ha)) (fun a ha => hi a (List.mem_cons_of_mem _ ha))
    simp only [Tools.applyInvariants] at h
    by_cases hk : tr.kind = .invariant
    · rw [if_pos hk] at h
      obtain ⟨b, -, h⟩ := Option.bind_eq_some_iff.1 h
      refine ih' ?_ h
      split
      · exact hE.negative hτ ((hM tr (by simp)).guard x) (hi tr (by simp) hk)
      · exact hE
    · rw [if_neg hk] at h
      exact ih' hE h

theorem startingLoop_flow (hτ : τ.Ok R Reg) {l : List (Trans L Ev dim K q)} (hM : ∀ tr ∈ l, M.Describes tr)
    (hi : ∀ tr ∈ l, tr.kind ≠ .permissive → M.g tr x ≤ 0) {F : Encl n (dim q) K} (hF : On F p x t d) {o}
    (h : τ.startingLoop events E I l F = some o) : On o.2 p x t d := by
  induction l generalizing F o with
  | nil => obtain rfl := Option.some.inj h; exact hF
  | cons tr l ih =>
    have ih' : ∀ {F' : Encl n (dim q) K} {o'}, On F' p x t d → τ.startingLoop events E I l F' = some o' → On o'.2 p x t d :=
      fun h1 h2 =>
        ih (fun a ha => hM a (List.mem_cons_of_mem _ ha)) (fun a ha => hi a (List.mem_cons_of_mem _ ha)) h1 h2
    simp only [Tools.startingLoop] at h
    by_cases hk : tr.kind = .invariant ∨ tr.kind = .impact
    · rw [if_pos hk] at h
      exact ih' hF h
    · rw [if_neg hk] at h
      obtain ⟨b, -, h⟩ := Option.bind_eq_some_iff.1 h
      cases b with
      | false => rw [if_neg (by simp)] at h; exact ih' hF h
      | true =>
        rw [if_pos rfl] at h
        obtain ⟨as, -, h⟩ := Option.bind_eq_some_iff.1 h
        obtain ⟨o', h', rfl⟩ := Option.map_eq_some_iff.1 h
        change On o'.2 p x t d
        refine ih' (F' := if tr.kind = .permissive then F else F.newNegativeStateConstraint τ.C tr.guard) ?_ h'
        by_cases hp : tr.kind = .permissive
        · rw [if_pos hp]; exact hF
        · rw [if_neg hp]
          refine hF.negative hτ ((hM tr (by simp)).guard x) (hi tr (by simp) ?_)
          cases hk' : tr.kind <;> simp_all [Kind.blocking]

theorem startingLoop_jump (hτ : τ.Ok R Reg) {l : List (Trans L Ev dim K q)} {tr : Trans L Ev dim K q} (htr : tr ∈ l)
    (hM : M.Describes tr) (hk : tr.kind = .urgent ∨ tr.kind = .permissive) (hg : 0 ≤ M.g tr x) (hE : On E p x t d)
    (hI : On I p x t d) {F : Encl n (dim q) K} {o} (h : τ.startingLoop events E I l F = some o) :
    ∃ G : Encl n (dim q) K, Action.reach ⟨q, events, n, G⟩ ∈ o.1 ∧ Action.push (τ.reset events tr G, true) ∈ o.1 ∧
      On G p x t d := by
  induction l generalizing F o with
  | nil => cases htr
  | cons tr' l ih =>
    simp only [Tools.startingLoop] at h
    rcases List.mem_cons.1 htr with rfl | htr
    · rw [if_neg (by rcases hk with hk | hk <;> simp [hk])] at h
      obtain ⟨b, hb, h⟩ := Option.bind_eq_some_iff.1 h
      obtain rfl := hE.maybe hτ (hM.guard x) hg hb
      rw [if_pos rfl] at h
      obtain ⟨as, has, h⟩ := Option.bind_eq_some_iff.1 h
      obtain ⟨o', h', rfl⟩ := Option.map_eq_some_iff.1 h
      simp only [Tools.immediate] at has
      rw [if_neg (by rcases hk with hk | hk <;> simp [hk])] at has
      obtain ⟨e, he, rfl⟩ := Option.map_eq_some_iff.1 has
      obtain ⟨e1, hon⟩ := (hI.positive hτ (hM.guard x) hg).isEmpty hτ he
      exact ⟨e.2, by simp [e1], by simp [e1], hon⟩
    · by_cases hk' : tr'.kind = .invariant ∨ tr'.kind = .impact
      · rw [if_pos hk'] at h
        exact ih htr h
      · rw [if_neg hk'] at h
        obtain ⟨b, -, h⟩ := Option.bind_eq_some_iff.1 h
        cases b with
        | false => rw [if_neg (by simp)] at h; exact ih htr h
        | true =>
          rw [if_pos rfl] at h
          obtain ⟨as, -, h⟩ := Option.bind_eq_some_iff.1 h
          obtain ⟨o', h', rfl⟩ := Option.map_eq_some_iff.1 h
          obtain ⟨G, g1, g2, g3⟩ := ih htr h'
          exact ⟨G, List.mem_append_right _ g1, List.mem_append_right _ g2, g3⟩

/-- The evolution ends at a set which has just jumped. -/
def Tools.Stops (τ : Tools K) (terminating : Ev → Bool) (events : List Ev) : Prop :=
  τ.maximumSteps ≤ events.length ∨ ∃ e, events.getLast? = some e ∧ terminating e = true

theorem stops_iff {terminating : Ev → Bool} : τ.Stops terminating events ↔
    (τ.maximumSteps ≤ events.length ∨ (events.getLast?.map terminating).getD false = true) := by
  cases h : events.getLast? <;> simp [Tools.Stops, h]

section

variable {terminating : Ev → Bool} {sys : (q : L) → List (Trans L Ev dim K q)} {T : K} {as : List (HAction L Ev dim K)}

theorem jumped_flow (hτ : τ.Ok R Reg) (hM : ∀ tr ∈ sys q, M.Describes tr)
    (hi : ∀ tr ∈ sys q, tr.kind ≠ .permissive → M.g tr x ≤ 0) (hE : On E p x t d) (hT : τ.final.Contains T) (ht : t < T)
    (hs : ¬ τ.Stops terminating events) (h : τ.jumped terminating sys ⟨q, events, n, E⟩ = some as) :
    ∃ G : Encl n (dim q) K, Action.push (⟨q, events, n, G⟩, false) ∈ as ∧ On G p x t d := by
  simp only [Tools.jumped] at h
  rw [if_neg (by simp [hE.not_late hT ht]), if_neg (mt stops_iff.2 hs)] at h
  simp only [Tools.starting] at h
  obtain ⟨I, hI, h⟩ := Option.bind_eq_some_iff.1 h
  obtain ⟨o, ho, h⟩ := Option.bind_eq_some_iff.1 h
  obtain ⟨f, hf, rfl⟩ := Option.map_eq_some_iff.1 h
  have h1 := applyInvariants_on hτ hM (fun a ha hk => hi a ha (by rw [hk]; simp)) hE hI
  obtain ⟨e, hon⟩ := (startingLoop_flow hτ hM hi h1 ho).isEmpty hτ hf
  exact ⟨f.2, by simp [e], hon⟩

theorem jumped_jump (hτ : τ.Ok R Reg) (hM : ∀ tr ∈ sys q, M.Describes tr)
    (hi : ∀ tr ∈ sys q, tr.kind = .invariant → M.g tr x ≤ 0) {tr : Trans L Ev dim K q} (htr : tr ∈ sys q)
    (hk : tr.kind = .urgent ∨ tr.kind = .permissive) (hg : 0 ≤ M.g tr x) (hE : On E p x t d) (hT : τ.final.Contains T)
    (ht : t < T) (hs : ¬ τ.Stops terminating events) (h : τ.jumped terminating sys ⟨q, events, n, E⟩ = some as) :
    ∃ G : Encl n (dim q) K, Action.reach ⟨q, events, n, G⟩ ∈ as ∧ Action.push (τ.reset events tr G, true) ∈ as ∧
      On G p x t d := by
  simp only [Tools.jumped] at h
  rw [if_neg (by simp [hE.not_late hT ht]), if_neg (mt stops_iff.2 hs)] at h
  simp only [Tools.starting] at h
  obtain ⟨I, hI, h⟩ := Option.bind_eq_some_iff.1 h
  obtain ⟨o, ho, h⟩ := Option.bind_eq_some_iff.1 h
  obtain ⟨f, hf, rfl⟩ := Option.map_eq_some_iff.1 h
  have h1 := applyInvariants_on hτ hM hi hE hI
  obtain ⟨G, g1, g2, g3⟩ := startingLoop_jump hτ htr (hM tr htr) hk hg hE h1 ho
  exact ⟨G, List.mem_append_left _ g1, List.mem_append_left _ g2, g3⟩

theorem jumped_stop (hτ : τ.Ok R Reg) (hM : ∀ tr ∈ sys q, M.Describes tr)
    (hi : ∀ tr ∈ sys q, tr.kind = .invariant → M.g tr x ≤ 0) (hE : On E p x t d) (hT : τ.final.Contains T)
    (ht : t < T) (hs : τ.Stops terminating events) (h : τ.jumped terminating sys ⟨q, events, n, E⟩ = some as) :
    ∃ G : Encl n (dim q) K, Action.final ⟨q, events, n, G⟩ ∈ as ∧ On G p x t d := by
  simp only [Tools.jumped] at h
  rw [if_neg (by simp [hE.not_late hT ht]), if_pos (stops_iff.1 hs)] at h
  obtain ⟨I, hI, rfl⟩ := Option.map_eq_some_iff.1 h
  exact ⟨I, by simp, applyInvariants_on hτ hM hi hE hI⟩

end

end Verif.HybridEvolver
