import Verif.Simulator.HybridProps

/-!
# C101: the orbit of the hybrid simulator holds the states of the execution

Curve number `m` holds the points with `m` discrete steps; no point is lost if the rounding of the times is strictly
increasing on those which occur.
-/

namespace Verif.Simulator.Hybrid

variable {L E P K T : Type*} [Field K] [LinearOrder K] [IsStrictOrderedRing K] [LinearOrder T]

/-- spec: an orbit holds exactly the given states, each in the curve of its number of steps, with its location -/
def Holds (fl : K → T) (u : List (State L E P K)) (o : Curves L P T) : Prop :=
  (∀ (m : ℕ) (l : L) (c : List (T × P)), o[m]? = some (l, c) → Sorted c) ∧
  ∀ (m : ℕ) (l : L) (τ : T) (p : P), (∃ c, o[m]? = some (l, c) ∧ (τ, p) ∈ c) ↔
    ∃ s ∈ u, s.steps = m ∧ s.loc = l ∧ fl s.time = τ ∧ s.pt = p

theorem insertStates_holds (S : Sys L E P K) {h : K} (hh : 0 < h) (fl : K → T) (w u : List (State L E P K))
    (s : State L E P K) (o : Curves L P T) (hw : List.IsChain (Step S h) (s :: w)) (hs : s ∈ u)
    (hu : ∀ a ∈ u, a.time ≤ s.time)
    (hfl : ∀ a ∈ u ++ w, ∀ b ∈ u ++ w, a.time < b.time → fl a.time < fl b.time)
    (ho : Holds fl u o) (hlen : o.length = s.steps + 1) :
    ∃ o', insertStates fl w o = some o' ∧ Holds fl (u ++ w) o' ∧
      ∀ b, (s :: w).getLast? = some b → o'.length = b.steps + 1 := by
  induction w generalizing u s o with
  | nil =>
    refine ⟨o, rfl, by simpa using ho, fun b hb => ?_⟩
    simp only [List.getLast?_singleton, Option.some.injEq] at hb
    rw [← hb, hlen]
  | cons s' w ih =>
    obtain ⟨hst, hch⟩ := List.isChain_cons_cons.1 hw
    obtain ⟨ho1, ho2⟩ := ho
    have happ : u ++ s' :: w = (u ++ [s']) ++ w := by simp
    have hle : s.time ≤ s'.time := by
      cases hst with
      | jump => exact le_rfl
      | flow => exact le_add_of_nonneg_right hh.le
    have hu' : ∀ a ∈ u ++ [s'], a.time ≤ s'.time := by
      intro a ha
      rcases List.mem_append.1 ha with ha | ha
      · exact (hu a ha).trans hle
      · rw [List.mem_singleton.1 ha]
    suffices hmain : ∃ o1, insertCurve s'.steps (fl s'.time) s'.loc s'.pt o = some o1 ∧ Holds fl (u ++ [s']) o1 ∧
        o1.length = s'.steps + 1 by
      obtain ⟨o1, hi, hH, hl⟩ := hmain
      obtain ⟨o', h1, h2, h3⟩ := ih (u ++ [s']) s' o1 hch (by simp) hu' (by rw [← happ]; exact hfl) hH hl
      refine ⟨o', ?_, by rw [happ]; exact h2, fun b hb => ?_⟩
      · rw [insertStates, hi, Option.bind_some, h1]
      · rw [List.getLast?_cons_cons] at hb
        exact h3 b hb
    have hin : ∀ a ∈ u, a.steps < o.length := by
      intro a ha
      obtain ⟨c, hc, _⟩ := (ho2 a.steps a.loc (fl a.time) a.pt).2 ⟨a, ha, rfl, rfl, rfl, rfl⟩
      exact (List.getElem?_eq_some_iff.1 hc).1
    have hsteps : (s'.steps = s.steps + 1) ∨ (s'.steps = s.steps ∧ s'.loc = s.loc ∧ s.time < s'.time) := by
      cases hst with
      | jump => exact Or.inl rfl
      | flow => exact Or.inr ⟨rfl, rfl, lt_add_of_pos_right _ hh⟩
    rcases hsteps with hn | ⟨hn, hl, ht⟩
    · have e1 : insertCurve s'.steps (fl s'.time) s'.loc s'.pt o = some (o ++ [(s'.loc, [(fl s'.time, s'.pt)])]) := by
        unfold insertCurve
        rw [if_neg (by omega), if_pos (by omega)]
      refine ⟨_, e1, ⟨fun m l c hc => ?_, fun m l τ p => ?_⟩, by simp [hlen, hn]⟩
      · rw [List.getElem?_append] at hc
        split_ifs at hc with hm
        · exact ho1 m l c hc
        · have : m - o.length = 0 := by
            by_contra h0
            rw [List.getElem?_eq_none (by simp; omega)] at hc
            simp at hc
          rw [this] at hc
          simp only [List.getElem?_cons_zero, Option.some.injEq, Prod.mk.injEq] at hc
          rw [← hc.2]
          simp [Sorted]
      · by_cases hm : m < o.length
        · rw [List.getElem?_append_left hm, ho2]
          constructor
          · rintro ⟨a, ha, h⟩
            exact ⟨a, by simp [ha], h⟩
          · rintro ⟨a, ha, h⟩
            rcases List.mem_append.1 ha with ha | ha
            · exact ⟨a, ha, h⟩
            · rw [List.mem_singleton.1 ha] at h
              omega
        · rw [List.getElem?_append_right (not_lt.1 hm)]
          constructor
          · rintro ⟨c, hc, hmem⟩
            have h0 : m - o.length = 0 := by
              by_contra h0
              rw [List.getElem?_eq_none (by simp; omega)] at hc
              simp at hc
            rw [h0] at hc
            simp only [List.getElem?_cons_zero, Option.some.injEq, Prod.mk.injEq] at hc
            obtain ⟨rfl, rfl⟩ := hc
            simp only [List.mem_singleton, Prod.mk.injEq] at hmem
            exact ⟨s', by simp, by omega, rfl, hmem.1.symm, hmem.2.symm⟩
          · rintro ⟨a, ha, h⟩
            rcases List.mem_append.1 ha with ha | ha
            · have := hin a ha
              omega
            · rw [List.mem_singleton.1 ha] at h
              obtain ⟨h1, rfl, rfl, rfl⟩ := h
              refine ⟨[(fl s'.time, s'.pt)], ?_, by simp⟩
              rw [show m - o.length = 0 by omega]
              rfl
    · have hlt : s'.steps < o.length := by omega
      obtain ⟨c0, hc0, hmem0⟩ := (ho2 s.steps s.loc (fl s.time) s.pt).2 ⟨s, hs, rfl, rfl, rfl, rfl⟩
      have hall : ∀ b ∈ c0, b.1 < fl s'.time := by
        intro b hb
        obtain ⟨a, ha, _, _, h3, _⟩ := (ho2 s.steps s.loc b.1 b.2).1 ⟨c0, hc0, hb⟩
        rw [← h3]
        exact hfl a (by simp [ha]) s' (by simp) ((hu a ha).trans_lt ht)
      have e1 : insertCurve s'.steps (fl s'.time) s'.loc s'.pt o =
          some (o.modify s'.steps fun c => (c.1, insert (fl s'.time) s'.pt c.2)) := by
        unfold insertCurve
        rw [if_neg (by omega), if_neg (by omega)]
      have hget : ∀ m, (o.modify s'.steps fun c => (c.1, insert (fl s'.time) s'.pt c.2))[m]? =
          if m = s'.steps then some (s'.loc, c0 ++ [(fl s'.time, s'.pt)]) else o[m]? := by
        intro m
        rw [List.getElem?_modify]
        by_cases hm : m = s'.steps
        · subst hm
          rw [hn, hc0]
          simp [hl, insert_last _ _ _ hall]
        · rw [if_neg hm]
          cases o[m]? <;> simp [Ne.symm hm]
      refine ⟨_, e1, ⟨fun m l c hc => ?_, fun m l τ p => ?_⟩, by simp [hlen, hn]⟩
      · rw [hget] at hc
        split_ifs at hc with hm
        · simp only [Option.some.injEq, Prod.mk.injEq] at hc
          rw [← hc.2]
          refine List.pairwise_append.2 ⟨ho1 _ _ _ hc0, by simp, fun b hb d hd => ?_⟩
          rw [List.mem_singleton.1 hd]
          exact hall b hb
        · exact ho1 m l c hc
      · rw [hget]
        split_ifs with hm
        · constructor
          · rintro ⟨c, hc, hmem⟩
            simp only [Option.some.injEq, Prod.mk.injEq] at hc
            obtain ⟨rfl, rfl⟩ := hc
            rcases List.mem_append.1 hmem with hmem | hmem
            · obtain ⟨a, ha, h1, h2, h3⟩ := (ho2 s.steps s.loc τ p).1 ⟨c0, hc0, hmem⟩
              exact ⟨a, by simp [ha], by omega, by rw [h2, hl], h3⟩
            · simp only [List.mem_singleton, Prod.mk.injEq] at hmem
              exact ⟨s', by simp, hm.symm, rfl, hmem.1.symm, hmem.2.symm⟩
          · rintro ⟨a, ha, h1, h2, h3, h4⟩
            rcases List.mem_append.1 ha with ha | ha
            · obtain ⟨c, hc, hmem⟩ := (ho2 m l τ p).2 ⟨a, ha, h1, h2, h3, h4⟩
              rw [hm, hn, hc0] at hc
              simp only [Option.some.injEq, Prod.mk.injEq] at hc
              obtain ⟨rfl, rfl⟩ := hc
              exact ⟨_, by rw [hl], by simp [hmem]⟩
            · rw [List.mem_singleton.1 ha] at h2 h3 h4
              subst h2 h3 h4
              exact ⟨_, rfl, by simp⟩
        · rw [ho2]
          constructor
          · rintro ⟨a, ha, h⟩
            exact ⟨a, by simp [ha], h⟩
          · rintro ⟨a, ha, h⟩
            rcases List.mem_append.1 ha with ha | ha
            · exact ⟨a, ha, h⟩
            · rw [List.mem_singleton.1 ha] at h
              omega

/-- The orbit of a simulated point: the insertions never fail, there is a curve for every number of steps, and the curves hold
exactly the initial state and the recorded ones, if the rounding of times is strictly increasing on those of the states. -/
theorem C101_orbit_partial (S : Sys L E P K) (before : K → Bool) (nmax : ℤ) (term : E → Bool) {h : K} (hh : 0 < h)
    (fl : K → T) (fuel : ℕ) (l : L) (x : P) :
    let w := (simulate S before nmax term h fuel l x).1
    let u := (⟨l, x, 0, 0, none⟩ : State L E P K) :: w
    (∀ a ∈ u, ∀ b ∈ u, a.time < b.time → fl a.time < fl b.time) →
    ∃ o, orbit fl (fl 0) l x w = some o ∧ Holds fl u o ∧ ∀ b, u.getLast? = some b → o.length = b.steps + 1 := by
  intro w u hfl
  have hch : List.IsChain (Step S h) u := by
    have : ∀ w', w' = w → List.IsChain (Step S h) ((⟨l, x, 0, 0, none⟩ : State L E P K) :: w') := by
      rintro w' rfl
      change List.IsChain (Step S h) (_ :: (simulate S before nmax term h fuel l x).1)
      unfold simulate
      cases S.flow l with
      | none => exact .singleton _
      | some f =>
        cases guards S l with
        | none => exact .singleton _
        | some gs => exact (C101_execution S before nmax term h fuel _ _ _ rfl).1
    exact this w rfl
  refine insertStates_holds S hh fl w [⟨l, x, 0, 0, none⟩] ⟨l, x, 0, 0, none⟩ [(l, [(fl 0, x)])] hch (by simp) (by simp)
    hfl ⟨fun m l' c hc => ?_, fun m l' τ p => ?_⟩ rfl
  · cases m with
    | zero =>
      simp only [List.getElem?_cons_zero, Option.some.injEq, Prod.mk.injEq] at hc
      rw [← hc.2]
      simp [Sorted]
    | succ m => simp at hc
  · cases m with
    | zero =>
      simp only [List.getElem?_cons_zero, Option.some.injEq, Prod.mk.injEq, List.mem_singleton, exists_eq_left, true_and]
      constructor
      · rintro ⟨c, ⟨rfl, rfl⟩, hm⟩
        simp only [List.mem_singleton, Prod.mk.injEq] at hm
        exact ⟨rfl, hm.1.symm, hm.2.symm⟩
      · rintro ⟨rfl, rfl, rfl⟩
        exact ⟨_, ⟨rfl, rfl⟩, by simp⟩
    | succ m => simp

end Verif.Simulator.Hybrid
