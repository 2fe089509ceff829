import Verif.HybridEvolver.Crossings

/-!
# Guards

Applying the guard of an event keeps every state which is reached without passing the guard.
-/

namespace Verif.HybridEvolver

open Ariadne Ariadne.Logical Verif.ConstraintSolver Verif.Enclosure Verif.Evolver
open Ariadne.Ext (fin)

variable {L Ev : Type*} {dim : L → ℕ} {n m k : ℕ} {K : Type*} [Field K] [LinearOrder K] [IsStrictOrderedRing K]
variable {τ : Tools K} {R : Rounding K} {Reg : (K → K) → Prop} {φ : Flow m K} {ξ : K → Fin m → K} {r : K}
variable {E : Encl n m K} {p : Fin n → K} {t d s : K} {start : Fin m → Patch n K} {el : Patch n K}

/-- The parameter `p` gives a state reached after the time `s`. -/
structure Reached (φ : Flow m K) (ξ : K → Fin m → K) (r : K) (start : Fin m → Patch n K) (el : Patch n K)
    (p : Fin n → K) (s : K) : Prop where
  lower : 0 ≤ s
  upper : s ≤ φ.h
  start : ∀ i, (start i).has p (ξ r i)
  elapsed : el.has p s

theorem Reached.value (hτ : τ.Ok R Reg) (hl : Local φ ξ r) {D : Box n K} (hD : Mem D p)
    (hs : ∀ i, (start i).has p (ξ r i)) {f : Patch n K} {u : K} (hf : f.has p u) (h0 : 0 ≤ u) (h1 : u ≤ φ.h) {g : Patch m K}
    {G : (Fin m → K) → K} (hg : ∀ x, g.has x (G x)) :
    (τ.C.compose D g fun i => τ.C.compose D (φ.fn i) (ext start f)).has p (G (ξ (r + u))) :=
  hτ.sound.compose hD (fun i => hτ.sound.compose hD (has_ext.2 ⟨hs, hf⟩) (hl.follows u h0 h1 i)) (hg _)

theorem guardOne_keeps (hτ : τ.Ok R Reg) (hu : τ.upper = true) (hl : Local φ ξ r) (hE : On E p (ξ (r + s)) t d)
    (hs : Reached φ ξ r start el p s) {g : Patch m K} {G D : (Fin m → K) → K} (hg : ∀ x, g.has x (G x))
    (hsafe : ∀ u, 0 ≤ u → u ≤ s → G (ξ (r + u)) ≤ 0) {c : Crossing m K} (hc : CrossOk φ.h ξ r G D c) {o}
    (ho : τ.guardOne φ start el g E c = some o) :
    On o.1 p (ξ (r + s)) t d ∨ ∃ F ∈ o.2, On F p (ξ (r + s)) t d := by
  have hend : G (ξ (r + s)) ≤ 0 := hsafe s hs.lower le_rfl
  cases c with
  | transverse γ =>
    obtain rfl := Option.some.inj ho
    obtain ⟨y, hy, hsy⟩ := (hc s hs.lower hs.upper hsafe).1
    exact Or.inl (hE.newLe hτ hs.elapsed (hτ.sound.compose hE.at_.mem hs.start hy) hsy)
  | convex => obtain rfl := Option.some.inj ho; exact Or.inl (hE.negative hτ (hg _) hend)
  | increasing => obtain rfl := Option.some.inj ho; exact Or.inl (hE.negative hτ (hg _) hend)
  | decreasing => obtain rfl := Option.some.inj ho; exact Or.inl hE
  | concave =>
    simp only [Tools.guardOne, if_pos hu] at ho
    obtain rfl := Option.some.inj ho
    have h1 := hs.lower
    have h2 := hs.upper
    refine Or.inl (On.newNonpos hτ (On.newNonpos hτ hE (a := G (ξ (r + s * (1 / 2)))) ?_ ?_) (a := G (ξ (r + s * 1))) ?_ ?_)
    · exact Reached.value hτ hl hE.at_.mem hs.start (hτ.sound.scale hs.elapsed) (by linarith) (by linarith) hg
    · exact hsafe _ (by linarith) (by linarith)
    · exact Reached.value hτ hl hE.at_.mem hs.start (hτ.sound.scale hs.elapsed) (by linarith) (by linarith) hg
    · exact hsafe _ (by linarith) (by linarith)
  | degenerate =>
    simp only [Tools.guardOne, if_pos hu] at ho
    obtain rfl := Option.some.inj ho
    have h1 := hs.lower
    have h2 := hs.upper
    refine Or.inl (On.newNonpos hτ (On.newNonpos hτ hE (a := G (ξ (r + s * (1 / 2)))) ?_ ?_) (a := G (ξ (r + s * 1))) ?_ ?_)
    · exact Reached.value hτ hl hE.at_.mem hs.start (hτ.sound.scale hs.elapsed) (by linarith) (by linarith) hg
    · exact hsafe _ (by linarith) (by linarith)
    · exact Reached.value hτ hl hE.at_.mem hs.start (hτ.sound.scale hs.elapsed) (by linarith) (by linarith) hg
    · exact hsafe _ (by linarith) (by linarith)
  | grazing μ range =>
    obtain ⟨y, y0, y1, hy, hr⟩ := hc
    have hcrit := hτ.sound.compose (D := E.dom) hE.at_.mem hs.start hy
    have hfin := Reached.value hτ hl (D := E.dom) hE.at_.mem hs.start hs.elapsed hs.lower hs.upper hg
    have hmax := Reached.value hτ hl (D := E.dom) hE.at_.mem hs.start hcrit y0 y1 hg
    simp only [Tools.guardOne] at ho
    obtain ⟨r1, h1, ho⟩ := Option.bind_eq_some_iff.1 ho
    by_cases d1 : LV.definitely r1.1 = true
    · rw [if_pos d1] at ho
      obtain rfl := Option.some.inj ho
      exact Or.inl hE
    rw [if_neg d1] at ho
    obtain ⟨r2, h2, ho⟩ := Option.bind_eq_some_iff.1 ho
    by_cases d2 : LV.definitely r2.1 = true
    · rw [if_pos d2] at ho
      obtain rfl := Option.some.inj ho
      exact Or.inl (hE.newNonpos hτ hfin hend)
    rw [if_neg d2] at ho
    obtain ⟨hit, hh, ho⟩ := Option.bind_eq_some_iff.1 ho
    obtain ⟨miss, hm, ho⟩ := Option.bind_eq_some_iff.1 ho
    obtain ⟨past, hp, ho⟩ := Option.bind_eq_some_iff.1 ho
    obtain ⟨rm, hrm, ho⟩ := Option.bind_eq_some_iff.1 ho
    obtain ⟨rh, hrh, ho⟩ := Option.bind_eq_some_iff.1 ho
    obtain ⟨rp, hrp, rfl⟩ := Option.map_eq_some_iff.1 ho
    rcases le_or_gt (G (ξ (r + y))) 0 with hy0 | hy0
    · -- the maximum is not positive
      have hon : On miss p (ξ (r + s)) t d := (hE.newNonpos hτ hmax hy0).reduce hτ hm
      obtain ⟨e1, hon'⟩ := hon.isEmpty hτ hrm
      have hl0 : Ext.lt (fin 0) range.l = false := by
        by_contra hcn
        rw [Bool.not_eq_false] at hcn
        exact absurd (lt_sound_lower hcn hr) (not_lt.2 hy0)
      simp only [hl0, e1, Bool.or_self, Bool.false_eq_true, if_false]
      by_cases c2 : LV.definitely rh.1 = true
      · rw [if_pos c2]
        exact Or.inl hon'
      · rw [if_neg c2]
        exact Or.inl hon'
    · -- the guard is passed at the critical time, which is still to come
      have hsy : s ≤ y := by
        by_contra hcn
        exact absurd (hsafe y y0 (not_le.1 hcn).le) (not_le.2 hy0)
      have hon : On hit p (ξ (r + s)) t d :=
        (((hE.newNonneg hτ hmax hy0.le).newLe hτ hs.elapsed hcrit hsy).newNonpos hτ hfin hend).reduce hτ hh
      obtain ⟨e1, hon'⟩ := hon.isEmpty hτ hrh
      by_cases c1 : (Ext.lt (fin 0) range.l || LV.definitely rm.1) = true
      · rw [if_pos c1]
        exact Or.inl hon
      · rw [if_neg c1, if_neg (by simp [e1])]
        exact Or.inr ⟨rh.2, by simp, hon'⟩

theorem mapM_mem {α β : Type*} {f : α → Option β} {l : List α} {r : List β} (h : l.mapM f = some r) {a : α} (ha : a ∈ l) :
    ∃ b ∈ r, f a = some b := by
  induction l generalizing r with
  | nil => cases ha
  | cons x l ih =>
    simp only [List.mapM_cons, Option.bind_eq_bind, Option.pure_def] at h
    obtain ⟨b, hb, h⟩ := Option.bind_eq_some_iff.1 h
    obtain ⟨r', hr', h⟩ := Option.bind_eq_some_iff.1 h
    obtain rfl := Option.some.inj h
    rcases List.mem_cons.1 ha with rfl | ha
    · exact ⟨b, by simp, hb⟩
    · obtain ⟨b', h1, h2⟩ := ih hr' ha
      exact ⟨b', List.mem_cons_of_mem _ h1, h2⟩

theorem applyGuard_keeps (hτ : τ.Ok R Reg) (hu : τ.upper = true) (hl : Local φ ξ r)
    (hs : Reached φ ξ r start el p s) {g : Patch m K} {G D : (Fin m → K) → K} (hg : ∀ x, g.has x (G x))
    (hsafe : ∀ u, 0 ≤ u → u ≤ s → G (ξ (r + u)) ≤ 0) {c : Crossing m K} (hc : CrossOk φ.h ξ r G D c)
    {l l' : List (Encl n m K)} (hE : ∃ E ∈ l, On E p (ξ (r + s)) t d) (ho : τ.applyGuard φ start el g c l = some l') :
    ∃ E ∈ l', On E p (ξ (r + s)) t d := by
  simp only [Tools.applyGuard] at ho
  obtain ⟨rs, hrs, ho⟩ := Option.bind_eq_some_iff.1 ho
  by_cases hcn : (τ.strict && rs.any fun x => !x.2.isEmpty) = true
  · rw [if_pos hcn] at ho
    cases ho
  rw [if_neg hcn] at ho
  obtain rfl := Option.some.inj ho
  obtain ⟨E, hE, hon⟩ := hE
  obtain ⟨o, ho, h1⟩ := mapM_mem hrs hE
  rcases guardOne_keeps hτ hu hl hon hs hg hsafe hc h1 with h2 | ⟨F, hF, h2⟩
  · exact ⟨o.1, List.mem_append_left _ (List.mem_map.2 ⟨o, ho, rfl⟩), h2⟩
  · exact ⟨F, List.mem_append_right _ (List.mem_flatMap.2 ⟨o, ho, hF⟩), h2⟩

section

variable {q : L} {φ : Flow (dim q) K} {ξ : K → Fin (dim q) → K} {M : Sem L Ev dim K}
variable {start : Fin (dim q) → Patch n K} {el : Patch n K}

/-- A blocking event which has not happened after the time `s`. -/
structure Blocks (M : Sem L Ev dim K) (φ : Flow (dim q) K) (ξ : K → Fin (dim q) → K) (r s : K)
    (c : Trans L Ev dim K q × Crossing (dim q) K) : Prop where
  describes : M.Describes c.1
  safe : ∀ u, 0 ≤ u → u ≤ s → M.g c.1 (ξ (r + u)) ≤ 0
  cross : CrossOk φ.h ξ r (M.g c.1) (M.dg c.1) c.2

theorem applyGuards_keeps (hτ : τ.Ok R Reg) (hu : τ.upper = true) (hl : Local φ ξ r)
    (hs : Reached φ ξ r start el p s) {cs : List (Trans L Ev dim K q × Crossing (dim q) K)}
    (hc : ∀ c ∈ cs, Blocks M φ ξ r s c) : ∀ {l l' : List (Encl n (dim q) K)}, (∃ E ∈ l, On E p (ξ (r + s)) t d) →
    τ.applyGuards φ start el cs l = some l' → ∃ E ∈ l', On E p (ξ (r + s)) t d := by
  induction cs with
  | nil =>
    intro l l' hE ho
    obtain rfl := Option.some.inj ho
    exact hE
  | cons c cs ih =>
    intro l l' hE ho
    simp only [Tools.applyGuards] at ho
    obtain ⟨l1, h1, ho⟩ := Option.bind_eq_some_iff.1 ho
    have hb := hc c (by simp)
    exact ih (fun c hcs => hc c (List.mem_cons_of_mem _ hcs))
      (applyGuard_keeps hτ hu hl hs hb.describes.guard hb.safe hb.cross hE h1) ho

/-- The guards applied late do not split the set. -/
theorem applyGuards_late {cs : List (Trans L Ev dim K q × Crossing (dim q) K)} (hc : ∀ c ∈ cs, c.2.late = true) :
    ∀ {E : Encl n (dim q) K} {l'}, τ.applyGuards φ start el cs [E] = some l' → ∃ F, l' = [F] := by
  induction cs with
  | nil =>
    intro E l' ho
    exact ⟨E, (Option.some.inj ho).symm⟩
  | cons c cs ih =>
    intro E l' ho
    simp only [Tools.applyGuards] at ho
    obtain ⟨l1, h1, ho⟩ := Option.bind_eq_some_iff.1 ho
    have hl := hc c (by simp)
    have : ∃ F, l1 = [F] := by
      simp only [Tools.applyGuard, List.mapM_cons, List.mapM_nil, Option.bind_eq_bind, Option.pure_def] at h1
      obtain ⟨rs, hrs, h1⟩ := Option.bind_eq_some_iff.1 h1
      obtain ⟨o, ho, hrs⟩ := Option.bind_eq_some_iff.1 hrs
      simp only [Option.bind_some] at hrs
      obtain rfl := Option.some.inj hrs
      have ho2 : o.2 = [] := by
        obtain ⟨tr, c⟩ := c
        cases c with
        | transverse γ => obtain rfl := Option.some.inj ho; rfl
        | increasing => obtain rfl := Option.some.inj ho; rfl
        | _ => cases hl
      split_ifs at h1
      obtain rfl := Option.some.inj h1
      exact ⟨o.1, by simp [ho2]⟩
    obtain ⟨F, rfl⟩ := this
    exact ih (fun c hcs => hc c (List.mem_cons_of_mem _ hcs)) ho

theorem lateGuards_keeps (hτ : τ.Ok R Reg) (hu : τ.upper = true) (hl : Local φ ξ r)
    (hs : Reached φ ξ r start el p s) {cs : List (Trans L Ev dim K q × Crossing (dim q) K)}
    (hc : ∀ c ∈ cs, Blocks M φ ξ r s c) (hlate : ∀ c ∈ cs, c.2.late = true) {E F : Encl n (dim q) K}
    (hE : On E p (ξ (r + s)) t d) (ho : τ.lateGuards φ start el cs E = some F) : On F p (ξ (r + s)) t d := by
  simp only [Tools.lateGuards] at ho
  obtain ⟨l, h1, ho⟩ := Option.bind_eq_some_iff.1 ho
  obtain ⟨F', rfl⟩ := applyGuards_late hlate h1
  obtain ⟨F'', h2, h3⟩ := applyGuards_keeps hτ hu hl hs hc ⟨E, by simp, hE⟩ h1
  obtain rfl := Option.some.inj ho
  rwa [List.mem_singleton.1 h2] at h3

end

end Verif.HybridEvolver
