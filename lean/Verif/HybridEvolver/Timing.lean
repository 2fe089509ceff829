import Verif.HybridEvolver.Crossings

/-!
# Timing

The evolution time chosen for a state lies between zero and the step size, and an event which is no longer considered
does not happen before it.
-/

namespace Verif.HybridEvolver

open Ariadne Ariadne.Logical Verif.ConstraintSolver Verif.Enclosure Verif.Evolver
open Ariadne.Ext (fin)

variable {L Ev : Type*} {dim : L → ℕ} {n m k : ℕ} {K : Type*} [Field K] [LinearOrder K] [IsStrictOrderedRing K]
variable {τ : Tools K} {R : Rounding K} {Reg : (K → K) → Prop}

/-! ## Comparisons -/

theorem le_sound_upper {b : Bounds K} {c y : K} (h : Ext.le b.u (fin c) = true) (hy : b.Contains y) : y ≤ c := by
  obtain ⟨l, u⟩ := b
  obtain ⟨-, h2⟩ := hy
  cases u with
  | fin u => exact le_trans h2 (of_decide_eq_true h)
  | ninf => exact h2.elim
  | pinf => cases h
  | nan => cases h

theorem le_sound_lower {b : Bounds K} {c y : K} (h : Ext.le (fin c) b.l = true) (hy : b.Contains y) : c ≤ y := by
  obtain ⟨l, u⟩ := b
  obtain ⟨h1, -⟩ := hy
  cases l with
  | fin l => exact le_trans (of_decide_eq_true h) h1
  | pinf => exact h1.elim
  | ninf => cases h
  | nan => cases h

theorem lt_of_not_le_lower {b : Bounds K} {c y : K} (h0 : Ext.lt b.l (fin 0) = false) (h : Ext.le b.l (fin c) = false)
    (hy : b.Contains y) : c < y := by
  obtain ⟨l, u⟩ := b
  obtain ⟨h1, -⟩ := hy
  cases l with
  | fin l => exact lt_of_lt_of_le (not_le.1 (of_decide_eq_false h)) h1
  | pinf => exact h1.elim
  | ninf => cases h0
  | nan => exact h1.elim

/-! ## The temporal evolution time -/

theorem halve_ok (hτ : τ.Ok R Reg) {b : Bounds K} {y h : K} (hy : b.Contains y) (j : ℕ) : ∀ {s s' : K}, 0 < s →
    τ.halve b.u h j s = some s' → 0 < s' ∧ s' ≤ s ∧ s' * y ≤ h := by
  induction j with
  | zero => intro s s' _ h; cases h
  | succ j ih =>
    intro s s' hs he
    simp only [Tools.halve] at he
    by_cases hc : Ext.le (Ext.mul τ.X.up b.u (fin s)) (fin h) = true
    · rw [if_pos hc] at he
      obtain rfl := Option.some.inj he
      refine ⟨hs, le_rfl, ?_⟩
      rw [hτ.round] at hc
      obtain ⟨l, u⟩ := b
      have h2 := hy.2
      simp only at hc h2
      cases u with
      | fin u =>
        have h3 : R.up (u * s) ≤ h := of_decide_eq_true hc
        have h4 : y ≤ u := h2
        calc s * y ≤ s * u := mul_le_mul_of_nonneg_left h4 hs.le
          _ = u * s := mul_comm _ _
          _ ≤ R.up (u * s) := R.le_up _
          _ ≤ h := h3
      | ninf => exact h2.elim
      | pinf => simp [Ext.mul, Ext.infSign, hs, Ext.le] at hc
      | nan => cases hc
    · rw [if_neg hc] at he
      obtain ⟨h1, h2, h3⟩ := ih (by linarith) he
      exact ⟨h1, by linarith, h3⟩

/-- Whether the final time is passed by some of the states in a step. -/
def Tools.straddles (τ : Tools K) (E : Encl n m K) (h : K) : Prop :=
  ∃ b f e, τ.temporal E h = some (b, f, Finish.straddle, e)

theorem temporal_ok (hτ : τ.Ok R Reg) {E : Encl n m K} {p x t d} (hE : On E p x t d) {h T : K} (hh : 0 < h)
    (hT : τ.final.Contains T) (ht : t ≤ T) {tt} (he : τ.temporal E h = some tt) :
    ∃ w, tt.2.2.2.has p w ∧ 0 ≤ w ∧ w ≤ h ∧ (tt.1 = true → w = h) ∧ (tt.2.2.1 = .at_ → w = T - t) ∧
      (tt.2.2.1 = .straddle → w = h) ∧ (tt.2.2.1 = .before → t + w ≤ T) := by
  have hr : (Bounds.sub τ.X τ.final (timeRange E)).Contains (T - t) := Bounds.C05_sub _ hT hE.time_mem
  have hfin : (τ.toFinal E).has p (T - t) := by
    have := hτ.sound.scale (c := -1) (hE.pastFinal hτ hT)
    rwa [mul_neg_one, neg_sub] at this
  simp only [Tools.temporal] at he
  set b := Bounds.sub τ.X τ.final (timeRange E) with hb
  have hat : Ext.le b.u (fin h) = true → ∃ w, (τ.toFinal E).has p w ∧ 0 ≤ w ∧ w ≤ h ∧ w = T - t := fun hc =>
    ⟨T - t, hfin, sub_nonneg.2 ht, le_sound_upper hc hr, rfl⟩
  by_cases c1 : Ext.lt b.l (fin 0) = true
  · rw [if_pos c1] at he
    by_cases c2 : Ext.le b.u (fin h) = true
    · rw [if_pos c2] at he
      obtain rfl := Option.some.inj he
      obtain ⟨w, h1, h2, h3, h4⟩ := hat c2
      exact ⟨w, h1, h2, h3, fun h => (by cases h), fun _ => h4, fun h => (by cases h), fun h => (by cases h)⟩
    · rw [if_neg c2] at he
      obtain rfl := Option.some.inj he
      exact ⟨h, hτ.sound.const h hE.at_.mem, hh.le, le_rfl, fun _ => rfl, fun h => (by cases h), fun _ => rfl,
        fun h => (by cases h)⟩
  rw [if_neg c1] at he
  by_cases c2 : Ext.le b.u (fin h) = true
  · rw [if_pos c2] at he
    obtain rfl := Option.some.inj he
    obtain ⟨w, h1, h2, h3, h4⟩ := hat c2
    exact ⟨w, h1, h2, h3, fun h => (by cases h), fun _ => h4, fun h => (by cases h), fun h => (by cases h)⟩
  rw [if_neg c2] at he
  by_cases c3 : Ext.le b.l (fin h) = true
  · rw [if_pos c3] at he
    obtain ⟨s, hs, rfl⟩ := Option.map_eq_some_iff.1 he
    obtain ⟨h1, h2, h3⟩ := halve_ok hτ hr _ one_pos hs
    refine ⟨(T - t) * s, hτ.sound.scale hfin, mul_nonneg (sub_nonneg.2 ht) h1.le, by rwa [mul_comm], fun h => (by cases h),
      fun h => (by cases h), fun h => (by cases h), fun _ => ?_⟩
    have : (T - t) * s ≤ (T - t) * 1 := mul_le_mul_of_nonneg_left h2 (sub_nonneg.2 ht)
    linarith
  · rw [if_neg c3] at he
    obtain rfl := Option.some.inj he
    rw [Bool.not_eq_true] at c1 c3
    have := lt_of_not_le_lower c1 c3 hr
    exact ⟨h, hτ.sound.const h hE.at_.mem, hh.le, le_rfl, fun _ => rfl, fun h => (by cases h), fun _ => rfl,
      fun _ => by linarith⟩

/-! ## Creeping up to guards -/

/-- The set creeps up to a guard in the next step although some of its states pass the final time in the step. -/
def Tools.CreepsPast (τ : Tools K) (sys : (q : L) → List (Trans L Ev dim K q))
    (flowStep : (q : L) → Box (dim q) K → Flow (dim q) K) (S : HSet L Ev dim K) : Prop :=
  ∃ o φ act cr, S.set.isEmpty τ.X τ.C = some o ∧ flowStep S.loc (o.2.boundingBox τ.C) = φ ∧
    τ.activeEvents (o.2.applyFullReachStep τ.C φ) (sys S.loc) = some act ∧ τ.crossings φ o.2 act = some cr ∧
    τ.creep φ o.2 cr = some true ∧ τ.straddles o.2 φ.h

/-- The factor by which the guard is to be reduced. -/
def Tools.creepAlpha (τ : Tools K) {q : L} (φ : Flow (dim q) K) (tr : Trans L Ev dim K q) : K :=
  τ.alpha φ.h (τ.C.range (flowDom φ) (τ.alongFlow φ tr.dguard)).l (τ.C.range (flowDom φ) (τ.alongFlow φ tr.guard)).l

/-- The function whose zeros are the times at which the guard is reduced. -/
def Tools.creepFun (τ : Tools K) {q : L} (φ : Flow (dim q) K) (tr : Trans L Ev dim K q) : Patch (dim q + 1) K :=
  τ.C.sub (τ.alongFlow φ tr.guard)
    (τ.C.scale (τ.C.compose (flowDom φ) tr.guard fun i => τ.C.coord (flowDom φ) (Fin.castAdd 1 i)) (τ.creepAlpha φ tr))

/-- The errors of the creep times are small enough to be dropped (line 1915): the time which is used is not later than
any of the times it is made from.  See `creepOk_of_keeps`. -/
def Tools.CreepOk (τ : Tools K) (L Ev : Type*) (dim : L → ℕ) (Reg : (K → K) → Prop) : Prop :=
  ∀ {q : L} (φ : Flow (dim q) K) (l l' : List (Trans L Ev dim K q × Crossing (dim q) K)) (s : Patch (dim q) K), 0 < φ.h →
    τ.creepLoop φ l (τ.C.const φ.dom (φ.h * (15 / 16))) = some (s, l') → ∀ x, Mem φ.dom x →
    ∀ v : Trans L Ev dim K q → K → K,
    (∀ a ∈ l, a.1.kind ≠ .permissive → ∀ f, τ.creepTime φ a.1 = some (some f) →
      Reg (v a.1) ∧ ∀ y, 0 ≤ y → y ≤ φ.h → (τ.creepFun φ a.1).has (ext x y) (v a.1 y)) →
    ∃ c, (τ.C.clobber s).has x c ∧ 0 ≤ c ∧ c ≤ φ.h ∧ ∀ a ∈ l, a.1.kind ≠ .permissive →
      ∀ f, τ.creepTime φ a.1 = some (some f) → ∀ y, 0 ≤ y → y ≤ φ.h → v a.1 y = 0 → c ≤ y

variable {q : L} {φ : Flow (dim q) K} {ξ : K → Fin (dim q) → K} {r : K} {M : Sem L Ev dim K}

theorem creepTime_some {tr : Trans L Ev dim K q} {f} (h : τ.creepTime φ tr = some (some f)) :
    Ext.lt (τ.C.range (flowDom φ) (τ.alongFlow φ tr.guard)).l (fin 0) = true ∧ 0 < τ.creepAlpha φ tr ∧
      τ.creepAlpha φ tr ≤ 1 ∧ τ.implicit (τ.creepFun φ tr) φ.dom (between 0 φ.h) = .ok f := by
  simp only [Tools.creepTime] at h
  by_cases c1 : Ext.lt (τ.C.range (flowDom φ) (τ.alongFlow φ tr.guard)).l (fin 0) = true
  · rw [if_pos c1] at h
    by_cases c2 : 0 < τ.creepAlpha φ tr ∧ τ.creepAlpha φ tr ≤ 1
    · have h' : (match τ.implicit (τ.creepFun φ tr) φ.dom (between 0 φ.h) with
          | .ok f => some (some f) | _ => some none) = some (some f) := by
        rw [← h]; exact (if_pos c2).symm
      cases hi : τ.implicit (τ.creepFun φ tr) φ.dom (between 0 φ.h) with
      | ok f' =>
        rw [hi] at h'
        obtain rfl := Option.some.inj (Option.some.inj h')
        exact ⟨c1, c2.1, c2.2, rfl⟩
      | failed => rw [hi] at h'; cases Option.some.inj h'
      | error => rw [hi] at h'; cases Option.some.inj h'
    · have h' : (some none : Option (Option (Patch (dim q) K))) = some (some f) := by
        rw [← h]; exact (if_neg c2).symm
      cases Option.some.inj h'
  · rw [if_neg c1] at h
    cases h

theorem creepLoop_mem {l l' : List (Trans L Ev dim K q × Crossing (dim q) K)} : ∀ {s s'},
    τ.creepLoop φ l s = some (s', l') → (∀ c ∈ l', c ∈ l) ∧
      ∀ c ∈ l, c ∈ l' ∨ c.1.kind ≠ .permissive ∧ ∃ f, τ.creepTime φ c.1 = some (some f) := by
  induction l generalizing l' with
  | nil =>
    intro s s' h
    obtain ⟨-, rfl⟩ := Prod.mk.injEq _ _ _ _ ▸ Option.some.inj h
    simp
  | cons c l ih =>
    intro s s' h
    simp only [Tools.creepLoop] at h
    by_cases hk : c.1.kind = .permissive
    · rw [if_pos hk] at h
      obtain ⟨⟨s1, l1⟩, h1, h2⟩ := Option.map_eq_some_iff.1 h
      obtain ⟨-, rfl⟩ := Prod.mk.injEq _ _ _ _ ▸ h2
      obtain ⟨i1, i2⟩ := ih h1
      refine ⟨fun a ha => ?_, fun a ha => ?_⟩
      · rcases List.mem_cons.1 ha with rfl | ha
        · simp
        · exact List.mem_cons_of_mem _ (i1 a ha)
      · rcases List.mem_cons.1 ha with rfl | ha
        · simp
        · exact (i2 a ha).imp (List.mem_cons_of_mem _) id
    · rw [if_neg hk] at h
      obtain ⟨f, hf, h⟩ := Option.bind_eq_some_iff.1 h
      cases f with
      | some f =>
        obtain ⟨i1, i2⟩ := ih h
        refine ⟨fun a ha => List.mem_cons_of_mem _ (i1 a ha), fun a ha => ?_⟩
        rcases List.mem_cons.1 ha with rfl | ha
        · exact Or.inr ⟨hk, f, hf⟩
        · exact i2 a ha
      | none =>
        obtain ⟨⟨s1, l1⟩, h1, h2⟩ := Option.map_eq_some_iff.1 h
        obtain ⟨-, rfl⟩ := Prod.mk.injEq _ _ _ _ ▸ h2
        obtain ⟨i1, i2⟩ := ih h1
        refine ⟨fun a ha => ?_, fun a ha => ?_⟩
        · rcases List.mem_cons.1 ha with rfl | ha
          · simp
          · exact List.mem_cons_of_mem _ (i1 a ha)
        · rcases List.mem_cons.1 ha with rfl | ha
          · simp
          · exact (i2 a ha).imp (List.mem_cons_of_mem _) id

theorem creepFun_has (hτ : τ.Ok R Reg) (hl : Local φ ξ r) {tr : Trans L Ev dim K q} (hM : M.Describes tr) {y : K}
    (y0 : 0 ≤ y) (y1 : y ≤ φ.h) :
    (τ.creepFun φ tr).has (ext (ξ r) y) (M.g tr (ξ (r + y)) - M.g tr (ξ r) * τ.creepAlpha φ tr) := by
  refine hτ.sound.sub (hl.along hτ y0 y1 (hM.guard _)) (hτ.sound.scale ?_)
  refine hτ.sound.compose (hl.mem_dom y0 y1) (fun i => ?_) (hM.guard (ξ r))
  have := hτ.sound.coord (Fin.castAdd 1 i) (hl.mem_dom y0 y1)
  simpa [ext] using this

/-- An event up to which the evolution creeps does not happen before the creep time. -/
theorem creep_before (hτ : τ.Ok R Reg) (hl : Local φ ξ r) {tr : Trans L Ev dim K q} (hM : M.Describes tr)
    (ha : Along M Reg tr ξ) {f} (hf : τ.creepTime φ tr = some (some f)) {c : K}
    (hc : ∀ y, 0 ≤ y → y ≤ φ.h → M.g tr (ξ (r + y)) - M.g tr (ξ r) * τ.creepAlpha φ tr = 0 → c ≤ y)
    {s : K} (s0 : 0 ≤ s) (s1 : s ≤ φ.h) (hs : M.g tr (ξ (r + s)) = 0) (hn : M.g tr (ξ r) ≤ 0) : c ≤ s := by
  obtain ⟨h1, h2, h3, h4⟩ := creepTime_some hf
  have hz : M.g tr (ξ r) = 0 ∨ τ.creepAlpha φ tr = 1 → c ≤ s := by
    intro h
    refine (hc 0 le_rfl hl.pos.le ?_).trans s0
    rw [add_zero]
    rcases h with h | h
    · rw [h]; ring
    · rw [h]; ring
  rcases eq_or_lt_of_le h3 with h5 | h5
  · exact hz (Or.inr h5)
  have hd : ∀ y, 0 ≤ y → y ≤ φ.h → 0 ≤ M.dg tr (ξ (r + y)) := fun y y0 y1 =>
    le_sound_lower (hτ.alpha _ _ _ hl.pos h1 h5)
      (hτ.sound.range (hl.mem_dom y0 y1) (hl.along hτ y0 y1 (hM.dguard _)))
  obtain ⟨⟨y, y0, y1, e, -⟩, -⟩ := hτ.implicit h4 (ξ r) hl.dom _ (ha.reg r (M.g tr (ξ r) * τ.creepAlpha φ tr) hl.time)
    fun y y0 y1 => creepFun_has hτ hl hM y0 y1
  rcases le_or_gt y s with h6 | h6
  · exact (hc y y0 y1 e).trans h6
  · have h7 : M.g tr (ξ (r + s)) ≤ M.g tr (ξ (r + y)) := by
      refine ha.deriv.nonneg _ _ (by linarith [hl.time]) (by linarith) fun w w0 w1 => ?_
      have := hd (w - r) (by linarith) (by linarith)
      rwa [add_sub_cancel] at this
    have h8 : 0 ≤ M.g tr (ξ r) * τ.creepAlpha φ tr := by linarith
    exact hz (Or.inl (le_antisymm hn (nonneg_of_mul_nonneg_left h8 h2)))

/-- A function with a zero in an interval has a first zero there. -/
def FirstZero (Reg : (K → K) → Prop) : Prop :=
  ∀ v, Reg v → ∀ a b y, 0 ≤ a → a ≤ y → y ≤ b → v y = 0 → ∃ z, a ≤ z ∧ z ≤ b ∧ v z = 0 ∧ ∀ y, a ≤ y → y ≤ b → v y = 0 → z ≤ y

/-- If dropping the error keeps the values, as it does for functions without an error, then `CreepOk` holds. -/
theorem creepOk_of_keeps (hτ : τ.Ok R Reg) (hR : FirstZero Reg)
    (hk : ∀ {n : ℕ} {f : Patch n K} {p y}, f.has p y → (τ.C.clobber f).has p y) : τ.CreepOk L Ev dim Reg := by
  intro q φ l l' s hh h x hx v hv
  suffices H : ∀ (l l' : List (Trans L Ev dim K q × Crossing (dim q) K)) (s₀ s : Patch (dim q) K) (c₀ : K), s₀.has x c₀ →
      0 ≤ c₀ → c₀ ≤ φ.h → τ.creepLoop φ l s₀ = some (s, l') →
      (∀ a ∈ l, a.1.kind ≠ .permissive → ∀ f, τ.creepTime φ a.1 = some (some f) →
        Reg (v a.1) ∧ ∀ y, 0 ≤ y → y ≤ φ.h → (τ.creepFun φ a.1).has (ext x y) (v a.1 y)) →
      ∃ c, s.has x c ∧ 0 ≤ c ∧ c ≤ c₀ ∧ ∀ a ∈ l, a.1.kind ≠ .permissive →
        ∀ f, τ.creepTime φ a.1 = some (some f) → ∀ y, 0 ≤ y → y ≤ φ.h → v a.1 y = 0 → c ≤ y by
    have hc0 : 0 ≤ φ.h * (15 / 16) := by positivity
    have hc1 : φ.h * (15 / 16) ≤ φ.h := mul_le_of_le_one_right hh.le (by norm_num)
    obtain ⟨c, h1, h2, h3, h4⟩ := H l l' _ s _ (hτ.sound.const (φ.h * (15 / 16)) hx) hc0 hc1 h hv
    exact ⟨c, hk h1, h2, h3.trans hc1, h4⟩
  intro l
  induction l with
  | nil =>
    intro l' s₀ s c₀ h0 h1 h2 h hv
    obtain ⟨rfl, rfl⟩ := Prod.mk.injEq _ _ _ _ ▸ Option.some.inj h
    exact ⟨c₀, h0, h1, le_rfl, by simp⟩
  | cons a l ih =>
    intro l' s₀ s c₀ h0 h1 h2 h hv
    have hv' := fun b hb => hv b (List.mem_cons_of_mem _ hb)
    have hskip : (∀ f, τ.creepTime φ a.1 = some (some f) → a.1.kind = .permissive) →
        (τ.creepLoop φ l s₀).map (fun r => (r.1, a :: r.2)) = some (s, l') → ∃ c, s.has x c ∧ 0 ≤ c ∧ c ≤ c₀ ∧
        ∀ b ∈ a :: l, b.1.kind ≠ .permissive →
        ∀ f, τ.creepTime φ b.1 = some (some f) → ∀ y, 0 ≤ y → y ≤ φ.h → v b.1 y = 0 → c ≤ y := by
      intro hf h
      obtain ⟨⟨s1, l1⟩, e, h⟩ := Option.map_eq_some_iff.1 h
      obtain ⟨rfl, -⟩ := Prod.mk.injEq _ _ _ _ ▸ h
      obtain ⟨c, c1, c2, c3, c4⟩ := ih l1 s₀ s1 c₀ h0 h1 h2 e hv'
      refine ⟨c, c1, c2, c3, fun b hb hb' f hf' => ?_⟩
      rcases List.mem_cons.1 hb with rfl | hb
      · exact absurd (hf f hf') hb'
      · exact c4 b hb hb' f hf'
    simp only [Tools.creepLoop] at h
    by_cases hp : a.1.kind = .permissive
    · rw [if_pos hp] at h
      exact hskip (fun _ _ => hp) h
    rw [if_neg hp] at h
    obtain ⟨f, hf, h⟩ := Option.bind_eq_some_iff.1 h
    cases f with
    | none => exact hskip (fun f hf' => by rw [hf] at hf'; cases Option.some.inj hf') h
    | some f =>
      obtain ⟨v1, v2⟩ := hv a (by simp) hp f hf
      obtain ⟨⟨y, y0, y1, e, -⟩, hall⟩ := hτ.implicit (creepTime_some hf).2.2.2 x hx _ v1 v2
      obtain ⟨z, z0, z1, ez, hz⟩ := hR _ v1 0 φ.h y le_rfl y0 y1 e
      have hfz := hall z z0 z1 ez
      have hzh0 : 0 ≤ z * (1 / φ.h) := mul_nonneg z0 (by positivity)
      have hzh1 : z * (1 / φ.h) ≤ 1 := by
        rw [mul_one_div]
        exact (div_le_one hh).2 z1
      have hle : c₀ * (z * (1 / φ.h)) ≤ c₀ := mul_le_of_le_one_right h1 hzh1
      have hle' : c₀ * (z * (1 / φ.h)) ≤ z := by
        calc c₀ * (z * (1 / φ.h)) ≤ φ.h * (z * (1 / φ.h)) := mul_le_mul_of_nonneg_right h2 hzh0
          _ = z := by field_simp
      obtain ⟨c, c1, c2, c3, c4⟩ := ih l' _ s (c₀ * (z * (1 / φ.h))) (hτ.mul h0 (hτ.sound.scale hfz)) (mul_nonneg h1 hzh0)
        (hle.trans h2) h hv'
      refine ⟨c, c1, c2, c3.trans hle, fun b hb hb' g hg y y0 y1 hy => ?_⟩
      rcases List.mem_cons.1 hb with rfl | hb
      · exact (c3.trans hle').trans (hz y y0 y1 hy)
      · exact c4 b hb hb' g hg y y0 y1 hy

/-- **Timing**. -/
theorem timing_ok (hτ : τ.Ok R Reg) (hcreep : τ.CreepOk L Ev dim Reg) (hl : Local φ ξ r) {E : Encl n (dim q) K} {p t d}
    (hE : On E p (ξ r) t d) {T : K} (hT : τ.final.Contains T) (ht : t ≤ T)
    {cr : List (Trans L Ev dim K q × Crossing (dim q) K)} (hcr : ∀ c ∈ cr, M.Describes c.1 ∧ Along M Reg c.1 ξ) {o}
    (ho : τ.timing φ E cr = some o) :
    ∃ w, o.1.evo.has p w ∧ o.1.fin.has p (t + w) ∧ 0 ≤ w ∧ w ≤ φ.h ∧ (∀ c ∈ o.2, c ∈ cr) ∧
      (∀ c ∈ cr, c ∈ o.2 ∨ c.1.kind ≠ .permissive ∧
        ∀ s, 0 ≤ s → s ≤ φ.h → M.g c.1 (ξ (r + s)) = 0 → M.g c.1 (ξ r) ≤ 0 → w ≤ s) ∧
      (o.1.constant = true → w = φ.h) ∧ (o.1.kind = .at_ → w = T - t) ∧ (o.1.kind = .straddle → w = φ.h) ∧
      (o.1.kind = .before → t + w ≤ T ∨ τ.creep φ E cr = some true ∧ τ.straddles E φ.h) := by
  simp only [Tools.timing] at ho
  obtain ⟨tt, h1, ho⟩ := Option.bind_eq_some_iff.1 ho
  obtain ⟨b, h2, ho⟩ := Option.bind_eq_some_iff.1 ho
  obtain ⟨w, w1, w2, w3, w4, w5, w6, w7⟩ := temporal_ok hτ hE hl.pos hT ht h1
  cases b with
  | false =>
    rw [if_neg (by simp)] at ho
    obtain rfl := Option.some.inj ho
    refine ⟨w, w1, ?_, w2, w3, fun c h => h, fun c h => Or.inl h, w4, w5, w6, fun h1 => Or.inl (w7 h1)⟩
    rw [add_comm]
    exact hτ.sound.add w1 hE.at_.time
  | true =>
    rw [if_pos rfl] at ho
    obtain ⟨⟨s, cr'⟩, h3, rfl⟩ := Option.map_eq_some_iff.1 ho
    obtain ⟨c, c1, c2, c3, c4⟩ := hcreep φ cr cr' s hl.pos h3 (ξ r) hl.dom
      (fun tr y => M.g tr (ξ (r + y)) - M.g tr (ξ r) * τ.creepAlpha φ tr) fun a ha _ _ _ =>
      ⟨(hcr a ha).2.reg r (M.g a.1 (ξ r) * τ.creepAlpha φ a.1) hl.time,
        fun y y0 y1 => creepFun_has hτ hl (hcr a ha).1 y0 y1⟩
    obtain ⟨m1, m2⟩ := creepLoop_mem h3
    have hpos := hl.pos
    have hwh : w * (1 / φ.h) ≤ 1 := by
      rw [mul_one_div]
      exact (div_le_one hpos).2 w3
    have hwh0 : 0 ≤ w * (1 / φ.h) := mul_nonneg w2 (by positivity)
    have hle : c * (w * (1 / φ.h)) ≤ c := mul_le_of_le_one_right c2 hwh
    have hlew : c * (w * (1 / φ.h)) ≤ w := by
      calc c * (w * (1 / φ.h)) ≤ φ.h * (w * (1 / φ.h)) := mul_le_mul_of_nonneg_right c3 hwh0
        _ = w := by field_simp
    have hevo : (τ.mul (τ.C.compose E.dom (τ.C.clobber s) E.fn) (τ.C.scale tt.2.2.2 (1 / φ.h))).has p
        (c * (w * (1 / φ.h))) :=
      hτ.mul (hτ.sound.compose hE.at_.mem hE.at_.fn c1) (hτ.sound.scale w1)
    refine ⟨c * (w * (1 / φ.h)), hevo, ?_, mul_nonneg c2 hwh0, hle.trans c3, m1, fun a ha => ?_, fun h => (by cases h),
      fun h => (by cases h), fun h => (by cases h), fun _ => ?_⟩
    · rw [add_comm]
      exact hτ.sound.add hevo hE.at_.time
    · rcases m2 a ha with h4 | ⟨h4, f, hf⟩
      · exact Or.inl h4
      · refine Or.inr ⟨h4, fun s' s0 s1 hs hn => hle.trans ?_⟩
        refine creep_before hτ hl (hcr a ha).1 (hcr a ha).2 hf (fun y y0 y1 hy => ?_) s0 s1 hs hn
        exact c4 a ha h4 f hf y y0 y1 hy
    · obtain ⟨t1, t2, kind, e⟩ := tt
      cases kind with
      | at_ => simp at h2
      | before => exact Or.inl (by linarith [w7 rfl])
      | straddle => exact Or.inr ⟨by simpa using h2, t1, t2, e, h1⟩

end Verif.HybridEvolver
