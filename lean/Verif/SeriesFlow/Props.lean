import Verif.SeriesFlow.Taylor
import Verif.Graded.Flow
import Verif.SeriesFlow.Model
import Verif.TaylorModel.Arith

/-!
# C97: the expansion of a flow in space and time encloses the flow
-/

namespace Verif.SeriesFlow

open Verif.Graded (tc tc_zero tc_congr)
open Verif.Expansion (Terms value monomial)
open Verif.TaylorModel Ariadne Set Filter Topology

/-! ## Specification -/

variable {N : ℕ}

/-- Real coefficients within the bounds of the terms. -/
def Choice (A : Terms (List ℕ) (Num ℝ)) (q : Terms (List ℕ) ℝ) : Prop :=
  List.Forall₂ (fun u v => u.1 = v.1 ∧ u.2.Has v.2) A q

/-- The terms of degree `k`. -/
def part (k : ℕ) (q : Terms (List ℕ) ℝ) : Terms (List ℕ) ℝ := q.filter fun t => decide (t.1.sum = k)

/-- spec: the differential encloses the Taylor expansion of `g` at `p` up to degree `so`: there are
coefficients within its bounds with which the terms of degree `k` are, in every direction, the `k`-th
Taylor coefficient. -/
def Expands (so : ℕ) (A : Terms (List ℕ) (Num ℝ)) (g : (Fin N → ℝ) → ℝ) (p : Fin N → ℝ) : Prop :=
  (∀ u ∈ A, u.1.length = N ∧ u.1.sum ≤ so) ∧
    ∃ q, Choice A q ∧ ∀ k ≤ so, ∀ v : Fin N → ℝ,
      tc (fun r : ℝ => g (p + r • v)) k = value (monomial (List.ofFn v)) (part k q)

/-! ## Lists of terms -/

theorem choice_filter {A : Terms (List ℕ) (Num ℝ)} {q : Terms (List ℕ) ℝ} (h : Choice A q)
    (P : List ℕ → Bool) : Choice (A.filter fun t => P t.1) (q.filter fun t => P t.1) := by
  induction h with
  | nil => exact List.Forall₂.nil
  | @cons a b l m hab _ ih =>
    have : P a.1 = P b.1 := by rw [hab.1]
    cases hP : P b.1
    · rw [List.filter_cons_of_neg (by simp [this, hP]), List.filter_cons_of_neg (by simp [hP])]
      exact ih
    · rw [List.filter_cons_of_pos (by simp [this, hP]), List.filter_cons_of_pos (by simp [hP])]
      exact List.Forall₂.cons hab ih

theorem choice_mem {A : Terms (List ℕ) (Num ℝ)} {q : Terms (List ℕ) ℝ} (h : Choice A q)
    {v : List ℕ × ℝ} (hv : v ∈ q) : ∃ u ∈ A, u.1 = v.1 := by
  induction h with
  | nil => simp at hv
  | @cons a b l m hab _ ih =>
    rcases List.mem_cons.1 hv with rfl | h
    · exact ⟨a, by simp, hab.1⟩
    · obtain ⟨u, hu, e⟩ := ih h
      exact ⟨u, by simp [hu], e⟩

theorem choice_append {A B : Terms (List ℕ) (Num ℝ)} {q r : Terms (List ℕ) ℝ} (h : Choice A q)
    (h' : Choice B r) : Choice (A ++ B) (q ++ r) := List.rel_append h h'

/-- The coefficients may be chosen separately below and at the highest degree. -/
theorem choice_mix {A : Terms (List ℕ) (Num ℝ)} {q r : Terms (List ℕ) ℝ} (h : Choice A q)
    (h' : Choice A r) (P : List ℕ → Bool) :
    ∃ s, Choice A s ∧ (s.filter fun t => P t.1) = (q.filter fun t => P t.1) ∧
      (s.filter fun t => !P t.1) = (r.filter fun t => !P t.1) := by
  induction h generalizing r with
  | nil => cases h'; exact ⟨[], List.Forall₂.nil, rfl, rfl⟩
  | @cons a b l m hab _ ih =>
    cases h' with
    | @cons _ c _ n hac hn =>
      obtain ⟨s, h1, h2, h3⟩ := ih hn
      have e : P b.1 = P c.1 := by rw [← hab.1, ← hac.1]
      cases hP : P b.1
      · refine ⟨c :: s, List.Forall₂.cons hac h1, ?_, ?_⟩
        · rw [List.filter_cons_of_neg (by simp [← e, hP]), List.filter_cons_of_neg (by simp [hP]), h2]
        · rw [List.filter_cons_of_pos (by simp [← e, hP]), List.filter_cons_of_pos (by simp [← e, hP]), h3]
      · refine ⟨b :: s, List.Forall₂.cons hab h1, ?_, ?_⟩
        · rw [List.filter_cons_of_pos (by simp [hP]), List.filter_cons_of_pos (by simp [hP]), h2]
        · rw [List.filter_cons_of_neg (by simp [hP]), List.filter_cons_of_neg (by simp [← e, hP]), h3]

theorem value_filter_lt (m : List ℕ → ℝ) (q : Terms (List ℕ) ℝ) (so : ℕ) :
    value m (q.filter fun t => decide (t.1.sum < so)) = ∑ k ∈ Finset.range so, value m (part k q) := by
  induction q with
  | nil => simp [part]
  | cons t q ih =>
    have h : ∀ k, value m (part k (t :: q)) =
        (if t.1.sum = k then t.2 * m t.1 else 0) + value m (part k q) := by
      intro k
      by_cases hk : t.1.sum = k <;> simp [part, hk]
    simp only [h, Finset.sum_add_distrib, ← ih]
    by_cases hs : t.1.sum < so
    · simp [hs]
    · simp [hs]

theorem value_split (m : List ℕ → ℝ) (q : Terms (List ℕ) ℝ) (P : List ℕ → Bool) :
    value m q = value m (q.filter fun t => P t.1) + value m (q.filter fun t => !P t.1) := by
  induction q with
  | nil => simp
  | cons t q ih =>
    cases h : P t.1
    · simp [h, ih]; ring
    · simp [h, ih]; ring

/-! ## Expansion in space -/

variable {so : ℕ} {A A' : Terms (List ℕ) (Num ℝ)} {g : (Fin N → ℝ) → ℝ} {B : Set (Fin N → ℝ)}

theorem seg_mem (hB : Convex ℝ B) {p v : Fin N → ℝ} (hp : p ∈ B) (hv : p + v ∈ B) {θ : ℝ}
    (hθ : θ ∈ Icc (0 : ℝ) 1) : p + θ • v ∈ B := by
  have := hB.add_smul_sub_mem hp hv hθ
  simpa using this

/-- Terms below degree `so` at `p`, and of degree `so` anywhere in `B`. -/
theorem expand_centre (hB : Convex ℝ B) {p v : Fin N → ℝ} (hp : p ∈ B) (hv : p + v ∈ B)
    (hg : ∀ z ∈ B, ContDiffAt ℝ so (fun r : ℝ => g (z + r • v)) 0)
    (hA : Expands so A g p) (hA' : ∀ z ∈ B, Expands so A' g z) :
    ∃ q, Choice (A.filter (fun t => decide (t.1.sum < so)) ++
        A'.filter (fun t => decide (t.1.sum = so))) q ∧
      g (p + v) = value (monomial (List.ofFn v)) q := by
  obtain ⟨θ, hθ, h⟩ := segment (p := p) (v := v) fun θ hθ => hg _ (seg_mem hB hp hv hθ)
  obtain ⟨-, q, hq, hq'⟩ := hA
  obtain ⟨-, r, hr, hr'⟩ := hA' _ (seg_mem hB hp hv hθ)
  refine ⟨_, choice_append (choice_filter hq fun a => decide (a.sum < so))
    (choice_filter hr fun a => decide (a.sum = so)), ?_⟩
  rw [h, value_append, value_filter_lt, hr' so le_rfl]
  congr 1
  exact Finset.sum_congr rfl fun k hk => hq' k (Finset.mem_range.1 hk).le v

/-- All terms anywhere in `B`, around a point which is itself in `B`. -/
theorem expand_box (hB : Convex ℝ B) {p v : Fin N → ℝ} (hp : p ∈ B) (hv : p + v ∈ B)
    (hg : ∀ z ∈ B, ContDiffAt ℝ so (fun r : ℝ => g (z + r • v)) 0)
    (hA : ∀ z ∈ B, Expands so A g z) :
    ∃ q, Choice A q ∧ g (p + v) = value (monomial (List.ofFn v)) q := by
  obtain ⟨θ, hθ, h⟩ := segment (p := p) (v := v) fun θ hθ => hg _ (seg_mem hB hp hv hθ)
  obtain ⟨hle, q, hq, hq'⟩ := hA _ hp
  obtain ⟨-, r, hr, hr'⟩ := hA _ (seg_mem hB hp hv hθ)
  obtain ⟨s, h1, h2, h3⟩ := choice_mix hq hr fun a => decide (a.sum < so)
  refine ⟨s, h1, ?_⟩
  rw [h, value_split _ s fun a => decide (a.sum < so), h2, h3, value_filter_lt]
  have h4 : (r.filter fun t => !decide (t.1.sum < so)) = part so r := by
    have hle' : ∀ t ∈ r, t.1.sum ≤ so := by
      clear hr' h h1 h2 h3 hq hq'
      intro t ht
      obtain ⟨u, hu, hut⟩ := choice_mem hr ht
      rw [← hut]
      exact (hle u hu).2
    refine List.filter_congr fun t ht => ?_
    have := hle' t ht
    simp only [not_lt, Bool.not_eq_eq_eq_not, ← decide_not]
    exact decide_eq_decide.2 ⟨fun h => le_antisymm this h, fun h => h.ge⟩
  rw [h4, hr' so le_rfl]
  congr 1
  exact Finset.sum_congr rfl fun k hk => hq' k (Finset.mem_range.1 hk).le v

/-! ## Expansion in time -/

/-- The point with time `t` at position `gind`. -/
def joinPoint (gind : ℕ) (t : ℝ) (v : List ℝ) : List ℝ := v.take gind ++ t :: v.drop gind

theorem monomial_join {gind j : ℕ} {t : ℝ} {v : List ℝ} {a : List ℕ} (h : v.length = a.length) :
    monomial (joinPoint gind t v) (joinIndex gind j a) = monomial v a * t ^ j := by
  unfold joinPoint joinIndex
  rw [Verif.Expansion.monomial_append _ _ _ _ (by simp [h]), monomial_cons]
  conv_rhs => rw [← List.take_append_drop gind v, ← List.take_append_drop gind a,
    Verif.Expansion.monomial_append _ _ _ _ (by simp [h])]
  ring

theorem value_join {gind j : ℕ} {t : ℝ} {v : List ℝ} {q : Terms (List ℕ) ℝ}
    (h : ∀ u ∈ q, v.length = u.1.length) :
    value (monomial (joinPoint gind t v)) (q.map fun u => (joinIndex gind j u.1, u.2)) =
      value (monomial v) q * t ^ j := by
  induction q with
  | nil => simp
  | cons u q ih =>
    rw [List.map_cons, value_cons, value_cons, ih fun w hw => h w (by simp [hw]),
      monomial_join (h u (by simp))]
    ring

theorem choice_map {A : Terms (List ℕ) (Num ℝ)} {q : Terms (List ℕ) ℝ} (h : Choice A q)
    (f : List ℕ → List ℕ) : Choice (A.map fun t => (f t.1, t.2)) (q.map fun t => (f t.1, t.2)) := by
  induction h with
  | nil => exact List.Forall₂.nil
  | cons hab _ ih => exact List.Forall₂.cons ⟨by simp only [hab.1], hab.2⟩ ih

/-- Choices for every order in time give one for the whole. -/
theorem choice_differential {gind : ℕ} {t : ℝ} {v : List ℝ} (l : List (Terms (List ℕ) (Num ℝ))) (k : ℕ)
    (x : ℕ → ℝ) (hl : ∀ e ∈ l, ∀ u ∈ e, v.length = u.1.length)
    (h : ∀ j e, l[j]? = some e → ∃ q, Choice e q ∧ x (k + j) = value (monomial v) q) :
    ∃ q, Choice ((l.zipIdx k).flatMap fun e => e.1.map fun t => (joinIndex gind e.2 t.1, t.2)) q ∧
      ∑ j ∈ Finset.range l.length, x (k + j) * t ^ (k + j) =
        value (monomial (joinPoint gind t v)) q := by
  induction l generalizing k with
  | nil => exact ⟨[], List.Forall₂.nil, by simp⟩
  | cons e l ih =>
    obtain ⟨q, h1, h2⟩ := h 0 e rfl
    obtain ⟨r, h3, h4⟩ := ih (k + 1) (fun e he => hl e (by simp [he])) (fun j e he => by
      have := h (j + 1) e (by simpa using he)
      rwa [show k + (j + 1) = k + 1 + j by omega] at this)
    have hq : ∀ u ∈ q, v.length = u.1.length := by
      intro u hu
      obtain ⟨w, hw, hwu⟩ := choice_mem h1 hu
      rw [← hwu]
      exact hl e (by simp) w hw
    refine ⟨_, choice_append (choice_map h1 (joinIndex gind k)) h3, ?_⟩
    rw [value_append, value_join hq, ← h4, List.length_cons, Finset.sum_range_succ', add_comm, ← h2]
    congr 1
    exact Finset.sum_congr rfl fun j _ => by rw [show k + (j + 1) = k + 1 + j by omega]

theorem mapM_range {α : Type*} {f : ℕ → Option α} {n : ℕ} {l : List α}
    (h : (List.range n).mapM f = some l) : l.length = n ∧ ∀ j < n, ∃ a, f j = some a ∧ l[j]? = some a := by
  obtain ⟨h1, h2⟩ := Verif.Graded.mapM_getElem? _ h
  rw [List.length_range] at h1
  refine ⟨h1, fun j hj => ⟨l[j], ?_, by simp [h1, hj]⟩⟩
  obtain ⟨k, hk, hk'⟩ := h2 j l[j] (by simp [h1, hj])
  rw [List.getElem?_range hj, Option.some.injEq] at hk
  subst hk
  exact hk'

/-- **C97** The assembled differential encloses every solution.  The functions `y (p,s)` are the
solutions starting from `p` at time `s`; `w` is the trajectory from `x` at time `t0`, which stays in
`B`.  It is not enough that `B` contains the trajectory: it must contain the centre moved along with
the point. -/
theorem C97_expansion {gind ord : ℕ} {y : (Fin N → ℝ) × ℝ → ℝ → ℝ} {w : ℝ → Fin N → ℝ} {φ : ℝ → ℝ}
    {t0 t : ℝ} {c x : Fin N → ℝ} (hB : Convex ℝ B) (ht : 0 ≤ t) (hw0 : w 0 = x) (hc : c ∈ B) (hx : x ∈ B)
    (hw : ∀ ξ ∈ Icc 0 t, w ξ ∈ B ∧ c + (w ξ - x) ∈ B ∧ (fun τ => φ (ξ + τ)) =ᶠ[𝓝 0] y (w ξ, t0 + ξ))
    (hT : ∀ p ∈ B, ∀ ξ ∈ Icc 0 t, ContDiffAt ℝ ord (y (p, t0 + ξ)) 0)
    (hS : ∀ j ≤ ord, ∀ p ∈ B, ∀ ξ ∈ Icc 0 t, ∀ v : Fin N → ℝ,
      ContDiffAt ℝ so (fun r : ℝ => tc (y (p + r • v, t0 + ξ)) j) 0)
    {dphic dphib : List (Terms (List ℕ) (Num ℝ))}
    (hC : ∀ j < ord, ∀ e, dphic[j]? = some e → Expands so e (fun p => tc (y (p, t0)) j) c)
    (hD : ∀ j ≤ ord, ∀ e, dphib[j]? = some e → ∀ p ∈ B, ∀ ξ ∈ Icc 0 t,
      Expands so e (fun p => tc (y (p, t0 + ξ)) j) p)
    {dphi : Terms (List ℕ) (Num ℝ)} (h : flowDifferential gind so ord dphic dphib = some dphi) :
    ∃ q, Choice dphi q ∧ φ t = value (monomial (joinPoint gind t (List.ofFn (x - c)))) q := by
  have h0 : (0 : ℝ) ∈ Icc 0 t := ⟨le_rfl, ht⟩
  -- the function of time
  have hφ : ∀ ξ ∈ Icc 0 t, ContDiffAt ℝ ord φ ξ := by
    intro ξ hξ
    have h1 : ContDiffAt ℝ ord (fun τ => φ (ξ + τ)) 0 :=
      (hT _ (hw ξ hξ).1 ξ hξ).congr_of_eventuallyEq (hw ξ hξ).2.2
    have h2 : ContDiffAt ℝ ord (fun r : ℝ => r - ξ) ξ := contDiffAt_id.sub contDiffAt_const
    have h3 := ContDiffAt.comp ξ (g := fun τ => φ (ξ + τ)) (f := fun r : ℝ => r - ξ)
      (by simpa using h1) h2
    have h4 : ((fun τ => φ (ξ + τ)) ∘ fun r : ℝ => r - ξ) = φ := by funext r; simp
    rwa [h4] at h3
  obtain ⟨ξ, hξ, hsum⟩ := lagrange ht hφ
  rw [tc_congr (hw ξ hξ).2.2] at hsum
  -- the terms
  simp only [flowDifferential, gradedFlowDifferential, Option.map_eq_some_iff,
    Option.bind_eq_some_iff] at h
  obtain ⟨g, ⟨l, hl, b, hb, rfl⟩, rfl⟩ := h
  obtain ⟨hlen, hl'⟩ := mapM_range hl
  have hv : (List.ofFn (x - c)).length = N := by simp
  let z : ℕ → ℝ := fun j => if j < ord then tc (y (x, t0)) j else tc (y (w ξ, t0 + ξ)) ord
  obtain ⟨q, hq, hq'⟩ := choice_differential (gind := gind) (t := t) (v := List.ofFn (x - c)) (l ++ [b]) 0 z
    (by
      intro e he u hu
      rw [hv]
      rcases List.mem_append.1 he with he | he
      · obtain ⟨j, hj, rfl⟩ := List.getElem_of_mem he
        obtain ⟨a, ha, ha'⟩ := hl' j (by omega)
        have e1 : l[j] = a := by simpa [hj] using ha'
        simp only [Option.bind_eq_some_iff, Option.map_eq_some_iff] at ha
        obtain ⟨c', hc', b', hb', rfl⟩ := ha
        rw [e1] at hu
        rcases List.mem_append.1 hu with hu | hu
        · exact ((hC j (by omega) c' hc').1 u (List.mem_filter.1 hu).1).1.symm
        · have := hD j (by omega) b' hb' c hc 0 h0
          exact (this.1 u (List.mem_filter.1 hu).1).1.symm
      · rw [List.mem_singleton] at he
        subst he
        exact ((hD ord le_rfl e hb c hc 0 h0).1 u hu).1.symm)
    (by
      intro j e he
      rw [zero_add]
      rcases lt_or_ge j ord with hj | hj
      · rw [List.getElem?_append_left (by omega)] at he
        obtain ⟨a, ha, ha'⟩ := hl' j hj
        rw [he] at ha'
        obtain rfl := Option.some.inj ha'
        simp only [Option.bind_eq_some_iff, Option.map_eq_some_iff] at ha
        obtain ⟨c', hc', b', hb', rfl⟩ := ha
        simp only [z, if_pos hj]
        have h1 := expand_centre (so := so) (g := fun p => tc (y (p, t0)) j) hB (p := c) (v := x - c) hc
          (by simpa using hx) (fun p hp => by simpa using hS j hj.le p hp 0 h0 (x - c)) (hC j hj c' hc')
          (fun p hp => by simpa using hD j hj.le b' hb' p hp 0 h0)
        simpa using h1
      · have hj' : j = ord := by
          have := (List.getElem?_eq_some_iff.1 he).1
          simp only [List.length_append, List.length_cons, List.length_nil] at this
          omega
        subst hj'
        rw [List.getElem?_append_right (by omega)] at he
        simp only [hlen, Nat.sub_self, List.getElem?_cons_zero, Option.some.injEq] at he
        subst he
        simp only [z, lt_irrefl, if_false]
        have e1 : c + (w ξ - x) + (x - c) = w ξ := by abel
        have h1 := expand_box (so := so) (g := fun p => tc (y (p, t0 + ξ)) j) hB (p := c + (w ξ - x))
          (v := x - c) (hw ξ hξ).2.1 (by rw [e1]; exact (hw ξ hξ).1)
          (fun p hp => hS j le_rfl p hp ξ hξ (x - c)) (fun p hp => hD j le_rfl b hb p hp ξ hξ)
        simpa only [e1] using h1)
  refine ⟨q, hq, ?_⟩
  rw [← hq', hsum, List.length_append, hlen, List.length_singleton, Finset.sum_range_succ]
  have h00 : tc φ = tc (y (x, t0)) := by
    have := (hw 0 h0).2.2
    simp only [zero_add, add_zero, hw0] at this
    funext k
    exact tc_congr this k
  congr 1
  · refine Finset.sum_congr rfl fun j hj => ?_
    simp only [z, zero_add, if_pos (Finset.mem_range.1 hj), h00]
  · simp [z]

/-! ## Flow bounds -/

/-- If the bounds `B` contain the domain moved along the vector field on `B`, as do those found by the
bounder (C59), the centre moved along with any trajectory stays in `B`. -/
theorem centre_moves {lo up : Fin N → ℝ} {D : Set (Fin N → ℝ)} {f : (Fin N → ℝ) → ℝ → Fin N → ℝ}
    {t0 h t : ℝ} (hth : t ≤ h)
    (hP : ∀ c ∈ D, ∀ p ∈ Icc lo up, ∀ s ∈ Icc 0 h, ∀ τ ∈ Icc 0 h, c + τ • f p (t0 + s) ∈ Icc lo up)
    {w : ℝ → Fin N → ℝ} {c x : Fin N → ℝ} (hc : c ∈ D) (hx : w 0 = x)
    (hw : ∀ ξ ∈ Icc 0 t, w ξ ∈ Icc lo up ∧ ∀ i, HasDerivAt (fun τ => w τ i) (f (w ξ) (t0 + ξ) i) ξ)
    {ξ : ℝ} (hξ : ξ ∈ Icc 0 t) : c + (w ξ - x) ∈ Icc lo up := by
  have key : ∀ i, ∃ η ∈ Icc 0 ξ, w ξ i - x i = ξ * f (w η) (t0 + η) i := by
    intro i
    rcases hξ.1.eq_or_lt with h0 | h0
    · refine ⟨0, ⟨le_rfl, hξ.1⟩, ?_⟩
      rw [← h0, hx]; simp
    · obtain ⟨η, h1, h2⟩ := exists_hasDerivAt_eq_slope (fun τ => w τ i)
        (fun τ => f (w τ) (t0 + τ) i) h0
        (fun τ hτ => ((hw τ ⟨hτ.1, hτ.2.trans hξ.2⟩).2 i).continuousAt.continuousWithinAt)
        (fun τ hτ => (hw τ ⟨hτ.1.le, hτ.2.le.trans hξ.2⟩).2 i)
      refine ⟨η, ⟨h1.1.le, h1.2.le⟩, ?_⟩
      rw [h2, hx, sub_zero]
      field_simp
  have hξ' : ξ ∈ Icc 0 h := ⟨hξ.1, hξ.2.trans hth⟩
  constructor
  · intro i
    obtain ⟨η, h1, h2⟩ := key i
    have h3 : η ∈ Icc 0 t := ⟨h1.1, h1.2.trans hξ.2⟩
    have := (hP c hc _ (hw η h3).1 η ⟨h3.1, h3.2.trans hth⟩ ξ hξ').1 i
    simpa [h2] using this
  · intro i
    obtain ⟨η, h1, h2⟩ := key i
    have h3 : η ∈ Icc 0 t := ⟨h1.1, h1.2.trans hξ.2⟩
    have := (hP c hc _ (hw η h3).1 η ⟨h3.1, h3.2.trans hth⟩ ξ hξ').2 i
    simpa [h2] using this

/-- **C97** For bounds which contain the domain moved along the vector field on the bounds, every
component of every trajectory from the domain is, at every time of the step, among the values of the
assembled differential. -/
theorem C97_flow {gind ord : ℕ} {lo up : Fin N → ℝ} {D : Set (Fin N → ℝ)}
    {f : (Fin N → ℝ) → ℝ → Fin N → ℝ} {t0 h t : ℝ} (ht : t ∈ Icc 0 h)
    (hP : ∀ c ∈ D, ∀ p ∈ Icc lo up, ∀ s ∈ Icc 0 h, ∀ τ ∈ Icc 0 h, c + τ • f p (t0 + s) ∈ Icc lo up)
    (hDB : D ⊆ Icc lo up) {i : Fin N} {y : (Fin N → ℝ) × ℝ → ℝ → ℝ} {w : ℝ → Fin N → ℝ} {c : Fin N → ℝ}
    (hc : c ∈ D) (hx : w 0 ∈ D)
    (hw : ∀ ξ ∈ Icc 0 t, w ξ ∈ Icc lo up ∧ ∀ i, HasDerivAt (fun τ => w τ i) (f (w ξ) (t0 + ξ) i) ξ)
    (hy : ∀ ξ ∈ Icc 0 t, (fun τ => w (ξ + τ) i) =ᶠ[𝓝 0] y (w ξ, t0 + ξ))
    (hT : ∀ p ∈ Icc lo up, ∀ ξ ∈ Icc 0 t, ContDiffAt ℝ ord (y (p, t0 + ξ)) 0)
    (hS : ∀ j ≤ ord, ∀ p ∈ Icc lo up, ∀ ξ ∈ Icc 0 t, ∀ v : Fin N → ℝ,
      ContDiffAt ℝ so (fun r : ℝ => tc (y (p + r • v, t0 + ξ)) j) 0)
    {dphic dphib : List (Terms (List ℕ) (Num ℝ))}
    (hC : ∀ j < ord, ∀ e, dphic[j]? = some e → Expands so e (fun p => tc (y (p, t0)) j) c)
    (hD : ∀ j ≤ ord, ∀ e, dphib[j]? = some e → ∀ p ∈ Icc lo up, ∀ ξ ∈ Icc 0 t,
      Expands so e (fun p => tc (y (p, t0 + ξ)) j) p)
    {dphi : Terms (List ℕ) (Num ℝ)} (hd : flowDifferential gind so ord dphic dphib = some dphi) :
    ∃ q, Choice dphi q ∧ w t i = value (monomial (joinPoint gind t (List.ofFn (w 0 - c)))) q :=
  C97_expansion (B := Icc lo up) (w := w) (φ := fun τ => w τ i) (convex_Icc lo up) ht.1 rfl (hDB hc)
    (hDB hx) (fun ξ hξ => ⟨(hw ξ hξ).1, centre_moves ht.2 hP hc rfl hw hξ, hy ξ hξ⟩) hT hS hC hD hd

/-- **C97** The assembly succeeds if the series have been computed up to order `ord`. -/
theorem C97_assembles (gind so ord : ℕ) {X : Type*} {dphic dphib : List (Terms (List ℕ) X)}
    (hc : ord ≤ dphic.length) (hb : ord < dphib.length) :
    (flowDifferential gind so ord dphic dphib).isSome := by
  have : ∀ l : List ℕ, (∀ j ∈ l, j < ord) → ∃ m, (l.mapM fun j => (dphic[j]?).bind fun c =>
      (dphib[j]?).map fun b => c.filter (fun t => decide (t.1.sum < so)) ++
        b.filter (fun t => decide (t.1.sum = so))) = some m := by
    intro l
    induction l with
    | nil => intro _; exact ⟨[], rfl⟩
    | cons j l ih =>
      intro h
      obtain ⟨m, hm⟩ := ih fun k hk => h k (by simp [hk])
      have hj := h j (by simp)
      have h1 : j < dphic.length := by omega
      have h2 : j < dphib.length := by omega
      exact ⟨_, by rw [List.mapM_cons, hm]; simp [h1, h2]; rfl⟩
  obtain ⟨m, hm⟩ := this (List.range ord) fun j hj => List.mem_range.1 hj
  simp [flowDifferential, gradedFlowDifferential, hm, hb]

/-! ## Taylor models -/

theorem monomial_scale (rad s : List ℝ) (a : List ℕ) (h : rad.length = s.length) :
    monomial (List.zipWith (· * ·) rad s) a = monomial rad a * monomial s a := by
  induction rad generalizing s a with
  | nil => cases s with
    | nil => simp [monomial]
    | cons => simp at h
  | cons r rad ih =>
    cases s with
    | nil => simp at h
    | cons x s =>
      cases a with
      | nil => simp [monomial]
      | cons k a =>
        rw [List.zipWith_cons_cons, monomial_cons, monomial_cons, monomial_cons, ih s a (by simpa using h)]
        ring

theorem toModel_fold (R : Rounding ℝ) {s : List ℝ} (hs : ∀ y ∈ s, |y| ≤ 1)
    {e : Terms (List ℕ) (Num ℝ)} {q : Terms (List ℕ) ℝ} (hq : Choice e q) (T : TM ℝ) (V : ℝ)
    (hT : |V - value (monomial s) T.terms| ≤ T.err) :
    |V + value (monomial s) q - value (monomial s) (e.foldl (fun t u =>
        (⟨t.terms ++ [(u.1, u.2.value R)], R.up (t.err + u.2.error R)⟩ : TM ℝ)) T).terms| ≤
      (e.foldl (fun t u => (⟨t.terms ++ [(u.1, u.2.value R)], R.up (t.err + u.2.error R)⟩ : TM ℝ)) T).err := by
  induction hq generalizing T V with
  | nil => simpa using hT
  | @cons a b l m hab _ ih =>
    rw [List.foldl_cons, value_cons, ← add_assoc]
    apply ih
    rw [value_append, value_cons, value_nil, add_zero, hab.1]
    have h1 := error_ok R a.2 b.2 hab.2
    have h2 := abs_monomial_le s hs b.1
    have h3 : |(b.2 - a.2.value R) * monomial s b.1| ≤ a.2.error R := by
      rw [abs_mul]
      calc _ ≤ |b.2 - a.2.value R| * 1 := mul_le_mul_of_nonneg_left h2 (abs_nonneg _)
        _ ≤ _ := by rw [mul_one]; exact h1
    refine le_trans ?_ (R.le_up _)
    have e1 : V + b.2 * monomial s b.1 - (value (monomial s) T.terms + a.2.value R * monomial s b.1) =
        (V - value (monomial s) T.terms) + (b.2 - a.2.value R) * monomial s b.1 := by ring
    rw [e1]
    exact (abs_add_le _ _).trans (add_le_add hT h3)

/-- **C97** The Taylor model made of a differential by scaling its domain is within its error of every
value of the differential, at every point of the unit box; `sc` multiplies bounds by the powers of the
radii. -/
theorem C97_model (R : Rounding ℝ) {rad s : List ℝ} (hrs : rad.length = s.length)
    (hs : ∀ y ∈ s, |y| ≤ 1) {sc : List ℕ → Num ℝ → Num ℝ}
    (hsc : ∀ a b z, b.Has z → (sc a b).Has (z * monomial rad a))
    {e : Terms (List ℕ) (Num ℝ)} {q : Terms (List ℕ) ℝ} (hq : Choice e q) :
    |value (monomial (List.zipWith (· * ·) rad s)) q -
        value (monomial s) (toModel R (rescale sc e)).terms| ≤ (toModel R (rescale sc e)).err := by
  have h1 : Choice (rescale sc e) (q.map fun t => (t.1, t.2 * monomial rad t.1)) := by
    clear hs
    induction hq with
    | nil => exact List.Forall₂.nil
    | @cons a b l m hab _ ih =>
      exact List.Forall₂.cons ⟨hab.1, by simp only [hab.1]; exact hsc _ _ _ hab.2⟩ ih
  have h2 : value (monomial (List.zipWith (· * ·) rad s)) q =
      value (monomial s) (q.map fun t => (t.1, t.2 * monomial rad t.1)) := by
    clear h1 hq
    induction q with
    | nil => simp
    | cons t q ih =>
      rw [value_cons, List.map_cons, value_cons, ih, monomial_scale _ _ _ hrs]
      ring
  rw [h2]
  have := toModel_fold R hs h1 ⟨[], 0⟩ 0 (by simp)
  rw [zero_add] at this
  exact this

/-! ## Adaptation of the orders -/

section adapt

variable {K : Type*} [Field K] [LinearOrder K] [IsStrictOrderedRing K] (R : Rounding K) {o : Orders K}
  {err : ℕ → ℕ → Option K}

/-- One step for an error which is finite. -/
theorem adaptStep_finite (hm : 0 ≤ o.maxErr) (hf : ∀ a b, (err a b).isSome) {s s' : ℕ × ℕ}
    (h : adaptStep R o err s = some s') :
    (s.1 < o.maxSo ∧ s' = (s.1 + 1, o.initTo)) ∨
      (o.maxSo ≤ s.1 ∧ s.2 < o.maxTo ∧ s' = (s.1, (s.2 + 1) % 65536)) := by
  obtain ⟨x, hx⟩ := Option.isSome_iff_exists.1 (hf s.1 s.2)
  simp only [adaptStep, hx, tooBig] at h
  split_ifs at h with h1 h2
  · simp only [Bool.and_eq_true, decide_eq_true_eq] at h2
    exact Or.inl ⟨h2.1, (Option.some.inj h).symm⟩
  · simp only [Bool.and_eq_true, Bool.or_eq_true, decide_eq_true_eq] at h1
    have h3 : x < R.up (x * 4) := by
      have h0 : 0 < x := lt_of_le_of_lt hm h1.1
      refine lt_of_lt_of_le ?_ (R.le_up _)
      linarith
    have h4 : ¬s.1 < o.maxSo := fun h => h2 (by simp [h, rises, h3])
    exact Or.inr ⟨not_lt.1 h4, h1.2.resolve_left h4, (Option.some.inj h).symm⟩

/-- **C97** If errors are finite, the adaptation ends, after at most as many flows as there are orders in
space and in time; orders do not exceed the greater of the first and last ones; and at the end the
error is at most that allowed, or both orders have reached their last values. -/
theorem C97_adapts (hm : 0 ≤ o.maxErr) (hf : ∀ a b, (err a b).isSome) (ht : o.maxTo < 65536) :
    ∃ s, adapt R o err ((o.maxSo - o.initSo) + (o.maxTo - o.initTo)) (o.initSo, o.initTo) = (s, true) ∧
      o.initSo ≤ s.1 ∧ s.1 ≤ max o.initSo o.maxSo ∧ o.initTo ≤ s.2 ∧ s.2 ≤ max o.initTo o.maxTo ∧
      ((∃ x, err s.1 s.2 = some x ∧ x ≤ o.maxErr) ∨ (o.maxSo ≤ s.1 ∧ o.maxTo ≤ s.2)) := by
  have key : ∀ n (s : ℕ × ℕ), o.initSo ≤ s.1 → s.1 ≤ max o.initSo o.maxSo → o.initTo ≤ s.2 →
      s.2 ≤ max o.initTo o.maxTo →
      (if s.1 < o.maxSo then (o.maxSo - s.1) + (o.maxTo - o.initTo) else o.maxTo - s.2) ≤ n →
      ∃ s', adapt R o err n s = (s', true) ∧ o.initSo ≤ s'.1 ∧ s'.1 ≤ max o.initSo o.maxSo ∧
        o.initTo ≤ s'.2 ∧ s'.2 ≤ max o.initTo o.maxTo ∧
        ((∃ x, err s'.1 s'.2 = some x ∧ x ≤ o.maxErr) ∨ (o.maxSo ≤ s'.1 ∧ o.maxTo ≤ s'.2)) := by
    intro n
    have stop : ∀ s : ℕ × ℕ, adaptStep R o err s = none →
        (∃ x, err s.1 s.2 = some x ∧ x ≤ o.maxErr) ∨ (o.maxSo ≤ s.1 ∧ o.maxTo ≤ s.2) := by
      intro s hs
      obtain ⟨x, hx⟩ := Option.isSome_iff_exists.1 (hf s.1 s.2)
      simp only [adaptStep, hx, tooBig] at hs
      split_ifs at hs with h1
      simp only [Bool.and_eq_true, Bool.or_eq_true, decide_eq_true_eq, not_and, not_or, not_lt] at h1
      rcases le_or_gt x o.maxErr with h | h
      · exact Or.inl ⟨x, hx, h⟩
      · exact Or.inr (h1 h)
    induction n with
    | zero =>
      intro s h1 h2 h3 h4 h5
      have hs : adaptStep R o err s = none := by
        rcases hs : adaptStep R o err s with _ | s'
        · rfl
        · exfalso
          rcases adaptStep_finite R hm hf hs with ⟨h, -⟩ | ⟨h, h', -⟩
          · rw [if_pos h] at h5; omega
          · rw [if_neg (by omega)] at h5; omega
      exact ⟨s, by simp [adapt, hs], h1, h2, h3, h4, stop s hs⟩
    | succ n ih =>
      intro s h1 h2 h3 h4 h5
      rcases hs : adaptStep R o err s with _ | s'
      · exact ⟨s, by simp [adapt, hs], h1, h2, h3, h4, stop s hs⟩
      · rw [adapt, hs]
        rcases adaptStep_finite R hm hf hs with ⟨h, rfl⟩ | ⟨h, h', rfl⟩
        · rw [if_pos h] at h5
          apply ih
          · simp only; omega
          · simp only; omega
          · exact le_rfl
          · exact le_max_left _ _
          · simp only
            split_ifs <;> omega
        · rw [if_neg (by omega)] at h5
          have e : (s.2 + 1) % 65536 = s.2 + 1 := Nat.mod_eq_of_lt (by omega)
          rw [e]
          apply ih
          · exact h1
          · exact h2
          · simp only; omega
          · simp only; omega
          · simp only
            rw [if_neg (by omega)]; omega
  apply key _ _ le_rfl (le_max_left _ _) le_rfl (le_max_left _ _)
  simp only
  split_ifs <;> omega

/-- **C97** The order in time is never increased before that in space has reached its last value: the
comparison which is to choose between them compares the error with itself. -/
theorem C97_space_first (hm : 0 ≤ o.maxErr) (hf : ∀ a b, (err a b).isSome) (n : ℕ) :
    (adapt R o err n (o.initSo, o.initTo)).1.2 = o.initTo ∨
      o.maxSo ≤ (adapt R o err n (o.initSo, o.initTo)).1.1 := by
  have key : ∀ n (s : ℕ × ℕ), (s.2 = o.initTo ∨ o.maxSo ≤ s.1) →
      (adapt R o err n s).1.2 = o.initTo ∨ o.maxSo ≤ (adapt R o err n s).1.1 := by
    intro n
    induction n with
    | zero => exact fun s h => h
    | succ n ih =>
      intro s h
      rcases hs : adaptStep R o err s with _ | s'
      · simpa [adapt, hs] using h
      · rw [adapt, hs]
        rcases adaptStep_finite R hm hf hs with ⟨-, rfl⟩ | ⟨h, -, rfl⟩
        · exact ih _ (Or.inl rfl)
        · exact ih _ (Or.inr h)
  exact key n _ (Or.inl rfl)

/-- **C97**, counterexample: if the errors are infinite and the last order in space is not reached, the
adaptation never ends. -/
theorem C97_infinite_error_loops (h : o.initSo < o.maxSo) (n : ℕ) :
    (adapt R o (fun _ _ => none) n (o.initSo, o.initTo)).2 = false := by
  have key : ∀ n (s : ℕ × ℕ), s.1 < o.maxSo → (adapt R o (fun _ _ => none) n s).2 = false := by
    intro n
    induction n with
    | zero => intro s hs; simp [adapt, adaptStep, tooBig, rises, hs]
    | succ n ih =>
      intro s hs
      have : adaptStep R o (fun _ _ => none) s = some (s.1, (s.2 + 1) % 65536) := by
        simp [adaptStep, tooBig, rises, hs]
      rw [adapt, this]
      exact ih _ hs
  exact key n _ h

end adapt

end Verif.SeriesFlow
