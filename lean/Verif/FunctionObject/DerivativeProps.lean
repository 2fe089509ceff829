import Verif.FunctionObject.Derivative
import Verif.FunctionObject.Props
import Mathlib.Analysis.Calculus.Deriv.Add
import Mathlib.Analysis.Calculus.Deriv.Mul
import Mathlib.Analysis.Calculus.Deriv.Inv
import Mathlib.Algebra.BigOperators.Ring.Finset
import Mathlib.Algebra.BigOperators.Field
import Mathlib.Tactic.NormNum

/-!
# C105: derivatives of function objects

The specification is the derivative of real functions of one variable (`HasDerivAt`), along curves.
-/

namespace Verif.FunctionObject

open Filter Topology

noncomputable section

/-- The components of a curve of lists. -/
def part (c : ℝ → List ℝ) (i : ℕ) (t : ℝ) : ℝ := (c t).getD i 0

/-- A curve of lists of length `n` near `t₀`, whose components have derivatives `c'` at `t₀`. -/
structure Curve (n : ℕ) (c : ℝ → List ℝ) (c' : ℕ → ℝ) (t₀ : ℝ) : Prop where
  length : ∀ᶠ t in 𝓝 t₀, (c t).length = n
  deriv : ∀ i < n, HasDerivAt (part c i) (c' i) t₀

theorem derivS_congr {h : Heap ℝ} {dg dg' : ℕ → ℕ → ℕ → Option (SF ℝ)} (s : SF ℝ) :
    (∀ b ∈ s.refs, dg b = dg' b) → derivS h dg s = derivS h dg' s := by
  induction s with
  | const n c => intro _; rfl
  | coord n i => intro _; rfl
  | un op f ih => intro e; funext j; cases op <;> simp only [derivS] <;> rw [ih e]
  | bin op f g ihf ihg =>
    intro e; funext j
    have e1 := ihf fun b hb => e b (List.mem_append_left _ hb)
    have e2 := ihg fun b hb => e b (List.mem_append_right _ hb)
    cases op <;> simp only [derivS] <;> rw [e1, e2]
  | comp f g ih =>
    intro e; funext j
    simp only [derivS]
    rw [e g List.mem_cons_self, ih fun b hb => e b (List.mem_cons_of_mem _ hb)]

theorem get_below {h : Heap ℝ} (hw : WF h) {a i : ℕ} {s : SF ℝ} (e : get h a i = some s) : i < res h a ∧ Below a s := by
  have hi : i < res h a := by
    by_contra hc
    unfold get at e; rw [if_neg hc] at e; exact absurd e (by simp)
  obtain ⟨s', h1, h2, -⟩ := get_good hw a i hi
  rw [e] at h1
  obtain rfl := Option.some.inj h1
  exact ⟨hi, h2⟩

theorem derivC_fuel {h : Heap ℝ} (hw : WF h) : ∀ a t t' : ℕ, a < t → a < t' → derivC h t a = derivC h t' a := by
  intro a
  induction a using Nat.strong_induction_on with
  | _ a ih =>
    intro t t' ht ht'
    obtain ⟨t, rfl⟩ := Nat.exists_eq_succ_of_ne_zero (by omega : t ≠ 0)
    obtain ⟨t', rfl⟩ := Nat.exists_eq_succ_of_ne_zero (by omega : t' ≠ 0)
    funext k j
    simp only [derivC]
    cases hg : get h a k with
    | none => rfl
    | some s =>
      simp only [Option.bind_some]
      rw [derivS_congr s fun b hb => ih b ((get_below hw hg).2 b hb) t t'
        (by have := (get_below hw hg).2 b hb; omega) (by have := (get_below hw hg).2 b hb; omega)]

/-- The derivative of a component is the derivative of the scalar function it is. -/
theorem derivC_get {h : Heap ℝ} (hw : WF h) {a i : ℕ} {s : SF ℝ} (e : get h a i = some s) (j : ℕ) :
    derivC h (a + 1) a i j = deriv h s j := by
  simp only [derivC]
  rw [e, Option.bind_some]
  unfold deriv
  rw [derivS_congr s fun b hb => ?_]
  funext k j
  rw [derivC_fuel hw b a (b + 1) ((get_below hw e).2 b hb) (by omega)]

/-- Values of the sums formed by loops. -/
theorem sumLoop_value {h : Heap ℝ} {x : List ℝ} (T : ℕ → Option (SF ℝ)) (e : ℕ → ℝ) : ∀ (l : List ℕ) (r : SF ℝ) (d0 : ℝ),
    (∀ k ∈ l, ∃ s, T k = some s ∧ valueS h s x = some (e k)) → valueS h r x = some d0 →
    ∃ s, sumLoop T r l = some s ∧ valueS h s x = some (d0 + (l.map e).sum) := by
  intro l
  induction l with
  | nil => intro r d0 _ hr; exact ⟨r, rfl, by simpa using hr⟩
  | cons k l ih =>
    intro r d0 hT hr
    obtain ⟨s, hs, hv⟩ := hT k List.mem_cons_self
    obtain ⟨s', h1, h2⟩ := ih (.bin .add r s) (d0 + e k) (fun k' hk' => hT k' (List.mem_cons_of_mem _ hk')) (by
      show (valueS h r x).bind (fun u => (valueS h s x).bind fun v => BinOp.add.eval u v) = _
      rw [hr, hv]; rfl)
    refine ⟨s', ?_, ?_⟩
    · show (T k).bind _ = _
      rw [hs]; exact h1
    · rw [h2]; congr 1; simp [add_assoc]

theorem sum_range_map (e : ℕ → ℝ) (m : ℕ) : ((List.range m).map e).sum = ∑ k ∈ Finset.range m, e k := by
  induction m with
  | zero => rfl
  | succ m ih => rw [List.range_succ, List.map_append, List.sum_append, ih, Finset.sum_range_succ]; simp

/-- What is proved about a scalar function, along all curves. -/
def DS (h : Heap ℝ) (s : SF ℝ) : Prop :=
  ∀ (n : ℕ) (c : ℝ → List ℝ) (c' : ℕ → ℝ) (t₀ v : ℝ), Curve n c c' t₀ → valueS h s (c t₀) = some v →
    ∃ (d : ℕ → ℝ) (φ : ℝ → ℝ), (∀ j, ∃ sj, deriv h s j = some sj ∧ valueS h sj (c t₀) = some (d j)) ∧
      (∀ᶠ t in 𝓝 t₀, valueS h s (c t) = some (φ t)) ∧ HasDerivAt φ (∑ j ∈ Finset.range n, d j * c' j) t₀

/-- What is proved about a vector function, along all curves. -/
def DV (h : Heap ℝ) (a : ℕ) : Prop :=
  ∀ (n : ℕ) (c : ℝ → List ℝ) (c' : ℕ → ℝ) (t₀ : ℝ) (v : List ℝ), Curve n c c' t₀ → value h a (c t₀) = some v →
    ∃ (e : ℕ → ℕ → ℝ) (y : ℝ → List ℝ),
      (∀ i < res h a, ∀ j, ∃ s, derivC h (a + 1) a i j = some s ∧ valueS h s (c t₀) = some (e i j)) ∧
      (∀ᶠ t in 𝓝 t₀, value h a (c t) = some (y t)) ∧
      ∀ i < res h a, HasDerivAt (part y i) (∑ j ∈ Finset.range n, e i j * c' j) t₀

theorem eval_bin {h : Heap ℝ} (op : BinOp) (f g : SF ℝ) (x : List ℝ) {u v : ℝ} (hu : valueS h f x = some u)
    (hv : valueS h g x = some v) : valueS h (.bin op f g) x = op.eval u v := by
  show (valueS h f x).bind (fun u => (valueS h g x).bind fun v => op.eval u v) = _
  rw [hu, hv]; rfl

theorem eval_un {h : Heap ℝ} (op : UnOp) (f : SF ℝ) (x : List ℝ) {u : ℝ} (hu : valueS h f x = some u) :
    valueS h (.un op f) x = some (op.eval u) := by
  show (valueS h f x).map op.eval = _
  rw [hu]; rfl

theorem DS_of {h : Heap ℝ} (s : SF ℝ) : (∀ b ∈ s.refs, DV h b) → WF h → DS h s := by
  induction s with
  | const m a =>
    intro _ _ n c c' t₀ v _ hv
    refine ⟨fun _ => 0, fun _ => a, fun j => ⟨.const m 0, rfl, rfl⟩, Eventually.of_forall fun t => rfl, ?_⟩
    simpa using hasDerivAt_const t₀ a
  | coord m i =>
    intro _ _ n c c' t₀ v hc hv
    have hi : i < n := by
      have hv' : (c t₀)[i]? = some v := hv
      have hl := hc.length.self_of_nhds
      by_contra hcon
      rw [List.getElem?_eq_none (by omega)] at hv'; exact absurd hv' (by simp)
    refine ⟨fun j => if j = i then 1 else 0, part c i, fun j => ⟨_, rfl, rfl⟩, ?_, ?_⟩
    · filter_upwards [hc.length] with t ht
      show (c t)[i]? = _
      unfold part
      rw [List.getD_eq_getElem?_getD, List.getElem?_eq_getElem (by omega)]; rfl
    · have := hc.deriv i hi
      refine HasDerivAt.congr_deriv (this) (Eq.symm ?_)
      rw [Finset.sum_eq_single i]
      · simp
      · intro b _ hb; simp [hb]
      · intro h'; exact absurd (Finset.mem_range.2 hi) h'
  | un op f ih =>
    intro hr hw n c c' t₀ v hc hv
    obtain ⟨u, hu, rfl⟩ := Option.map_eq_some_iff.1 (show (valueS h f (c t₀)).map op.eval = some v from hv)
    obtain ⟨d, φ, hd, hφ, hD⟩ := ih hr hw n c c' t₀ u hc hu
    have hφ0 : φ t₀ = u := by
      have := hφ.self_of_nhds; rw [hu] at this; exact (Option.some.inj this).symm
    cases op with
    | pos =>
      refine ⟨d, φ, hd, ?_, hD⟩
      filter_upwards [hφ] with t ht
      rw [eval_un _ _ _ ht]; rfl
    | neg =>
      refine ⟨fun j => -d j, fun t => -φ t, ?_, ?_, ?_⟩
      · intro j
        obtain ⟨sj, h1, h2⟩ := hd j
        refine ⟨.un .neg sj, ?_, eval_un _ _ _ h2⟩
        show (deriv h f j).map _ = _
        rw [h1]; rfl
      · filter_upwards [hφ] with t ht
        rw [eval_un _ _ _ ht]; rfl
      · have := hD.fun_neg
        refine HasDerivAt.congr_deriv (this) (Eq.symm ?_)
        rw [← Finset.sum_neg_distrib]
        exact Finset.sum_congr rfl fun j _ => by ring
    | sqr =>
      refine ⟨fun j => 2 * u * d j, fun t => φ t * φ t, ?_, ?_, ?_⟩
      · intro j
        obtain ⟨sj, h1, h2⟩ := hd j
        refine ⟨.bin .mul (.bin .mul (.const (argS h f) 2) f) sj, ?_, ?_⟩
        · show (deriv h f j).map _ = _
          rw [h1]; rfl
        · rw [eval_bin .mul _ _ _ (show valueS h (.bin .mul (.const (argS h f) 2) f) (c t₀) = some (2 * u) from
            eval_bin .mul _ _ _ rfl hu) h2]
          rfl
      · filter_upwards [hφ] with t ht
        rw [eval_un _ _ _ ht]; rfl
      · have := hD.fun_mul hD
        refine HasDerivAt.congr_deriv (this) (Eq.symm ?_)
        rw [hφ0, mul_comm (∑ j ∈ Finset.range n, d j * c' j) u, ← two_mul, ← mul_assoc, Finset.mul_sum]
        exact Finset.sum_congr rfl fun j _ => by ring
  | bin op f g ihf ihg =>
    intro hr hw n c c' t₀ v hc hv
    obtain ⟨p, hp, hv⟩ := Option.bind_eq_some_iff.1
      (show (valueS h f (c t₀)).bind (fun u => (valueS h g (c t₀)).bind fun v => op.eval u v) = some v from hv)
    obtain ⟨q, hq, hv⟩ := Option.bind_eq_some_iff.1 hv
    obtain ⟨d, φ, hd, hφ, hD⟩ := ihf (fun b hb => hr b (List.mem_append_left _ hb)) hw n c c' t₀ p hc hp
    obtain ⟨e, ψ, he, hψ, hE⟩ := ihg (fun b hb => hr b (List.mem_append_right _ hb)) hw n c c' t₀ q hc hq
    have hφ0 : φ t₀ = p := by
      have := hφ.self_of_nhds; rw [hp] at this; exact (Option.some.inj this).symm
    have hψ0 : ψ t₀ = q := by
      have := hψ.self_of_nhds; rw [hq] at this; exact (Option.some.inj this).symm
    cases op with
    | add =>
      refine ⟨fun j => d j + e j, fun t => φ t + ψ t, ?_, ?_, ?_⟩
      · intro j
        obtain ⟨sj, h1, h2⟩ := hd j
        obtain ⟨sk, h3, h4⟩ := he j
        refine ⟨.bin .add sj sk, ?_, eval_bin _ _ _ _ h2 h4⟩
        show (deriv h f j).bind (fun d1 => (deriv h g j).map fun d2 => SF.bin .add d1 d2) = _
        rw [h1, h3]; rfl
      · filter_upwards [hφ, hψ] with t h1 h2
        exact eval_bin _ _ _ _ h1 h2
      · refine HasDerivAt.congr_deriv (hD.fun_add hE) (Eq.symm ?_)
        rw [← Finset.sum_add_distrib]
        exact Finset.sum_congr rfl fun j _ => by ring
    | sub =>
      refine ⟨fun j => d j - e j, fun t => φ t - ψ t, ?_, ?_, ?_⟩
      · intro j
        obtain ⟨sj, h1, h2⟩ := hd j
        obtain ⟨sk, h3, h4⟩ := he j
        refine ⟨.bin .sub sj sk, ?_, eval_bin _ _ _ _ h2 h4⟩
        show (deriv h f j).bind (fun d1 => (deriv h g j).map fun d2 => SF.bin .sub d1 d2) = _
        rw [h1, h3]; rfl
      · filter_upwards [hφ, hψ] with t h1 h2
        exact eval_bin _ _ _ _ h1 h2
      · refine HasDerivAt.congr_deriv (hD.fun_sub hE) (Eq.symm ?_)
        rw [← Finset.sum_sub_distrib]
        exact Finset.sum_congr rfl fun j _ => by ring
    | mul =>
      refine ⟨fun j => q * d j + p * e j, fun t => φ t * ψ t, ?_, ?_, ?_⟩
      · intro j
        obtain ⟨sj, h1, h2⟩ := hd j
        obtain ⟨sk, h3, h4⟩ := he j
        refine ⟨.bin .add (.bin .mul g sj) (.bin .mul f sk), ?_, ?_⟩
        · show (deriv h f j).bind (fun d1 => (deriv h g j).map fun d2 =>
            SF.bin .add (.bin .mul g d1) (.bin .mul f d2)) = _
          rw [h1, h3]; rfl
        · exact eval_bin .add _ _ _ (eval_bin .mul _ _ _ hq h2) (eval_bin .mul _ _ _ hp h4)
      · filter_upwards [hφ, hψ] with t h1 h2
        exact eval_bin _ _ _ _ h1 h2
      · refine HasDerivAt.congr_deriv (hD.fun_mul hE) (Eq.symm ?_)
        rw [hφ0, hψ0, Finset.sum_mul, Finset.mul_sum, ← Finset.sum_add_distrib]
        exact Finset.sum_congr rfl fun j _ => by ring
    | div =>
      have hq0 : q ≠ 0 := by
        intro h0
        have hv' : (if q = 0 then none else some (p / q)) = some v := hv
        rw [if_pos h0] at hv'; exact absurd hv' (by simp)
      refine ⟨fun j => (d j - e j * (p / q)) / q, fun t => φ t / ψ t, ?_, ?_, ?_⟩
      · intro j
        obtain ⟨sj, h1, h2⟩ := hd j
        obtain ⟨sk, h3, h4⟩ := he j
        refine ⟨.bin .div (.bin .sub sj (.bin .mul sk (.bin .div f g))) g, ?_, ?_⟩
        · show (deriv h f j).bind (fun d1 => (deriv h g j).map fun d2 =>
            SF.bin .div (.bin .sub d1 (.bin .mul d2 (.bin .div f g))) g) = _
          rw [h1, h3]; rfl
        · have h5 : valueS h (.bin .div f g) (c t₀) = some (p / q) := by
            rw [eval_bin .div _ _ _ hp hq]; exact if_neg hq0
          have h6 : valueS h (.bin .sub sj (.bin .mul sk (.bin .div f g))) (c t₀) = some (d j - e j * (p / q)) :=
            eval_bin .sub _ _ _ h2 (eval_bin .mul _ _ _ h4 h5)
          rw [eval_bin .div _ _ _ h6 hq]; exact if_neg hq0
      · have hne : ∀ᶠ t in 𝓝 t₀, ψ t ≠ 0 :=
          hE.continuousAt.eventually_ne (by rw [hψ0]; exact hq0)
        filter_upwards [hφ, hψ, hne] with t h1 h2 h3
        rw [eval_bin .div _ _ _ h1 h2]; exact if_neg h3
      · refine HasDerivAt.congr_deriv (hD.fun_div hE (by rw [hψ0]; exact hq0)) (Eq.symm ?_)
        rw [hφ0, hψ0, Finset.sum_mul, Finset.mul_sum, ← Finset.sum_sub_distrib, Finset.sum_div]
        refine Finset.sum_congr rfl fun j _ => ?_
        field_simp
  | comp f g ih =>
    intro hr hw n c c' t₀ v hc hv
    obtain ⟨w, hw0, hv⟩ := Option.bind_eq_some_iff.1
      (show (value h g (c t₀)).bind (fun y => valueS h f y) = some v from hv)
    obtain ⟨e, y, he, hy, hD⟩ := hr g List.mem_cons_self n c c' t₀ w hc hw0
    have hy0 : y t₀ = w := by
      have := hy.self_of_nhds; rw [hw0] at this; exact (Option.some.inj this).symm
    have hcy : Curve (res h g) y (fun i => ∑ j ∈ Finset.range n, e i j * c' j) t₀ := by
      refine ⟨?_, hD⟩
      filter_upwards [hy] with t ht
      exact (C104_components hw g _ _ ht).1
    obtain ⟨d, φ, hd, hφ, hE⟩ := ih (fun b hb => hr b (List.mem_cons_of_mem _ hb)) hw _ y _ t₀ v hcy
      (by rw [hy0]; exact hv)
    refine ⟨fun j => ∑ k ∈ Finset.range (res h g), d k * e k j, φ, ?_, ?_, ?_⟩
    · intro j
      obtain ⟨s, h1, h2⟩ := sumLoop_value (h := h) (x := c t₀) (fun k => (deriv h f k).bind fun fk =>
        (derivC h (g + 1) g k j).map fun gk => SF.bin .mul (.comp fk g) gk) (fun k => d k * e k j)
        (List.range (res h g)) (.const (arg h g) 0) 0 (by
          intro k hk
          obtain ⟨fk, h3, h4⟩ := hd k
          obtain ⟨gk, h5, h6⟩ := he k (List.mem_range.1 hk) j
          refine ⟨.bin .mul (.comp fk g) gk, by rw [h3, h5]; rfl, ?_⟩
          refine eval_bin .mul _ _ _ ?_ h6
          show (value h g (c t₀)).bind (fun y => valueS h fk y) = _
          rw [hw0, Option.bind_some, ← hy0]; exact h4) rfl
      refine ⟨s, h1, ?_⟩
      rw [h2, sum_range_map, zero_add]
    · filter_upwards [hy, hφ] with t h1 h2
      show (value h g (c t)).bind (fun y => valueS h f y) = _
      rw [h1]; exact h2
    · refine HasDerivAt.congr_deriv (hE) (Eq.symm ?_)
      simp only [Finset.sum_mul, Finset.mul_sum]
      rw [Finset.sum_comm]
      exact Finset.sum_congr rfl fun k _ => Finset.sum_congr rfl fun j _ => by ring

theorem part_some {y : ℝ → List ℝ} {i : ℕ} {t : ℝ} (hi : i < (y t).length) : (y t)[i]? = some (part y i t) := by
  unfold part
  rw [List.getD_eq_getElem?_getD, List.getElem?_eq_getElem hi]; rfl

theorem DV_of {h : Heap ℝ} (hw : WF h) : ∀ a : ℕ, DV h a := by
  intro a
  induction a using Nat.strong_induction_on with
  | _ a ih =>
    intro n c c' t₀ v hc hv
    cases hn : h[a]? with
    | none => unfold value at hv; simp only [evalV, hn] at hv; exact absurd hv (by simp)
    | some nd =>
      have hold := hw.older a nd hn
      cases nd with
      | vec m fs =>
        have hv0 := hv
        rw [value_vec hw hn] at hv
        obtain ⟨hl, hall⟩ := (mapM_some_iff _ _ _).1 hv
        have key : ∀ i : ℕ, ∃ (d : ℕ → ℝ) (φ : ℝ → ℝ), ∀ s, fs[i]? = some s →
            (∀ j, ∃ sj, deriv h s j = some sj ∧ valueS h sj (c t₀) = some (d j)) ∧
            (∀ᶠ t in 𝓝 t₀, valueS h s (c t) = some (φ t)) ∧
            HasDerivAt φ (∑ j ∈ Finset.range n, d j * c' j) t₀ := by
          intro i
          cases hs : fs[i]? with
          | none => exact ⟨fun _ => 0, fun _ => 0, fun s e => absurd e (by simp)⟩
          | some s =>
            obtain ⟨h1, h2⟩ := hall i s hs
            obtain ⟨w, hw1⟩ := Option.isSome_iff_exists.1 h2
            have hD : DS h s := DS_of s (fun b hb => ih b (hold b (by
              simp only [Node.refs, List.mem_flatMap]
              exact ⟨s, List.mem_of_getElem? hs, hb⟩))) hw
            obtain ⟨d, φ, hd⟩ := hD n c c' t₀ w hc hw1
            exact ⟨d, φ, fun s' e => by obtain rfl := Option.some.inj e; exact hd⟩
        choose d φ hd using key
        refine ⟨d, fun t => (List.range fs.length).map fun i => φ i t, ?_, ?_, ?_⟩
        · intro i hi j
          rw [res_vec hn] at hi
          have hs : fs[i]? = some fs[i] := List.getElem?_eq_getElem hi
          rw [derivC_get hw (by rw [get_vec hn]; exact hs)]
          exact (hd i _ hs).1 j
        · have hev : ∀ᶠ t in 𝓝 t₀, ∀ i ∈ Finset.range fs.length, ∀ s, fs[i]? = some s →
              valueS h s (c t) = some (φ i t) := by
            refine (Filter.eventually_all_finset _).2 fun i hi => ?_
            have hi' : i < fs.length := Finset.mem_range.1 hi
            have hs : fs[i]? = some fs[i] := List.getElem?_eq_getElem hi'
            filter_upwards [(hd i _ hs).2.1] with t ht s e
            rw [hs] at e; obtain rfl := Option.some.inj e; exact ht
          filter_upwards [hev] with t ht
          rw [value_vec hw hn]
          refine (mapM_some_iff _ _ _).2 ⟨by simp, fun i s e => ?_⟩
          have hi : i < fs.length := (List.getElem?_eq_some_iff.1 e).1
          rw [ht i (Finset.mem_range.2 hi) s e]
          refine ⟨?_, rfl⟩
          rw [List.getElem?_map, List.getElem?_range hi]; rfl
        · intro i hi
          rw [res_vec hn] at hi
          have hs : fs[i]? = some fs[i] := List.getElem?_eq_getElem hi
          have e : part (fun t => (List.range fs.length).map fun i => φ i t) i = φ i := by
            funext t
            unfold part
            rw [List.getD_eq_getElem?_getD, List.getElem?_map, List.getElem?_range hi]; rfl
          rw [e]
          exact (hd i _ hs).2.2
      | comp f g =>
        have hf := hold f (by simp [Node.refs])
        have hg := hold g (by simp [Node.refs])
        rw [value_comp hw hn] at hv
        obtain ⟨w, hw1, hv⟩ := Option.bind_eq_some_iff.1 hv
        obtain ⟨e, y, he, hy, hD⟩ := ih g hg n c c' t₀ w hc hw1
        have hy0 : y t₀ = w := by
          have := hy.self_of_nhds; rw [hw1] at this; exact (Option.some.inj this).symm
        have hcy : Curve (res h g) y (fun i => ∑ j ∈ Finset.range n, e i j * c' j) t₀ := by
          refine ⟨?_, hD⟩
          filter_upwards [hy] with t ht
          exact (C104_components hw g _ _ ht).1
        obtain ⟨d, z, hd, hz, hE⟩ := ih f hf _ y _ t₀ v hcy (by rw [hy0]; exact hv)
        refine ⟨fun i j => ∑ k ∈ Finset.range (res h g), d i k * e k j, z, ?_, ?_, ?_⟩
        · intro i hi j
          rw [res_comp hw hn] at hi
          obtain ⟨s, hs, -⟩ := get_good hw f i hi
          rw [derivC_get hw (show get h a i = some (.comp s g) by rw [get_comp hw hn, hs]; rfl)]
          obtain ⟨s', h1, h2⟩ := sumLoop_value (h := h) (x := c t₀) (fun k => (deriv h s k).bind fun fk =>
            (derivC h (g + 1) g k j).map fun gk => SF.bin .mul (.comp fk g) gk) (fun k => d i k * e k j)
            (List.range (res h g)) (.const (arg h g) 0) 0 (by
              intro k hk
              obtain ⟨fk, h3, h4⟩ := hd i hi k
              rw [derivC_get hw hs] at h3
              obtain ⟨gk, h5, h6⟩ := he k (List.mem_range.1 hk) j
              refine ⟨.bin .mul (.comp fk g) gk, by rw [h3, h5]; rfl, ?_⟩
              refine eval_bin .mul _ _ _ ?_ h6
              show (value h g (c t₀)).bind (fun y => valueS h fk y) = _
              rw [hw1, Option.bind_some, ← hy0]; exact h4) rfl
          refine ⟨s', h1, ?_⟩
          rw [h2, sum_range_map, zero_add]
        · filter_upwards [hy, hz] with t h1 h2
          rw [value_comp hw hn, h1]; exact h2
        · intro i hi
          rw [res_comp hw hn] at hi
          refine (hE i hi).congr_deriv (Eq.symm ?_)
          simp only [Finset.sum_mul, Finset.mul_sum]
          rw [Finset.sum_comm]
          exact Finset.sum_congr rfl fun k _ => Finset.sum_congr rfl fun j _ => by ring
      | join f g =>
        have hf := hold f (by simp [Node.refs])
        have hg := hold g (by simp [Node.refs])
        rw [value_join hw hn] at hv
        obtain ⟨u, hu, hv⟩ := Option.bind_eq_some_iff.1 hv
        obtain ⟨w, hw1, -⟩ := Option.map_eq_some_iff.1 hv
        obtain ⟨d, y, hd, hy, hD⟩ := ih f hf n c c' t₀ u hc hu
        obtain ⟨e, z, he, hz, hE⟩ := ih g hg n c c' t₀ w hc hw1
        have hly : ∀ᶠ t in 𝓝 t₀, (y t).length = res h f := by
          filter_upwards [hy] with t ht
          exact (C104_components hw f _ _ ht).1
        refine ⟨fun i j => if i < res h f then d i j else e (i - res h f) j, fun t => y t ++ z t, ?_, ?_, ?_⟩
        · intro i hi j
          rw [res_join hw hn] at hi
          by_cases hc1 : i < res h f
          · obtain ⟨s, hs, -⟩ := get_good hw f i hc1
            rw [derivC_get hw (show get h a i = some s by rw [get_join hw hn, if_pos hc1, hs])]
            simp only [if_pos hc1]
            rw [← derivC_get hw hs]
            exact hd i hc1 j
          · have hi2 : i - res h f < res h g := by omega
            obtain ⟨s, hs, -⟩ := get_good hw g _ hi2
            rw [derivC_get hw (show get h a i = some s by rw [get_join hw hn, if_neg hc1, hs])]
            simp only [if_neg hc1]
            rw [← derivC_get hw hs]
            exact he _ hi2 j
        · filter_upwards [hy, hz] with t h1 h2
          rw [value_join hw hn, h1, h2]; rfl
        · intro i hi
          rw [res_join hw hn] at hi
          by_cases hc1 : i < res h f
          · simp only [if_pos hc1]
            refine (hD i hc1).congr_of_eventuallyEq ?_
            filter_upwards [hly] with t ht
            unfold part
            rw [List.getD_eq_getElem?_getD, List.getD_eq_getElem?_getD, List.getElem?_append_left (by omega)]
          · simp only [if_neg hc1]
            refine (hE (i - res h f) (by omega)).congr_of_eventuallyEq ?_
            filter_upwards [hly] with t ht
            unfold part
            rw [List.getD_eq_getElem?_getD, List.getD_eq_getElem?_getD, List.getElem?_append_right (by omega), ht]

/-! ## C105 -/

theorem curve_set (x : List ℝ) (j : ℕ) (hj : j < x.length) :
    Curve x.length (fun u => x.set j u) (fun i => if i = j then 1 else 0) x[j] := by
  refine ⟨Eventually.of_forall fun t => by simp, fun i hi => ?_⟩
  by_cases e : i = j
  · subst e
    have : part (fun u => x.set i u) i = fun u => u := by
      funext u; unfold part
      rw [List.getD_eq_getElem?_getD, List.getElem?_set_self hj]; rfl
    rw [this, if_pos rfl]; exact hasDerivAt_id _
  · have : part (fun u => x.set j u) i = fun _ => x[i] := by
      funext u; unfold part
      rw [List.getD_eq_getElem?_getD, List.getElem?_set_ne (fun h' => e h'.symm), List.getElem?_eq_getElem hi]; rfl
    rw [this, if_neg e]; exact hasDerivAt_const _ _

/-- **C105**: wherever a scalar function object has a value, its partial derivatives exist as function objects, have
values there, and these are the derivatives of the real functions obtained by varying one argument. -/
theorem C105_derivative {h : Heap ℝ} (hw : WF h) (s : SF ℝ) (x : List ℝ) (v : ℝ) (hv : valueS h s x = some v) (j : ℕ)
    (hj : j < x.length) : ∃ (sj : SF ℝ) (d : ℝ) (φ : ℝ → ℝ), deriv h s j = some sj ∧ valueS h sj x = some d ∧
      (∀ᶠ u in 𝓝 x[j], valueS h s (x.set j u) = some (φ u)) ∧ HasDerivAt φ d x[j] := by
  have e0 : x.set j x[j] = x := List.set_getElem_self hj
  obtain ⟨d, φ, h1, h2, h3⟩ := DS_of s (fun b _ => DV_of hw b) hw x.length _ _ x[j] v (curve_set x j hj)
    (by rw [e0]; exact hv)
  obtain ⟨sj, h4, h5⟩ := h1 j
  refine ⟨sj, d j, φ, h4, by rwa [e0] at h5, h2, h3.congr_deriv ?_⟩
  rw [Finset.sum_eq_single j]
  · simp
  · intro b _ hb; simp [hb]
  · intro h'; exact absurd (Finset.mem_range.2 hj) h'

/-- **C105**: the same for the components of vector function objects, however these were made. -/
theorem C105_component_derivative {h : Heap ℝ} (hw : WF h) (a : ℕ) (x v : List ℝ) (hv : value h a x = some v) (i : ℕ)
    (hi : i < res h a) (j : ℕ) (hj : j < x.length) : ∃ (s sj : SF ℝ) (d : ℝ) (φ : ℝ → ℝ),
      get h a i = some s ∧ deriv h s j = some sj ∧ valueS h sj x = some d ∧
      (∀ᶠ u in 𝓝 x[j], ∃ w, value h a (x.set j u) = some w ∧ w[i]? = some (φ u)) ∧ HasDerivAt φ d x[j] := by
  have e0 : x.set j x[j] = x := List.set_getElem_self hj
  obtain ⟨e, y, h1, h2, h3⟩ := DV_of hw a x.length _ _ x[j] v (curve_set x j hj) (by rw [e0]; exact hv)
  obtain ⟨s, hs, -⟩ := get_good hw a i hi
  obtain ⟨sj, h4, h5⟩ := h1 i hi j
  rw [derivC_get hw hs] at h4
  refine ⟨s, sj, e i j, part y i, hs, h4, by rwa [e0] at h5, ?_, (h3 i hi).congr_deriv ?_⟩
  · filter_upwards [h2] with u hu
    exact ⟨y u, hu, part_some (by rw [(C104_components hw a _ _ hu).1]; exact hi)⟩
  · rw [Finset.sum_eq_single j]
    · simp
    · intro b _ hb; simp [hb]
    · intro h'; exact absurd (Finset.mem_range.2 hj) h'

/-- **C105** (chain rule): along every differentiable curve, the derivative of the value is the sum of the values of the
partial derivatives times the velocities. -/
theorem C105_along_curves {h : Heap ℝ} (hw : WF h) (s : SF ℝ) (n : ℕ) (c : ℝ → List ℝ) (c' : ℕ → ℝ) (t₀ v : ℝ)
    (hc : Curve n c c' t₀) (hv : valueS h s (c t₀) = some v) :
    ∃ (d : ℕ → ℝ) (φ : ℝ → ℝ), (∀ j, ∃ sj, deriv h s j = some sj ∧ valueS h sj (c t₀) = some (d j)) ∧
      (∀ᶠ t in 𝓝 t₀, valueS h s (c t) = some (φ t)) ∧ HasDerivAt φ (∑ j ∈ Finset.range n, d j * c' j) t₀ :=
  DS_of s (fun b _ => DV_of hw b) hw n c c' t₀ v hc hv

/-- **C105**: the Lie derivative of a function along a vector field is, at every point where both are defined, the rate of
change of the function along every curve whose velocity there is the vector field. -/
theorem C105_lie_derivative {h : Heap ℝ} (hw : WF h) (g : SF ℝ) (a : ℕ) (h1 : argS h g = res h a)
    (h2 : res h a = arg h a) (h3 : 0 < res h a) (c : ℝ → List ℝ) (w : List ℝ) (t₀ v : ℝ)
    (hv : valueS h g (c t₀) = some v) (hf : value h a (c t₀) = some w)
    (hc : Curve (res h a) c (fun i => w.getD i 0) t₀) :
    ∃ (L : SF ℝ) (l : ℝ) (φ : ℝ → ℝ), lie h g a = some L ∧ valueS h L (c t₀) = some l ∧
      (∀ᶠ t in 𝓝 t₀, valueS h g (c t) = some (φ t)) ∧ HasDerivAt φ l t₀ := by
  obtain ⟨d, φ, hd, hφ, hD⟩ := C105_along_curves hw g _ c _ t₀ v hc hv
  obtain ⟨hlen, hcomp⟩ := C104_components hw a _ _ hf
  have key : ∀ i < res h a, ∃ s, ((deriv h g i).bind fun d => (get h a i).map fun f => SF.bin .mul d f) = some s ∧
      valueS h s (c t₀) = some (d i * w.getD i 0) := by
    intro i hi
    obtain ⟨di, h4, h5⟩ := hd i
    obtain ⟨fi, h6, h7⟩ := hcomp i hi
    refine ⟨.bin .mul di fi, by rw [h4, h6]; rfl, ?_⟩
    refine eval_bin .mul _ _ _ h5 ?_
    rw [h7, List.getD_eq_getElem?_getD, List.getElem?_eq_getElem (by omega)]; rfl
  obtain ⟨r, hr, hrv⟩ := key 0 h3
  obtain ⟨L, hL, hLv⟩ := sumLoop_value (h := h) (x := c t₀)
    (fun i => (deriv h g i).bind fun d => (get h a i).map fun f => SF.bin .mul d f) (fun i => d i * w.getD i 0)
    (List.range' 1 (argS h g - 1)) r _ (fun k hk => key k (by
      have := List.mem_range'_1.1 hk; omega)) hrv
  refine ⟨L, _, φ, ?_, hLv, hφ, hD.congr_deriv ?_⟩
  · unfold lie
    rw [if_pos ⟨h1, h2, h3⟩, hr]; exact hL
  · obtain ⟨m, hm⟩ := Nat.exists_eq_succ_of_ne_zero (by omega : res h a ≠ 0)
    rw [← sum_range_map, h1, hm, List.range_eq_range', List.range'_succ]
    simp

/-- **C105**: Lie derivatives of functions of the wrong size are rejected. -/
theorem C105_lie_sizes {h : Heap ℝ} (g : SF ℝ) (a : ℕ) (hc : ¬ (argS h g = res h a ∧ res h a = arg h a ∧ 0 < res h a)) :
    lie h g a = none := if_neg hc

/-! ## Examples -/

/-- The vector function `(x₁, -x₀)` and, after it, the composition of `(x₀x₁, x₀)` with it. -/
def rotation : Heap ℝ :=
  [.vec 2 [.coord 2 1, .un .neg (.coord 2 0)], .vec 2 [.bin .mul (.coord 2 0) (.coord 2 1), .coord 2 0], .comp 1 0]

theorem rotation_wf : WF rotation := by
  refine ⟨?_, ?_, ?_⟩
  · rintro (_ | _ | _ | a) nd hn b hb
    · obtain rfl := Option.some.inj hn; exact absurd hb (by simp [Node.refs, SF.refs])
    · obtain rfl := Option.some.inj hn; exact absurd hb (by simp [Node.refs, SF.refs])
    · obtain rfl := Option.some.inj hn; simp only [Node.refs, List.mem_cons, List.not_mem_nil, or_false] at hb; omega
    · exact absurd hn (by simp [rotation])
  · rintro (_ | _ | _ | a) n fs hn s hs
    · obtain ⟨rfl, rfl⟩ := Node.vec.inj (Option.some.inj hn)
      simp only [List.mem_cons, List.not_mem_nil, or_false] at hs
      rcases hs with rfl | rfl <;> rfl
    · obtain ⟨rfl, rfl⟩ := Node.vec.inj (Option.some.inj hn)
      simp only [List.mem_cons, List.not_mem_nil, or_false] at hs
      rcases hs with rfl | rfl <;> rfl
    · exact absurd (Option.some.inj hn) (by simp)
    · exact absurd hn (by simp [rotation])
  · rintro (_ | _ | _ | a) f g hn
    · exact absurd (Option.some.inj hn) (by simp)
    · exact absurd (Option.some.inj hn) (by simp)
    · exact absurd (Option.some.inj hn) (by simp)
    · exact absurd hn (by simp [rotation])

/-- A composition of a composition, with a value where the theorem applies. -/
example : valueS rotation (.comp (.un .sqr (.coord 2 0)) 2) [3, 4] = some ((4 * -3) * (4 * -3)) := rfl

example : ∃ (s sj : SF ℝ) (d : ℝ) (φ : ℝ → ℝ), get rotation 2 0 = some s ∧ deriv rotation s 0 = some sj ∧
    valueS rotation sj [3, 4] = some d ∧
    (∀ᶠ u in 𝓝 (3 : ℝ), ∃ w, value rotation 2 [u, 4] = some w ∧ w[0]? = some (φ u)) ∧ HasDerivAt φ d 3 :=
  C105_component_derivative rotation_wf 2 [3, 4] _ rfl 0 (by decide) 0 (by decide)

/-- The Lie derivative of `x₀²+x₁²` along the rotation exists, and is zero at a point. -/
example : ∃ L, lie rotation (.bin .add (.un .sqr (.coord 2 0)) (.un .sqr (.coord 2 1))) 0 = some L ∧
    valueS rotation L [3, 4] = some 0 := by
  refine ⟨_, rfl, ?_⟩
  show some _ = some _
  congr 1
  norm_num [UnOp.eval]

end

end Verif.FunctionObject
