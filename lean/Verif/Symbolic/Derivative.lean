import Verif.Symbolic.Classify
import Mathlib.Analysis.SpecialFunctions.Log.Deriv
import Mathlib.Analysis.SpecialFunctions.ExpDeriv
import Mathlib.Analysis.SpecialFunctions.Trigonometric.Deriv
import Mathlib.Analysis.SpecialFunctions.Trigonometric.ArctanDeriv
import Mathlib.Analysis.SpecialFunctions.Trigonometric.InverseDeriv
import Mathlib.Analysis.Calculus.Deriv.ZPow

/-!
# C36: symbolic differentiation
-/

noncomputable section

namespace Ariadne.Symbolic

open Expr Topology

variable {V : Type*} [DecidableEq V]

/-- spec: near the point, the expression is defined as a function of the variable, and its
derivative at the point is `q`. -/
def HasPartial (e : Expr V) (v : V) (x : V → ℝ) (q : ℝ) : Prop :=
  ∃ g : ℝ → ℝ, (∀ᶠ t in 𝓝 (x v), e.eval (Function.update x v t) = some (g t)) ∧ HasDerivAt g q (x v)

theorem HasPartial.value {e : Expr V} {v : V} {x : V → ℝ} {q : ℝ} {g : ℝ → ℝ}
    (hg : ∀ᶠ t in 𝓝 (x v), e.eval (Function.update x v t) = some (g t)) {p : ℝ} (hp : e.eval x = some p) : g (x v) = p := by
  have := hg.self_of_nhds
  rw [Function.update_eq_self, hp] at this
  simpa using this.symm

theorem hasPartial_un {op : UnOp} {a : Expr V} {v : V} {x : V → ℝ} {p q k : ℝ} {F : ℝ → ℝ} (ha : HasPartial a v x q)
    (hp : a.eval x = some p) (hF : ∀ᶠ y in 𝓝 p, op.eval y = some (F y)) (hd : HasDerivAt F k p) :
    HasPartial (un op a) v x (k * q) := by
  obtain ⟨g, h1, h2⟩ := ha
  have hv := HasPartial.value (q := q) h1 hp
  refine ⟨F ∘ g, ?_, ?_⟩
  · have hc : Filter.Tendsto g (𝓝 (x v)) (𝓝 p) := by rw [← hv]; exact h2.continuousAt
    filter_upwards [h1, hc.eventually hF] with t e1 e2
    simp only [eval, e1, Option.bind_some, e2, Function.comp]
  · rw [← hv] at hd
    exact hd.comp (x v) h2

theorem hasPartial_bin {op : BinOp} {a b : Expr V} {v : V} {x : V → ℝ} {p p' q q' k : ℝ} {F : ℝ → ℝ → ℝ}
    (ha : HasPartial a v x q) (hb : HasPartial b v x q') (hp : a.eval x = some p) (hp' : b.eval x = some p')
    (hF : ∀ᶠ z in 𝓝 p', ∀ y, op.eval y z = some (F y z))
    (hd : ∀ g g' : ℝ → ℝ, HasDerivAt g q (x v) → HasDerivAt g' q' (x v) → g (x v) = p → g' (x v) = p' →
      HasDerivAt (fun t => F (g t) (g' t)) k (x v)) :
    HasPartial (bin op a b) v x k := by
  obtain ⟨g, h1, h2⟩ := ha
  obtain ⟨g', h1', h2'⟩ := hb
  have hv := HasPartial.value (q := q) h1 hp
  have hv' := HasPartial.value (q := q') h1' hp'
  refine ⟨fun t => F (g t) (g' t), ?_, hd g g' h2 h2' hv hv'⟩
  have hc : Filter.Tendsto g' (𝓝 (x v)) (𝓝 p') := by rw [← hv']; exact h2'.continuousAt
  filter_upwards [h1, h1', hc.eventually hF] with t e1 e2 e3
  simp only [eval, e1, e2, Option.bind_some, e3]

/-- The operators which are differentiated correctly: `asin` and `acos` are not, and `nul`
nodes are never built. -/
def Diff : Expr V → Prop
  | const _ _ => True
  | var _ => True
  | un op a => op ≠ .asin ∧ op ≠ .acos ∧ op ≠ .nul ∧ Diff a
  | bin _ a b => Diff a ∧ Diff b
  | pow a _ => Diff a

theorem mul_eval {a b : Expr V} {x : V → ℝ} {q : ℝ} (h : (bin .mul a b).eval x = some q) :
    ∃ r s, a.eval x = some r ∧ b.eval x = some s ∧ q = r * s := by
  obtain ⟨r, hr, h⟩ := bind_eq h
  obtain ⟨s, hs, h⟩ := bind_eq h
  exact ⟨r, s, hr, hs, by simpa [BinOp.eval] using h.symm⟩

theorem add_eval {a b : Expr V} {x : V → ℝ} {q : ℝ} (h : (bin .add a b).eval x = some q) :
    ∃ r s, a.eval x = some r ∧ b.eval x = some s ∧ q = r + s := by
  obtain ⟨r, hr, h⟩ := bind_eq h
  obtain ⟨s, hs, h⟩ := bind_eq h
  exact ⟨r, s, hr, hs, by simpa [BinOp.eval] using h.symm⟩

theorem sub_eval {a b : Expr V} {x : V → ℝ} {q : ℝ} (h : (bin .sub a b).eval x = some q) :
    ∃ r s, a.eval x = some r ∧ b.eval x = some s ∧ q = r - s := by
  obtain ⟨r, hr, h⟩ := bind_eq h
  obtain ⟨s, hs, h⟩ := bind_eq h
  exact ⟨r, s, hr, hs, by simpa [BinOp.eval] using h.symm⟩

theorem div_eval {a b : Expr V} {x : V → ℝ} {q : ℝ} (h : (bin .div a b).eval x = some q) :
    ∃ r s, a.eval x = some r ∧ b.eval x = some s ∧ s ≠ 0 ∧ q = r / s := by
  obtain ⟨r, hr, h⟩ := bind_eq h
  obtain ⟨s, hs, h⟩ := bind_eq h
  simp only [BinOp.eval] at h
  by_cases h0 : s = 0
  · simp [h0] at h
  · rw [if_neg h0] at h
    exact ⟨r, s, hr, hs, h0, by simpa using h.symm⟩

theorem some_inj {a : Option ℝ} {p q : ℝ} (h1 : a = some p) (h2 : a = some q) : p = q := by
  rw [h1] at h2; simpa using h2

/-- C36: wherever the expression and the symbolic derivative are defined, the value of the
symbolic derivative is the partial derivative of the expression, for expressions without
`asin` and `acos`.  (With them, the statement fails: `C36_asin_counterexample`.) -/
theorem C36_derivative_partial {e d : Expr V} {v : V} (he : Diff e) (hd : e.derivative v = some d) {x : V → ℝ}
    {r q : ℝ} (hr : e.eval x = some r) (hq : d.eval x = some q) : HasPartial e v x q := by
  induction e generalizing d r q with
  | const n c =>
    simp only [derivative, Option.some.injEq] at hd
    subst hd
    simp only [cst, eval, Option.some.injEq] at hq
    subst hq
    exact ⟨fun _ => c, by simp [eval], hasDerivAt_const _ _⟩
  | var w =>
    simp only [derivative, Option.some.injEq] at hd
    subst hd
    simp only [cst, eval, Option.some.injEq] at hq
    subst hq
    by_cases h : w = v
    · subst h
      rw [if_pos rfl]
      exact ⟨id, by simp [eval], hasDerivAt_id _⟩
    · rw [if_neg h]
      exact ⟨fun _ => x w, by simp [eval, Function.update_of_ne h], hasDerivAt_const _ _⟩
  | un op a ih =>
    obtain ⟨h1, h2, h3, h4⟩ := he
    simp only [derivative] at hd
    cases hda : a.derivative v with
    | none => simp [hda] at hd
    | some da =>
      simp only [hda, Option.bind_some] at hd
      obtain ⟨p, hp, hop⟩ := bind_eq hr
      cases op <;> simp only [unDeriv, Option.some.injEq, reduceCtorEq] at hd
      case nul => exact absurd rfl h3
      case asin => exact absurd rfl h1
      case acos => exact absurd rfl h2
      case pos =>
        subst hd
        have := hasPartial_un (op := .pos) (F := fun y => y) (k := 1) (ih h4 hda hp hq) hp
          (Filter.Eventually.of_forall fun y => rfl) (hasDerivAt_id p)
        simpa using this
      case neg =>
        subst hd
        obtain ⟨s, hs, hq⟩ := bind_eq hq
        simp only [UnOp.eval, Option.some.injEq] at hq
        have := hasPartial_un (op := .neg) (F := fun y => -y) (k := -1) (ih h4 hda hp hs) hp
          (Filter.Eventually.of_forall fun y => rfl) (hasDerivAt_id p).neg
        rw [← hq]; simpa using this
      case hlf =>
        subst hd
        obtain ⟨s, hs, hq⟩ := bind_eq hq
        simp only [UnOp.eval, Option.some.injEq] at hq
        have := hasPartial_un (op := .hlf) (F := fun y => y / 2) (k := 1 / 2) (ih h4 hda hp hs) hp
          (Filter.Eventually.of_forall fun y => rfl) ((hasDerivAt_id p).div_const 2)
        rw [← hq]; convert this using 1; ring
      case sqr =>
        subst hd
        obtain ⟨m, s, hm, hs, rfl⟩ := mul_eval hq
        obtain ⟨m1, m2, hm1, hm2, rfl⟩ := mul_eval hm
        simp only [cst, eval, Option.some.injEq] at hm1
        have := some_inj hp hm2
        subst this hm1
        refine hasPartial_un (op := .sqr) (F := fun y => y * y) (ih h4 hda hp hs) hp
          (Filter.Eventually.of_forall fun y => rfl) ?_
        have : HasDerivAt (fun y : ℝ => y * y) (1 * p + p * 1) p := (hasDerivAt_id p).mul (hasDerivAt_id p)
        have e : 1 * p + p * 1 = 2 * p := by ring
        rwa [e] at this
      case recip =>
        subst hd
        obtain ⟨s, t, hs, ht, h0, rfl⟩ := div_eval hq
        obtain ⟨t1, ht1, ht⟩ := bind_eq ht
        obtain ⟨t2, ht2, ht1⟩ := bind_eq ht1
        simp only [UnOp.eval, Option.some.injEq] at ht ht1
        have := some_inj hp ht2
        subst this ht1 ht
        have hp0 : p ≠ 0 := fun h => h0 (by simp [h])
        have := hasPartial_un (op := .recip) (F := fun y => y⁻¹) (ih h4 hda hp hs) hp
          ((eventually_ne_nhds hp0).mono fun y hy => by simp [UnOp.eval, hy]) (hasDerivAt_inv hp0)
        convert this using 1
        field_simp
      case sqrt =>
        subst hd
        obtain ⟨s, t, hs, ht, h0, rfl⟩ := div_eval hq
        obtain ⟨t1, t2, ht1, ht2, rfl⟩ := mul_eval ht
        simp only [cst, eval, Option.some.injEq] at ht1
        obtain ⟨t3, ht3, ht2⟩ := bind_eq ht2
        have := some_inj hp ht3
        subst this ht1
        simp only [UnOp.eval] at ht2
        by_cases hneg : p < 0
        · simp [hneg] at ht2
        · rw [if_neg hneg] at ht2
          simp only [Option.some.injEq] at ht2
          subst ht2
          have hs0 : √p ≠ 0 := fun h => h0 (by simp [h])
          have hp0 : 0 < p := by
            rcases lt_or_eq_of_le (not_lt.1 hneg) with h | h
            · exact h
            · exact absurd (by rw [← h]; simp) hs0
          have := hasPartial_un (op := .sqrt) (F := Real.sqrt) (ih h4 hda hp hs) hp
            ((eventually_gt_nhds hp0).mono fun y hy => by simp [UnOp.eval, not_lt.2 hy.le])
            (Real.hasDerivAt_sqrt hp0.ne')
          convert this using 1
          field_simp
      case exp =>
        subst hd
        obtain ⟨m, s, hm, hs, rfl⟩ := mul_eval hq
        obtain ⟨m1, hm1, hm⟩ := bind_eq hm
        have := some_inj hp hm1
        subst this
        simp only [UnOp.eval, Option.some.injEq] at hm
        subst hm
        exact hasPartial_un (op := .exp) (F := Real.exp) (ih h4 hda hp hs) hp
          (Filter.Eventually.of_forall fun y => rfl) (Real.hasDerivAt_exp p)
      case log =>
        subst hd
        obtain ⟨s, t, hs, ht, h0, rfl⟩ := div_eval hq
        have := some_inj hp ht
        subst this
        simp only [UnOp.eval] at hop
        by_cases hle : p ≤ 0
        · simp [hle] at hop
        · have hp0 := not_le.1 hle
          have := hasPartial_un (op := .log) (F := Real.log) (ih h4 hda hp hs) hp
            ((eventually_gt_nhds hp0).mono fun y hy => by simp [UnOp.eval, not_le.2 hy])
            (Real.hasDerivAt_log hp0.ne')
          convert this using 1
          field_simp
      case sin =>
        subst hd
        obtain ⟨m, s, hm, hs, rfl⟩ := mul_eval hq
        obtain ⟨m1, hm1, hm⟩ := bind_eq hm
        have := some_inj hp hm1
        subst this
        simp only [UnOp.eval, Option.some.injEq] at hm
        subst hm
        exact hasPartial_un (op := .sin) (F := Real.sin) (ih h4 hda hp hs) hp
          (Filter.Eventually.of_forall fun y => rfl) (Real.hasDerivAt_sin p)
      case cos =>
        subst hd
        obtain ⟨m, s, hm, hs, rfl⟩ := mul_eval hq
        obtain ⟨m1, hm1, hm⟩ := bind_eq hm
        obtain ⟨m2, hm2, hm1⟩ := bind_eq hm1
        have := some_inj hp hm2
        subst this
        simp only [UnOp.eval, Option.some.injEq] at hm hm1
        subst hm1 hm
        exact hasPartial_un (op := .cos) (F := Real.cos) (ih h4 hda hp hs) hp
          (Filter.Eventually.of_forall fun y => rfl) (Real.hasDerivAt_cos p)
      case tan =>
        subst hd
        obtain ⟨m, s, hm, hs, rfl⟩ := mul_eval hq
        obtain ⟨m1, hm1, hm⟩ := bind_eq hm
        obtain ⟨m2, hm2, hm1⟩ := bind_eq hm1
        obtain ⟨m3, hm3, hm2⟩ := bind_eq hm2
        have := some_inj hp hm3
        subst this
        simp only [UnOp.eval] at hop
        by_cases hc : Real.cos p = 0
        · simp [hc] at hop
        · simp only [UnOp.eval, Option.some.injEq] at hm2 hm1
          subst hm2 hm1
          simp only [UnOp.eval] at hm
          rw [if_neg (mul_ne_zero hc hc)] at hm
          simp only [Option.some.injEq] at hm
          subst hm
          have := hasPartial_un (op := .tan) (F := Real.tan) (ih h4 hda hp hs) hp
            ((Real.continuous_cos.continuousAt.eventually_ne hc).mono fun y hy => by simp [UnOp.eval, hy])
            (Real.hasDerivAt_tan hc)
          convert this using 1
          field_simp
      case atan =>
        subst hd
        obtain ⟨m, s, hm, hs, rfl⟩ := mul_eval hq
        obtain ⟨m1, hm1, hm⟩ := bind_eq hm
        obtain ⟨m2, m3, hm2, hm3, rfl⟩ := add_eval hm1
        simp only [cst, eval, Option.some.injEq] at hm2
        obtain ⟨m4, hm4, hm3⟩ := bind_eq hm3
        have := some_inj hp hm4
        subst this hm2
        simp only [UnOp.eval, Option.some.injEq] at hm3
        subst hm3
        simp only [UnOp.eval] at hm
        rw [if_neg (by nlinarith [mul_self_nonneg p])] at hm
        simp only [Option.some.injEq] at hm
        subst hm
        have := hasPartial_un (op := .atan) (F := Real.arctan) (ih h4 hda hp hs) hp
          (Filter.Eventually.of_forall fun y => rfl) (Real.hasDerivAt_arctan p)
        convert this using 1
        field_simp
  | bin op a b iha ihb =>
    simp only [derivative] at hd
    cases hda : a.derivative v with
    | none => simp [hda] at hd
    | some da =>
      cases hdb : b.derivative v with
      | none => simp [hda, hdb] at hd
      | some db =>
        simp only [hda, hdb, Option.bind_some] at hd
        obtain ⟨p, hp, hop⟩ := bind_eq hr
        obtain ⟨p', hp', hop⟩ := bind_eq hop
        cases op <;> simp only [binDeriv, Option.some.injEq, reduceCtorEq] at hd
        case add =>
          subst hd
          obtain ⟨s, t, hs, ht, rfl⟩ := add_eval hq
          exact hasPartial_bin (F := fun y z => y + z) (iha he.1 hda hp hs) (ihb he.2 hdb hp' ht) hp hp'
            (Filter.Eventually.of_forall fun _ _ => rfl) fun g g' h h' _ _ => h.add h'
        case sub =>
          subst hd
          obtain ⟨s, t, hs, ht, rfl⟩ := sub_eval hq
          exact hasPartial_bin (F := fun y z => y - z) (iha he.1 hda hp hs) (ihb he.2 hdb hp' ht) hp hp'
            (Filter.Eventually.of_forall fun _ _ => rfl) fun g g' h h' _ _ => h.sub h'
        case mul =>
          subst hd
          obtain ⟨s, t, hs, ht, rfl⟩ := add_eval hq
          obtain ⟨s1, s2, hs1, hs2, rfl⟩ := mul_eval hs
          obtain ⟨t1, t2, ht1, ht2, rfl⟩ := mul_eval ht
          have e1 := some_inj hp ht1
          have e2 := some_inj hp' hs2
          subst e1 e2
          exact hasPartial_bin (F := fun y z => y * z) (iha he.1 hda hp hs1) (ihb he.2 hdb hp' ht2) hp hp'
            (Filter.Eventually.of_forall fun _ _ => rfl) fun g g' h h' e1 e2 => by
              have := h.mul h'
              rw [e1, e2] at this
              exact this
        case div =>
          subst hd
          obtain ⟨s, t, hs, ht, h0, rfl⟩ := div_eval hq
          obtain ⟨s1, s2, hs1, hs2, rfl⟩ := sub_eval hs
          obtain ⟨t1, t2, ht1, ht2, rfl⟩ := mul_eval hs2
          obtain ⟨u1, u2, hu1, hu2, -, rfl⟩ := div_eval ht2
          have e1 := some_inj hp hu1
          have e2 := some_inj hp' hu2
          have e3 := some_inj hp' ht
          subst e1 e2 e3
          refine hasPartial_bin (F := fun y z => y / z) (iha he.1 hda hp hs1) (ihb he.2 hdb hp' ht1) hp hp'
            ((eventually_ne_nhds h0).mono fun z hz y => by simp [BinOp.eval, hz]) fun g g' h h' e1 e2 => ?_
          have : HasDerivAt (fun t => g t / g' t) ((s1 * g' (x v) - g (x v) * t1) / g' (x v) ^ 2) (x v) :=
            h.div h' (by rw [e2]; exact h0)
          rw [e1, e2] at this
          convert this using 1
          field_simp
  | pow a n ih =>
    simp only [derivative] at hd
    cases hda : a.derivative v with
    | none => simp [hda] at hd
    | some da =>
      simp only [hda, Option.map_some, Option.some.injEq] at hd
      subst hd
      obtain ⟨p, hp, hop⟩ := bind_eq hr
      obtain ⟨m, s, hm, hs, rfl⟩ := mul_eval hq
      obtain ⟨m1, m2, hm1, hm2, rfl⟩ := mul_eval hm
      simp only [cst, eval, Option.some.injEq] at hm1
      obtain ⟨p1, hp1, hm2⟩ := bind_eq hm2
      have := some_inj hp hp1
      subst this hm1
      simp only [powEval] at hm2 hop
      by_cases hc : p = 0 ∧ n - 1 < 0
      · simp [hc] at hm2
      · rw [if_neg hc] at hm2
        simp only [Option.some.injEq] at hm2
        subst hm2
        have hpn : p ≠ 0 ∨ 0 ≤ n := by
          by_cases h : p = 0
          · right
            have : ¬ (n - 1 < 0) := fun h' => hc ⟨h, h'⟩
            omega
          · exact Or.inl h
        obtain ⟨g, g1, g2⟩ := ih he hda hp hs
        have hv := HasPartial.value (q := s) g1 hp
        refine ⟨fun t => g t ^ n, ?_, ?_⟩
        · rcases hpn with h | h
          · have hc : Filter.Tendsto g (𝓝 (x v)) (𝓝 p) := by rw [← hv]; exact g2.continuousAt
            filter_upwards [g1, hc.eventually (eventually_ne_nhds h)] with t e1 e2
            simp [eval, e1, powEval, e2]
          · filter_upwards [g1] with t e1
            simp [eval, e1, powEval, not_lt.2 h]
        · have hz : HasDerivAt (fun y : ℝ => y ^ n) (n * p ^ (n - 1)) (g (x v)) := by
            rw [hv]; exact hasDerivAt_zpow n p hpn
          exact hz.comp (x v) g2

/-- spec: no square root has a zero argument, and no power zero has a zero base. -/
def Regular (x : V → ℝ) : Expr V → Prop
  | const _ _ => True
  | var _ => True
  | un op a => (op = .sqrt → a.eval x ≠ some 0) ∧ Regular x a
  | bin _ a b => Regular x a ∧ Regular x b
  | pow a n => (n = 0 → a.eval x ≠ some 0) ∧ Regular x a

/-- C36: the symbolic derivative is defined wherever the expression is, except where a square
root or a zeroth power has a zero argument. -/
theorem C36_derivative_defined {e d : Expr V} {v : V} (he : Diff e) (hd : e.derivative v = some d) {x : V → ℝ}
    {r : ℝ} (hr : e.eval x = some r) (hreg : Regular x e) : ∃ q, d.eval x = some q := by
  induction e generalizing d r with
  | const n c => simp only [derivative, Option.some.injEq] at hd; subst hd; exact ⟨0, rfl⟩
  | var w => simp only [derivative, Option.some.injEq] at hd; subst hd; exact ⟨_, rfl⟩
  | un op a ih =>
    obtain ⟨h1, h2, h3, h4⟩ := he
    simp only [derivative] at hd
    cases hda : a.derivative v with
    | none => simp [hda] at hd
    | some da =>
      simp only [hda, Option.bind_some] at hd
      obtain ⟨p, hp, hop⟩ := bind_eq hr
      obtain ⟨s, hs⟩ := ih h4 hda hp hreg.2
      have hsq := hreg.1
      rw [hp] at hsq
      cases op <;> simp only [unDeriv, Option.some.injEq, reduceCtorEq] at hd
      case nul => exact absurd rfl h3
      case asin => exact absurd rfl h1
      case acos => exact absurd rfl h2
      all_goals subst hd
      case recip =>
        simp only [UnOp.eval] at hop
        by_cases h0 : p = 0
        · simp [h0] at hop
        · exact ⟨s / (-(p * p)), by simp [eval, hs, hp, UnOp.eval, BinOp.eval, h0]⟩
      case sqrt =>
        have hp0 : p ≠ 0 := by simpa using hsq
        simp only [UnOp.eval] at hop
        by_cases hn : p < 0
        · simp [hn] at hop
        · have : √p ≠ 0 := by
            have := lt_of_le_of_ne (not_lt.1 hn) hp0.symm
            positivity
          exact ⟨s / (2 * √p), by simp [eval, cst, hs, hp, UnOp.eval, BinOp.eval, hn, this]⟩
      case log =>
        simp only [UnOp.eval] at hop
        by_cases hn : p ≤ 0
        · simp [hn] at hop
        · exact ⟨s / p, by simp [eval, hs, hp, BinOp.eval, (not_le.1 hn).ne']⟩
      case tan =>
        simp only [UnOp.eval] at hop
        by_cases hc : Real.cos p = 0
        · simp [hc] at hop
        · exact ⟨(Real.cos p * Real.cos p)⁻¹ * s, by simp [eval, hs, hp, UnOp.eval, BinOp.eval, hc]⟩
      case atan =>
        have : 1 + p * p ≠ 0 := by nlinarith [mul_self_nonneg p]
        exact ⟨(1 + p * p)⁻¹ * s, by simp [eval, cst, hs, hp, UnOp.eval, BinOp.eval, this]⟩
      all_goals exact ⟨_, by simp [eval, cst, hs, hp, UnOp.eval, BinOp.eval]; rfl⟩
  | bin op a b iha ihb =>
    simp only [derivative] at hd
    cases hda : a.derivative v with
    | none => simp [hda] at hd
    | some da =>
      cases hdb : b.derivative v with
      | none => simp [hda, hdb] at hd
      | some db =>
        simp only [hda, hdb, Option.bind_some] at hd
        obtain ⟨p, hp, hop⟩ := bind_eq hr
        obtain ⟨p', hp', hop⟩ := bind_eq hop
        obtain ⟨s, hs⟩ := iha he.1 hda hp hreg.1
        obtain ⟨t, ht⟩ := ihb he.2 hdb hp' hreg.2
        cases op <;> simp only [binDeriv, Option.some.injEq, reduceCtorEq] at hd
        all_goals subst hd
        case div =>
          simp only [BinOp.eval] at hop
          by_cases h0 : p' = 0
          · simp [h0] at hop
          · exact ⟨(s - t * (p / p')) / p', by simp [eval, hs, ht, hp, hp', BinOp.eval, h0]⟩
        all_goals exact ⟨_, by simp [eval, hs, ht, hp, hp', BinOp.eval]; rfl⟩
  | pow a n ih =>
    simp only [derivative] at hd
    cases hda : a.derivative v with
    | none => simp [hda] at hd
    | some da =>
      simp only [hda, Option.map_some, Option.some.injEq] at hd
      subst hd
      obtain ⟨p, hp, hop⟩ := bind_eq hr
      obtain ⟨s, hs⟩ := ih he hda hp hreg.2
      have hc : ¬ (p = 0 ∧ n - 1 < 0) := by
        rintro ⟨h0, hn⟩
        subst h0
        have hn0 : n ≠ 0 := fun h => hreg.1 h hp
        simp only [powEval] at hop
        have hlt : n < 0 := by omega
        simp [hlt] at hop
      exact ⟨(n * p ^ (n - 1)) * s, by simp only [eval, cst, hs, hp, powEval, BinOp.eval, Option.bind_some, if_neg hc]⟩

/-- C36: differentiation fails exactly for expressions containing `max`, `min` or `abs`. -/
def NonSmooth : Expr V → Prop
  | const _ _ => False
  | var _ => False
  | un op a => op = .abs ∨ NonSmooth a
  | bin op a b => op = .max ∨ op = .min ∨ NonSmooth a ∨ NonSmooth b
  | pow a _ => NonSmooth a

theorem C36_derivative_throws (e : Expr V) (v : V) : e.derivative v = none ↔ NonSmooth e := by
  induction e with
  | const n c => simp [derivative, NonSmooth]
  | var w => simp [derivative, NonSmooth]
  | un op a ih =>
    simp only [derivative, NonSmooth]
    cases hda : a.derivative v with
    | none => rw [hda] at ih; simp [ih.1 rfl]
    | some da =>
      rw [hda] at ih
      have : ¬ NonSmooth a := fun h => by simpa using ih.2 h
      simp only [Option.bind_some, this, or_false]
      cases op <;> simp [unDeriv]
  | bin op a b iha ihb =>
    simp only [derivative, NonSmooth]
    cases hda : a.derivative v with
    | none => rw [hda] at iha; simp [iha.1 rfl]
    | some da =>
      rw [hda] at iha
      have h1 : ¬ NonSmooth a := fun h => by simpa using iha.2 h
      cases hdb : b.derivative v with
      | none => rw [hdb] at ihb; simp [ihb.1 rfl]
      | some db =>
        rw [hdb] at ihb
        have h2 : ¬ NonSmooth b := fun h => by simpa using ihb.2 h
        simp only [Option.bind_some, h1, h2, or_false]
        cases op <;> simp [binDeriv]
  | pow a n ih =>
    simp only [derivative, NonSmooth, Option.map_eq_none_iff]
    exact ih

theorem HasPartial.unique_of {e : Expr V} {v : V} {x : V → ℝ} {q : ℝ} {F : ℝ → ℝ} {k : ℝ} (h : HasPartial e v x q)
    (hF : ∀ᶠ t in 𝓝 (x v), e.eval (Function.update x v t) = some (F t)) (hk : HasDerivAt F k (x v)) : q = k := by
  obtain ⟨g, h1, h2⟩ := h
  have : g =ᶠ[𝓝 (x v)] F := by
    filter_upwards [h1, hF] with t e1 e2
    rw [e1] at e2; simpa using e2
  exact h2.unique (hk.congr_of_eventuallyEq this)

/-- C36: the symbolic derivative of `asin(x)` at `x=1/4` is `2`, which is not the derivative. -/
theorem C36_asin_counterexample :
    ∃ (d : Expr ℕ), (un .asin (var 0) : Expr ℕ).derivative 0 = some d ∧ d.eval (fun _ => 1/4) = some 2 ∧
      ¬ HasPartial (un .asin (var 0)) 0 (fun _ => 1/4) 2 := by
  refine ⟨_, rfl, ?_, ?_⟩
  · have h4 : √(4:ℝ) = 2 := by
      rw [show (4:ℝ) = 2 ^ 2 by norm_num, Real.sqrt_sq (by norm_num)]
    have : √(1/4 : ℝ) = 1/2 := by
      rw [Real.sqrt_div (by norm_num), h4]; simp
    simp [eval, cst, UnOp.eval, BinOp.eval]
    norm_num [h4, UnOp.eval]
  · intro h
    have hk : HasDerivAt Real.arcsin (1 / √(1 - (1/4:ℝ) ^ 2)) (1/4) :=
      Real.hasDerivAt_arcsin (by norm_num) (by norm_num)
    have := h.unique_of (F := Real.arcsin) (k := 1 / √(1 - (1/4:ℝ) ^ 2)) (by
      have h1 : ∀ᶠ t in 𝓝 (1/4:ℝ), -1 < t := eventually_gt_nhds (by norm_num)
      have h2 : ∀ᶠ t in 𝓝 (1/4:ℝ), t < 1 := eventually_lt_nhds (by norm_num)
      filter_upwards [h1, h2] with t e1 e2
      simp [eval, UnOp.eval, e1.le, e2.le]) hk
    have hpos : 0 < √(1 - (1/4:ℝ) ^ 2) := Real.sqrt_pos.2 (by norm_num)
    rw [eq_div_iff hpos.ne'] at this
    have hsq : √(1 - (1/4:ℝ) ^ 2) ^ 2 = 1 - (1/4:ℝ) ^ 2 := Real.sq_sqrt (by norm_num)
    nlinarith

/-- C36: the symbolic derivative of `acos(x)` at `x=0` is `1`, but the derivative is `-1`. -/
theorem C36_acos_counterexample :
    ∃ (d : Expr ℕ), (un .acos (var 0) : Expr ℕ).derivative 0 = some d ∧ d.eval (fun _ => 0) = some 1 ∧
      HasPartial (un .acos (var 0)) 0 (fun _ => 0) (-1) := by
  refine ⟨_, rfl, ?_, Real.arccos, ?_, ?_⟩
  · simp [eval, cst, UnOp.eval, BinOp.eval]
  · have h1 : ∀ᶠ t in 𝓝 (0:ℝ), -1 < t := eventually_gt_nhds (by norm_num)
    have h2 : ∀ᶠ t in 𝓝 (0:ℝ), t < 1 := eventually_lt_nhds (by norm_num)
    filter_upwards [h1, h2] with t e1 e2
    simp [eval, UnOp.eval, e1.le, e2.le]
  · have := Real.hasDerivAt_arccos (x := 0) (by norm_num) (by norm_num)
    simpa using this

/-- Non-vacuity: `x²/y` -/
example : Diff (bin .div (un .sqr (var 0)) (var 1) : Expr ℕ) := by simp [Diff]
example : (bin .div (un .sqr (var 0)) (var 1) : Expr ℕ).derivative 0 ≠ none := by
  simp [derivative, unDeriv, binDeriv]

end Ariadne.Symbolic
