import Verif.FunctionPatch.Exact

/-!
# Property C76: function patches, splitting, partial evaluation and calculus
-/

namespace Verif.FunctionPatch

open Ariadne (Rounding XRounding Bounds Ext)
open Ariadne.Rounding
open Verif.Expansion
open Verif.TaylorModel

variable {K : Type*} [Field K] [LinearOrder K] [IsStrictOrderedRing K]

/-! ## Splitting -/

theorem scalePt_set (d : Dom K) (z : List K) (k : Nat) (hk : k < d.length) (hz : z.length = d.length)
    (i : K × K) (y : K)
    (h : med i + rad i * z.getD k 0 = med (d.getD k (0, 0)) + rad (d.getD k (0, 0)) * y) :
    scalePt (d.set k i) z = scalePt d (z.set k y) := by
  unfold scalePt
  induction d generalizing z k with
  | nil => simp at hk
  | cons j d ih =>
    cases z with
    | nil => simp at hz
    | cons w z =>
      cases k with
      | zero =>
        simp only [List.set_cons_zero, List.zipWith_cons_cons]
        simp only [List.getD_cons_zero] at h
        unfold med rad at h
        rw [h]
      | succ k =>
        simp only [List.set_cons_succ, List.zipWith_cons_cons]
        rw [ih z k (by simpa using hk) (by simpa using hz) (by simpa using h)]

/-- **C76** (splitting): if the midpoint of the interval is representable, the two halves represent
the same functions on the two halves of the domain. -/
theorem C76_split (R : Rounding K) (hrep : ∀ c : Int, |c| < 65536 → R.Rep (c : K)) (s : Sweeper K)
    (f : SPatch K) (hf : f.Ok) (hdeg : ∀ u ∈ f.model.terms, u.1.sum < 16) (k : Nat)
    (hk : k < f.dom.length)
    (hm : R.Rep ((f.dom.getD k (0, 0)).1 + (f.dom.getD k (0, 0)).2)) (F : List K → K)
    (hF : f.Represents F) :
    ∃ f1 f2, f.split R s k = some (f1, f2) ∧
      f1.dom = f.dom.set k ((f.dom.getD k (0, 0)).1, med (f.dom.getD k (0, 0))) ∧
      f2.dom = f.dom.set k (med (f.dom.getD k (0, 0)), (f.dom.getD k (0, 0)).2) ∧
      f1.Represents F ∧ f2.Represents F := by
  obtain ⟨r1, e1, -, h1⟩ := C29_split R hrep s f.dom.length k hk .lower f.model hf.1 hdeg _
    hF.encloses
  obtain ⟨r2, e2, -, h2⟩ := C29_split R hrep s f.dom.length k hk .upper f.model hf.1 hdeg _
    hF.encloses
  have hsplit : f.split R s k = some
      (⟨f.dom.set k ((f.dom.getD k (0, 0)).1, med (f.dom.getD k (0, 0))), r1⟩,
        ⟨f.dom.set k (med (f.dom.getD k (0, 0)), (f.dom.getD k (0, 0)).2), r2⟩) := by
    unfold SPatch.split
    simp only [e1, e2, midpoint_exact hm]
  refine ⟨_, _, hsplit, rfl, rfl, ?_, ?_⟩
  · intro z hz
    simp only [List.length_set] at hz ⊢
    rw [scalePt_set f.dom z k hk hz.1 _ (partPoint .lower (z.getD k 0)) (by
      generalize f.dom.getD k (0, 0) = i
      unfold med rad partPoint
      ring)]
    exact h1 z hz
  · intro z hz
    simp only [List.length_set] at hz ⊢
    rw [scalePt_set f.dom z k hk hz.1 _ (partPoint .upper (z.getD k 0)) (by
      generalize f.dom.getD k (0, 0) = i
      unfold med rad partPoint
      ring)]
    exact h2 z hz

/-! ## Partial evaluation -/

theorem unscaleB_exact {R : Rounding K} (hR : ∀ x, R.Rep x) {i : K × K} (hi : i.1 ≤ i.2) (c : K) :
    toNum (unscaleB R i ⟨.fin c, .fin c⟩) = some (Num.exact (unitCoord i c)) := by
  unfold unscaleB unitCoord
  simp only
  by_cases e : i.1 = i.2
  · rw [if_pos e, if_pos e]
    unfold Bounds.mul
    simp only [Ext.mul, XRounding.ofRounding, mul_zero, down_of_rep R (hR _), up_of_rep R (hR _)]
    split_ifs <;> first | rfl | (simp only [Ext.min, Ext.max]; split_ifs <;> rfl)
  · have hr : 0 < rad i := by
      have := lt_of_le_of_ne hi e
      unfold rad; linarith
    rw [if_neg e, if_neg e]
    have h1 : Ext.lt (.fin 0) (.fin (rad i) : Ext K) = true := by simpa [Ext.lt] using hr
    unfold Bounds.div Bounds.sub
    simp only [down_of_rep R (hR _), up_of_rep R (hR _), h1, if_true, Ext.sub, Ext.add, Ext.neg,
      XRounding.ofRounding, Ext.div, if_neg hr.ne', ← sub_eq_add_neg]
    split_ifs <;> rfl

theorem scalePt_insert (d : Dom K) (z : List K) (k : Nat) (hk : k < d.length)
    (hz : z.length + 1 = d.length) (y : K) :
    scalePt d (z.take k ++ [y] ++ z.drop k) =
      (scalePt (d.eraseIdx k) z).take k ++
        [med (d.getD k (0, 0)) + rad (d.getD k (0, 0)) * y] ++
        (scalePt (d.eraseIdx k) z).drop k := by
  unfold scalePt
  induction d generalizing z k with
  | nil => simp at hk
  | cons j d ih =>
    cases k with
    | zero => simp [med, rad]
    | succ k =>
      cases z with
      | nil =>
        exfalso
        simp only [List.length_nil, List.length_cons] at hz hk
        omega
      | cons w z =>
        simp only [List.take_succ_cons, List.drop_succ_cons, List.cons_append,
          List.zipWith_cons_cons, List.eraseIdx_cons_succ, List.getD_cons_succ]
        congr 1
        exact ih z k (by simpa using hk) (by simpa using hz)

/-- **C76** (partial evaluation, exact arithmetic): the result represents the function with one
argument fixed. -/
theorem C76_partial_evaluate_partial {R : Rounding K} (hR : ∀ x, R.Rep x) (s : Sweeper K)
    (f : SPatch K) (hf : f.Ok) (hM : ∀ u ∈ f.model.terms, u.1.sum < 65536) (k : Nat)
    (hk : k < f.dom.length) (c : K) (hc1 : (f.dom.getD k (0, 0)).1 ≤ c)
    (hc2 : c ≤ (f.dom.getD k (0, 0)).2) (F : List K → K) (hF : f.Represents F) :
    ∃ h, f.partialEvaluate R s k c = some h ∧ h.dom = f.dom.eraseIdx k ∧
      h.Represents (fun x => F (x.take k ++ [c] ++ x.drop k)) := by
  unfold SPatch.partialEvaluate
  simp only
  rw [if_pos ⟨hc1, hc2⟩, unscaleB_exact hR (hc1.trans hc2)]
  simp only
  obtain ⟨n, hn⟩ : ∃ n, f.dom.length = n + 1 := ⟨f.dom.length - 1, by omega⟩
  have hm : |unitCoord (f.dom.getD k (0, 0)) c| ≤ 1 := unscale_mem ⟨hc1, hc2⟩
  obtain ⟨r, e, hr⟩ := C29_partial_evaluate_partial R hR n k (by omega) s f.model
    (by rw [← hn]; exact hf.1) hf.2 hM _ hm _ (by rw [← hn]; exact hF.encloses)
  rw [hn, Nat.add_sub_cancel, e]
  refine ⟨_, rfl, rfl, ?_⟩
  intro z hz
  have hlen : (f.dom.eraseIdx k).length = n := by rw [List.length_eraseIdx_of_lt hk, hn]; omega
  simp only [hlen] at hz
  have := hr z hz
  beta_reduce at this ⊢
  rw [scalePt_insert _ z k hk (by rw [hz.1, hn])] at this
  have e2 : med (f.dom.getD k (0, 0)) + rad (f.dom.getD k (0, 0)) *
      unitCoord (f.dom.getD k (0, 0)) c = c := unscale_scale ⟨hc1, hc2⟩
  rw [e2] at this
  exact this

/-- **C76** (partial evaluation outside): an exception. -/
theorem C76_partial_evaluate_outside (R : Rounding K) (s : Sweeper K) (f : SPatch K) (k : Nat) (c : K)
    (hc : ¬ ((f.dom.getD k (0, 0)).1 ≤ c ∧ c ≤ (f.dom.getD k (0, 0)).2)) :
    f.partialEvaluate R s k c = none := by
  unfold SPatch.partialEvaluate
  simp only
  rw [if_neg hc]

/-! ## Derivatives and antiderivatives -/

/-- Along the variable `k`, `F` is the derivative of `A` on the domain. -/
def IsAntiderivative (d : Dom ℝ) (k : Nat) (A F : List ℝ → ℝ) : Prop :=
  ∀ x, InDom d x → ∀ y ∈ Set.Icc (d.getD k (0, 0)).1 (d.getD k (0, 0)).2,
    HasDerivWithinAt (fun y => A (x.set k y)) (F (x.set k y))
      (Set.Icc (d.getD k (0, 0)).1 (d.getD k (0, 0)).2) y

theorem scalePt_set_pt (d : Dom K) (z : List K) (k : Nat) (hk : k < d.length)
    (hz : z.length = d.length) (y : K) :
    scalePt d (z.set k y) =
      (scalePt d z).set k (med (d.getD k (0, 0)) + rad (d.getD k (0, 0)) * y) := by
  unfold scalePt
  induction d generalizing z k with
  | nil => simp at hk
  | cons j d ih =>
    cases z with
    | nil => simp at hz
    | cons w z =>
      cases k with
      | zero => simp [med, rad]
      | succ k =>
        simp only [List.set_cons_succ, List.zipWith_cons_cons, List.getD_cons_succ]
        rw [ih z k (by simpa using hk) (by simpa using hz)]

theorem getD_proper {d : Dom K} (hd : Proper d) {k : Nat} (hk : k < d.length) :
    (d.getD k (0, 0)).1 ≤ (d.getD k (0, 0)).2 := by
  rw [List.getD_eq_getElem?_getD, List.getElem?_eq_getElem hk]
  exact hd _ (List.getElem_mem hk)

/-- **C76** (antiderivative): the antiderivative represents every antiderivative, with respect to the
given variable, of a represented function which vanishes in the middle of the interval. -/
theorem C76_antiderivative (R : Rounding ℝ) (f : SPatch ℝ) (hf : f.Ok) (hd : Proper f.dom) (k : Nat)
    (hk : k < f.dom.length) (hexp : ∀ u ∈ f.model.terms, u.1.sum + 1 < 65536)
    (hlt : (f.dom.getD k (0, 0)).1 < (f.dom.getD k (0, 0)).2)
    (hrep : R.Rep (rad (f.dom.getD k (0, 0)))) (F A : List ℝ → ℝ) (hF : f.Represents F)
    (hA0 : ∀ x, InDom f.dom x → A (x.set k (med (f.dom.getD k (0, 0)))) = 0)
    (hA : IsAntiderivative f.dom k A F) :
    (f.antiderivative R k).Ok ∧ (f.antiderivative R k).Represents A := by
  set i := f.dom.getD k (0, 0) with hi
  have hr : 0 < rad i := by unfold rad; linarith
  have hnum : dyadicNum R (rad i) = Num.exact (rad i) := by
    unfold dyadicNum Num.exact
    rw [down_of_rep R hrep, up_of_rep R hrep]
  have h1 := C29_antidifferentiate R f.dom.length k hk f.model hf.1
    (fun u hu => by
      have := hexp u hu
      have := getD_le_sum u.1 k
      omega)
    (fun z => F (scalePt f.dom z)) (fun z => A (scalePt f.dom z) / rad i) hF.encloses
    (fun z hz => by
      beta_reduce
      rw [scalePt_set_pt f.dom z k hk hz.1, mul_zero, add_zero, ← hi,
        hA0 _ (scalePt_inDom hd hz), zero_div])
    (fun z hz y hy => by
      have hmap : Set.MapsTo (fun y => med i + rad i * y) (Set.Icc (-1 : ℝ) 1) (Set.Icc i.1 i.2) := by
        intro w hw
        have e1 : i.1 = med i - rad i := by unfold med rad; ring
        have e2 : i.2 = med i + rad i := by unfold med rad; ring
        constructor
        · rw [e1]; nlinarith [hw.1]
        · rw [e2]; nlinarith [hw.2]
      have h2 := hA _ (scalePt_inDom hd hz) (med i + rad i * y) (hmap hy)
      have h3 : HasDerivWithinAt (fun y : ℝ => med i + rad i * y) (rad i) (Set.Icc (-1) 1) y := by
        have := ((hasDerivWithinAt_id y (Set.Icc (-1 : ℝ) 1)).const_mul (rad i)).const_add (med i)
        simpa using this
      have h4 := (h2.comp y h3 hmap).div_const (rad i)
      rw [mul_div_assoc, div_self hr.ne', mul_one] at h4
      beta_reduce
      simp only [scalePt_set_pt f.dom z k hk hz.1, ← hi]
      exact h4)
  unfold SPatch.antiderivative SPatch.Ok
  simp only
  rw [← hi, hnum]
  refine ⟨(C75_neg_scal R _ (C75_antidifferentiate R hk hf hexp)).2, ?_⟩
  intro z hz
  have := C24_scal_exact R _ _ _ h1 (rad i) hrep z hz
  beta_reduce at this
  rwa [mul_div_cancel₀ _ hr.ne'] at this

/-- **C76** (derivative): the derivative represents the derivative of the polynomial part with
respect to the given variable; nothing is claimed for other represented functions. -/
theorem C76_derivative_partial (R : Rounding ℝ) (f : SPatch ℝ) (hf : f.Ok) (k : Nat)
    (hk : k < f.dom.length) (hlt : (f.dom.getD k (0, 0)).1 < (f.dom.getD k (0, 0)).2)
    (hrep : R.Rep (rad (f.dom.getD k (0, 0)))) (hrep' : R.Rep (1 / rad (f.dom.getD k (0, 0))))
    (P P' : List ℝ → ℝ) (hP : ∀ z, InBox f.dom.length z → ∀ y,
      P (scalePt f.dom (z.set k y)) = value (monomial (z.set k y)) f.model.terms)
    (hP' : ∀ z, InBox f.dom.length z → ∀ y,
      HasDerivAt (fun y => P ((scalePt f.dom z).set k y)) (P' ((scalePt f.dom z).set k y)) y) :
    ∃ h, f.derivative R k = some h ∧ h.dom = f.dom ∧ h.Represents P' := by
  set i := f.dom.getD k (0, 0) with hi
  have hr : 0 < rad i := by unfold rad; linarith
  have hnum : recNum R (dyadicNum R (rad i)) = some (Num.exact (1 / rad i)) := by
    unfold dyadicNum recNum Num.exact
    simp only [down_of_rep R hrep, up_of_rep R hrep, if_pos hr, down_of_rep R hrep',
      up_of_rep R hrep']
  have h1 := C29_differentiate R f.dom.length k hk f.model hf.1
    (fun z => rad i * P' (scalePt f.dom z)) (fun z hz y => by
      have h2 := hP' z hz (med i + rad i * y)
      have h3 : HasDerivAt (fun y : ℝ => med i + rad i * y) (rad i) y := by
        have := ((hasDerivAt_id y).const_mul (rad i)).const_add (med i)
        simpa using this
      have h4 := h2.comp y h3
      have e : (fun y => value (monomial (z.set k y)) f.model.terms) =
          (fun y => P ((scalePt f.dom z).set k y)) ∘ (fun y => med i + rad i * y) := by
        funext y
        rw [← hP z hz y, scalePt_set_pt f.dom z k hk hz.1]
        rfl
      rw [e]
      beta_reduce
      rw [scalePt_set_pt f.dom z k hk hz.1, ← hi, mul_comm]
      exact h4)
  unfold SPatch.derivative
  rw [← hi, hnum]
  refine ⟨_, rfl, rfl, ?_⟩
  intro z hz
  have := C24_scal_exact R _ _ _ h1 (1 / rad i) hrep' z hz
  beta_reduce at this
  rwa [← mul_assoc, one_div_mul_cancel hr.ne', one_mul] at this

theorem inDom_set {d : Dom K} {x : List K} (hx : InDom d x) (k : Nat) {c : K}
    (h1 : (d.getD k (0, 0)).1 ≤ c) (h2 : c ≤ (d.getD k (0, 0)).2) : InDom d (x.set k c) := by
  unfold InDom at *
  induction hx generalizing k with
  | nil => simp
  | cons h hx ih =>
    cases k with
    | zero => exact .cons ⟨by simpa using h1, by simpa using h2⟩ hx
    | succ k => exact .cons h (ih k (by simpa using h1) (by simpa using h2))

theorem coords_set_map {n k : Nat} (c : K) {x : List K} (hx : x.length = n) :
    ((coords n).set k (fun _ => c)).map (fun h => h x) = x.set k c := by
  rw [List.map_set, coords_map hx]

theorem sum_set_succ (a : List Nat) (k : Nat) (hk : k < a.length) :
    (a.set k (a.getD k 0 + 1)).sum = a.sum + 1 := by
  induction a generalizing k with
  | nil => simp at hk
  | cons x a ih =>
    cases k with
    | zero => simp; omega
    | succ k =>
      have := ih k (by simpa using hk)
      simp only [List.set_cons_succ, List.getD_cons_succ, List.sum_cons, this]
      omega

theorem mem_antidifferentiate_sum {K : Type*} [Field K] [LinearOrder K] [IsStrictOrderedRing K]
    (R : Rounding K) {n k : Nat} (hk : k < n) {t : TM K} (ht : WF n t) {M : Nat}
    (hM : ∀ u ∈ t.terms, u.1.sum ≤ M) (hM' : M + 1 < 65536) :
    ∀ u ∈ (antidifferentiate R k t).terms, u.1.sum ≤ M + 1 := by
  have key : ∀ (p : Terms (List Nat) K) (e : K), (∀ u ∈ p, u.1.sum ≤ M ∧ k < u.1.length) →
      ∀ u ∈ (antidifferentiate.loop R k p e).1, u.1.sum ≤ M + 1 := by
    intro p
    induction p with
    | nil => intro e _ u hu; simp [antidifferentiate.loop] at hu
    | cons v p ih =>
      intro e h u hu
      obtain ⟨a, c⟩ := v
      obtain ⟨h1, h2⟩ := h (a, c) (by simp)
      simp only at h1 h2
      have hle := getD_le_sum a k
      have hw : wrap (a.getD k 0 + 1) = a.getD k 0 + 1 := by unfold wrap; omega
      unfold antidifferentiate.loop at hu
      simp only [hw, getD_set_self a k h2] at hu
      rcases List.mem_cons.1 hu with rfl | hu
      · simp only [sum_set_succ a k h2]
        omega
      · exact ih _ (fun v hv => h v (by simp [hv])) u hu
  exact key _ _ (fun u hu => ⟨hM u hu, by rw [ht u hu]; exact hk⟩)

/-- **C76** (antiderivative from a point, exact arithmetic): if the result is not an exception, it
represents every antiderivative of a represented function which vanishes at the given point. -/
theorem C76_antiderivative_from_partial {R : Rounding ℝ} (hR : ∀ x, R.Rep x) (s : Sweeper ℝ)
    (f h : SPatch ℝ) (hf : f.Ok) (hd : Proper f.dom) (k : Nat) {M : Nat} (hM : f.DegLe M)
    (hM' : M + 1 < 65536) (c : ℝ)
    (hlt : (f.dom.getD k (0, 0)).1 < (f.dom.getD k (0, 0)).2)
    (hr : f.antiderivativeFrom R s k c = some h) (F A : List ℝ → ℝ) (hF : f.Represents F)
    (hA0 : ∀ x, InDom f.dom x → A (x.set k c) = 0) (hA : IsAntiderivative f.dom k A F) :
    h.dom = f.dom ∧ h.Represents A := by
  unfold SPatch.antiderivativeFrom at hr
  simp only at hr
  by_cases hc : k < f.dom.length ∧ (f.dom.getD k (0, 0)).1 ≤ c ∧ c ≤ (f.dom.getD k (0, 0)).2
  swap
  · rw [if_neg hc] at hr; cases hr
  rw [if_pos hc] at hr
  obtain ⟨hk, hc1, hc2⟩ := hc
  set m := med (f.dom.getD k (0, 0)) with hm
  have hm1 : (f.dom.getD k (0, 0)).1 ≤ m := by rw [hm]; unfold med; linarith
  have hm2 : m ≤ (f.dom.getD k (0, 0)).2 := by rw [hm]; unfold med; linarith
  -- the antiderivative which vanishes in the middle
  have h1 := C76_antiderivative R f hf hd k hk (fun u hu => by have := hM u hu; omega) hlt (hR _) F
    (fun x => A x - A (x.set k m)) hF
    (fun x _ => by beta_reduce; rw [List.set_set, ← hm, sub_self])
    (fun x hx y hy => by
      have := (hA x hx y hy).sub_const (A (x.set k m))
      simpa only [List.set_set] using this)
  set g := f.antiderivative R k with hg
  have hgd : g.dom = f.dom := rfl
  have hgM : g.DegLe (M + 1) := scal_sum (mem_antidifferentiate_sum R hk hf.1 hM hM')
  -- the inner function
  have hset : (identity R f.dom).set k (SPatch.constant R f.dom (Num.exact c)) =
      some ⟨f.dom, (scalings R f.dom).set k (SPatch.constant R f.dom (Num.exact c)).model⟩ := by
    unfold VPatch.set
    rw [if_pos (by simpa [identity, scalings] using hk), if_pos (by
      change f.dom.length ≠ 0; omega), if_pos (show (SPatch.constant R f.dom (Num.exact c)).dom =
        (identity R f.dom).dom from rfl)]
    rfl
  rw [hset] at hr
  simp only at hr
  set I : VPatch ℝ := ⟨f.dom, (scalings R f.dom).set k
    (SPatch.constant R f.dom (Num.exact c)).model⟩ with hI
  have hid := identity_good R f.dom (fun i _ => exactItv_of_rep hR i)
  have hconst := C76_constant R f.dom c (hR c)
  have hcs : ∀ u ∈ (SPatch.constant R f.dom (Num.exact c)).model.terms, u.1.sum ≤ 1 := by
    intro u hu
    obtain ⟨v, hv, e⟩ := mem_apply1 hu
    simp only [List.mem_singleton] at hv
    rw [← e, hv, Expansion.sum_replicate_zero]
    exact Nat.zero_le _
  have hI2 : List.Forall₂ (fun t G => SPatch.Represents ⟨f.dom, t⟩ G ∧ Canon f.dom.length t ∧
      ∀ u ∈ t.terms, u.1.sum ≤ 1) I.models ((coords f.dom.length).set k (fun _ => c)) := by
    have aux : ∀ (l : List (TM ℝ)) (G : List (List ℝ → ℝ)) (k : Nat),
        List.Forall₂ (fun t G => SPatch.Represents ⟨f.dom, t⟩ G ∧ Canon f.dom.length t ∧
          ∀ u ∈ t.terms, u.1.sum ≤ 1) l G →
        List.Forall₂ (fun t G => SPatch.Represents ⟨f.dom, t⟩ G ∧ Canon f.dom.length t ∧
          ∀ u ∈ t.terms, u.1.sum ≤ 1)
          (l.set k (SPatch.constant R f.dom (Num.exact c)).model) (G.set k (fun _ => c)) := by
      intro l G k h
      induction h generalizing k with
      | nil => simp
      | cons h1 h2 ih =>
        cases k with
        | zero => exact .cons ⟨hconst.2, hconst.1, hcs⟩ h2
        | succ k => exact .cons h1 (ih k)
    exact aux _ _ k hid
  have hIok : I.Ok ∧ I.DegLe 1 := by
    refine ⟨?_, ?_⟩ <;>
    · intro t ht
      obtain ⟨j, hj, rfl⟩ := List.mem_iff_getElem.1 ht
      have := (List.forall₂_iff_get.1 hI2).2 j hj (by rw [← hI2.length_eq]; exact hj)
      first | exact this.2.1 | exact this.2.2
  have hIlen : I.models.length = g.dom.length := by simp [hI, scalings, hgd]
  cases hcomp : compose R s g I with
  | none => rw [hcomp] at hr; cases hr
  | some gh =>
    rw [hcomp] at hr
    simp only at hr
    have hin : codomainIn R I g.dom = true := by
      by_contra hne
      unfold compose at hcomp
      rw [if_neg hne] at hcomp
      cases hcomp
    obtain ⟨q, e, qd, qok, -, qr⟩ := C76_compose_partial hR s g I h1.1 hIok.1 hIlen hd hd (M + 1) 1
      hgM hIok.2 (by norm_num) (by omega) _ _ h1.2 (hI2.imp (fun _ _ h => h.1)) hin
    rw [hcomp] at e
    obtain rfl := Option.some.inj e
    obtain ⟨-, p, e, pd, -, pr⟩ := C76_add_sub R s g gh (hgd.trans qd.symm) h1.1 qok _ _ h1.2 qr
    rw [hr] at e
    obtain rfl := Option.some.inj e
    refine ⟨pd, ?_⟩
    refine pr.congr (by rw [pd]; exact hd) ?_
    intro x hx
    rw [pd] at hx
    have hxl : x.length = f.dom.length := (List.Forall₂.length_eq hx).symm
    beta_reduce
    rw [coords_set_map c hxl, hA0 x hx, List.set_set]
    ring

end Verif.FunctionPatch
