import Verif.FunctionPatch.Props

/-!
# Property C76: function patches, identity, composition and restriction

The identity is right on domains of which the midpoint and the width are representable.  Composition
and restriction are proved for exact arithmetic.
-/

namespace Verif.FunctionPatch

open Ariadne (Rounding XRounding Bounds Ext)
open Ariadne.Rounding
open Verif.Expansion
open Verif.TaylorModel

variable {K : Type*} [Field K] [LinearOrder K] [IsStrictOrderedRing K]

/-! ## Identity -/

/-- The midpoint and the width of the interval need no rounding. -/
def ExactItv (R : Rounding K) (i : K × K) : Prop := R.Rep (i.1 + i.2) ∧ R.Rep (i.2 - i.1)

theorem centre_exact {R : Rounding K} {i : K × K} (h : R.Rep (i.1 + i.2)) :
    centre R i = Num.exact (med i) := by
  unfold centre Num.exact med
  rw [down_of_rep R h, up_of_rep R h]

theorem midpoint_exact {R : Rounding K} {i : K × K} (h : R.Rep (i.1 + i.2)) :
    midpoint R i = med i := by
  unfold midpoint
  rw [centre_exact h]
  unfold Num.value Num.exact med
  simp only
  rw [add_halves, near_of_rep R h]

theorem radius_exact {R : Rounding K} {i : K × K} (h : ExactItv R i) :
    radius R i = Num.exact (rad i) := by
  have e1 : i.2 - med i = rad i := by unfold med rad; ring
  have e2 : med i - i.1 = rad i := by unfold med rad; ring
  have hr : R.Rep (rad i) := R.rep_half _ h.2
  unfold radius Num.exact
  rw [midpoint_exact h.1, e1, e2, down_of_rep R hr, up_of_rep R hr, max_self]

theorem unit_sum_le (n j : Nat) : ((List.replicate n 0).set j 1).sum ≤ 1 := by
  induction n generalizing j with
  | zero => simp
  | succ m ih =>
    rw [List.replicate_succ]
    cases j with
    | zero => rw [List.set_cons_zero, List.sum_cons, Expansion.sum_replicate_zero]
    | succ j => rw [List.set_cons_succ, List.sum_cons, zero_add]; exact ih j

theorem coordinate_encloses {n j : Nat} (hj : j < n) :
    Encloses n (TaylorModel.coordinate n j : TM K) (fun z => z.getD j 0) := by
  intro z hz
  have h1 := monomial_set_right z (List.replicate n 0) j (by rw [hz.1]; exact hj)
    (by simpa using hj) 1
  have h2 : (List.replicate n 0).set j 0 = List.replicate n 0 := by
    have := set_getD_self (List.replicate n 0) j 0
    have h0 : (List.replicate n 0).getD j 0 = 0 := by
      rw [List.getD_eq_getElem?_getD, List.getElem?_replicate]
      split_ifs <;> rfl
    rwa [h0] at this
  rw [h2, monomial_zero, one_mul, pow_one] at h1
  simp only [TaylorModel.coordinate, value_cons, value_nil, h1]
  simp

theorem coordinate_sum (n j : Nat) :
    ∀ u ∈ (TaylorModel.coordinate n j : TM K).terms, u.1.sum ≤ 1 := by
  intro u hu
  simp only [TaylorModel.coordinate, List.mem_singleton] at hu
  rw [hu]; exact unit_sum_le n j

theorem scal_sum {R : Rounding K} {t : TM K} {c : Num K} {D : Nat} (h : ∀ u ∈ t.terms, u.1.sum ≤ D) :
    ∀ u ∈ (TaylorModel.scal R t c).terms, u.1.sum ≤ D := by
  intro u hu
  obtain ⟨v, hv, e⟩ := mem_apply1 hu
  rw [← e]; exact h v hv

theorem acc_sum {R : Rounding K} {n : Nat} {t : TM K} {c : Num K} {D : Nat}
    (h : ∀ u ∈ t.terms, u.1.sum ≤ D) : ∀ u ∈ (acc R n t c).terms, u.1.sum ≤ D := by
  intro u hu
  unfold acc at hu
  by_cases h0 : c.l = 0 ∧ c.u = 0
  · rw [if_pos h0] at hu; exact h u hu
  · rw [if_neg h0] at hu
    cases hl : t.terms.getLast? with
    | none =>
      rw [hl] at hu
      rcases List.mem_append.1 hu with hu | hu
      · exact h u hu
      · simp only [List.mem_singleton] at hu
        subst hu
        simp [Expansion.sum_replicate_zero]
    | some v =>
      rw [hl] at hu
      simp only at hu
      by_cases hd : degree v.1 > 0
      · rw [if_pos hd] at hu
        rcases List.mem_append.1 hu with hu | hu
        · exact h u hu
        · simp only [List.mem_singleton] at hu
          subst hu
          simp [Expansion.sum_replicate_zero]
      · rw [if_neg hd] at hu
        obtain ⟨p, hp⟩ := List.getLast?_eq_some_iff.1 hl
        rcases List.mem_append.1 hu with hu | hu
        · exact h u (List.mem_of_mem_dropLast hu)
        · simp only [List.mem_singleton] at hu
          subst hu
          exact h v (by rw [hp]; simp)

theorem fits_of_le {t : TM K} {D : Nat} (hD : D < 65536) (h : ∀ u ∈ t.terms, u.1.sum ≤ D) :
    ∀ u ∈ t.terms, Fits u.1 := fun u hu => lt_of_le_of_lt (h u hu) hD

theorem scaling_good (R : Rounding K) {n j : Nat} (hj : j < n) {i : K × K} (hi : ExactItv R i) :
    Encloses n (scaling R n j i) (fun z => med i + rad i * z.getD j 0) ∧
      Canon n (scaling R n j i) ∧ ∀ u ∈ (scaling R n j i).terms, u.1.sum ≤ 1 := by
  unfold scaling
  rw [radius_exact hi, midpoint_exact hi.1]
  have hs := scal_sum (R := R) (c := Num.exact (rad i)) (coordinate_sum (K := K) n j)
  have hf := fits_of_le (by norm_num) hs
  refine ⟨?_, ?_, acc_sum hs⟩
  · exact C24_acc_exact R n _ hf _ (C24_scal_exact R n _ _ (coordinate_encloses hj) _
      (R.rep_half _ hi.2)) _ (R.rep_half _ hi.1)
  · exact C75_acc R _ (C75_neg_scal R _ (C75_constructors R n j (Num.exact 0)).2.2).2 hf

theorem scalePt_getD {d : Dom K} {s : List K} (hs : s.length = d.length) {j : Nat}
    (hj : j < d.length) (i0 : K × K) :
    (scalePt d s).getD j 0 = med (d.getD j i0) + rad (d.getD j i0) * s.getD j 0 := by
  unfold scalePt
  rw [List.getD_eq_getElem?_getD, List.getElem?_zipWith, List.getD_eq_getElem?_getD,
    List.getD_eq_getElem?_getD, List.getElem?_eq_getElem hj, List.getElem?_eq_getElem (by omega)]
  rfl

/-- The coordinate functions. -/
def coords (n : Nat) : List (List K → K) := (List.range n).map (fun j x => x.getD j 0)

theorem coords_map {n : Nat} {x : List K} (hx : x.length = n) :
    (coords n).map (fun h => h x) = x := by
  unfold coords
  rw [List.map_map]
  refine List.ext_getElem (by simp [hx]) ?_
  intro j h1 h2
  simp [List.getD_eq_getElem?_getD, List.getElem?_eq_getElem h2]

/-- **C76** (coordinates): the coordinate patch represents the coordinate. -/
theorem C76_coordinate (R : Rounding K) (d : Dom K) (j : Nat) (hj : j < d.length)
    (hi : ExactItv R (d.getD j (0, 0))) :
    (SPatch.coordinate R d j).Ok ∧ (SPatch.coordinate R d j).Represents (fun x => x.getD j 0) := by
  obtain ⟨h1, h2, -⟩ := scaling_good R hj hi
  refine ⟨h2, ?_⟩
  intro s hs
  have := h1 s hs
  beta_reduce
  rw [scalePt_getD hs.1 hj (0, 0)]
  exact this

theorem identity_good (R : Rounding K) (d : Dom K) (hd : ∀ i ∈ d, ExactItv R i) :
    List.Forall₂ (fun t G => SPatch.Represents ⟨d, t⟩ G ∧ Canon d.length t ∧
      ∀ u ∈ t.terms, u.1.sum ≤ 1) (scalings R d) (coords d.length) := by
  rw [List.forall₂_iff_get]
  refine ⟨by simp [scalings, coords], ?_⟩
  intro j h1 h2
  have hj : j < d.length := by simpa [scalings] using h1
  have e1 : (scalings R d).get ⟨j, h1⟩ = scaling R d.length j d[j] := by simp [scalings]
  have e2 : (coords d.length).get ⟨j, h2⟩ = fun x : List K => x.getD j 0 := by
    simp [coords]
  rw [e1, e2]
  obtain ⟨g1, g2, g3⟩ := scaling_good R hj (hd d[j] (List.getElem_mem hj))
  refine ⟨?_, g2, g3⟩
  intro s hs
  have := g1 s hs
  beta_reduce
  rw [scalePt_getD hs.1 hj (0, 0)]
  rw [show d.getD j (0, 0) = d[j] by
    rw [List.getD_eq_getElem?_getD, List.getElem?_eq_getElem hj]; rfl]
  exact this

/-- **C76** (identity): on domains with representable midpoints and widths the identity patch
represents the coordinates, for any rounding. -/
theorem C76_identity (R : Rounding K) (d : Dom K) (hd : ∀ i ∈ d, ExactItv R i) :
    (identity R d).Ok ∧ (identity R d).Represents (coords d.length) := by
  have h := identity_good R d hd
  refine ⟨?_, h.imp (fun _ _ h => h.1)⟩
  intro t ht
  obtain ⟨j, hj, rfl⟩ := List.mem_iff_getElem.1 ht
  have := (List.forall₂_iff_get.1 h).2 j hj (by rw [← h.length_eq]; exact hj)
  exact this.2.1

/-- **C76** (constants), for exact numbers. -/
theorem C76_constant (R : Rounding K) (d : Dom K) (c : K) (hc : R.Rep c) :
    (SPatch.constant R d (Num.exact c)).Ok ∧
      (SPatch.constant R d (Num.exact c)).Represents (fun _ => c) := by
  refine ⟨(C75_constructors R d.length 0 (Num.exact c)).1, ?_⟩
  have h0 : Encloses d.length (⟨[(List.replicate d.length 0, 1)], 0⟩ : TM K) (fun _ => 1) := by
    intro z _; simp [monomial_zero]
  have := C24_scal_exact R d.length _ _ h0 c hc
  simp only [mul_one] at this
  exact this

/-! ## Unscaling and composition, exact arithmetic -/

theorem exactItv_of_rep {R : Rounding K} (hR : ∀ x, R.Rep x) (i : K × K) : ExactItv R i :=
  ⟨hR _, hR _⟩

/-- The coordinate in the unit interval of a value in the interval. -/
def unitCoord (i : K × K) (y : K) : K := if i.1 = i.2 then 0 else (y - med i) / rad i

theorem unscale_good {R : Rounding K} (hR : ∀ x, R.Rep x) {n D : Nat} (hD : D < 65536) {i : K × K}
    (hi : i.1 ≤ i.2) {t : TM K} {f : List K → K} (h : Encloses n t f) (hc : Canon n t)
    (hs : ∀ u ∈ t.terms, u.1.sum ≤ D) :
    ∃ r, unscale R n i t = some r ∧ Encloses n r (fun z => unitCoord i (f z)) ∧ Canon n r ∧
      ∀ u ∈ r.terms, u.1.sum ≤ D := by
  unfold unscale unitCoord
  rw [if_neg (not_lt.2 hi)]
  by_cases e : i.1 = i.2
  · simp only [if_pos e]
    refine ⟨_, rfl, assign_encloses R n 0, (C75_constructors R n 0 _).2.1, ?_⟩
    intro u hu
    rw [(assign_terms R n 0 u hu).1, Expansion.sum_replicate_zero]
    exact Nat.zero_le _
  · have hr : 0 < rad i := by
      have := lt_of_le_of_ne hi e
      unfold rad; linarith
    simp only [if_neg e]
    have hx := exactItv_of_rep hR i
    have e1 : recNum R (radius R i) = some (Num.exact (1 / rad i)) := by
      rw [radius_exact hx]
      unfold recNum Num.exact
      simp only [if_pos hr, down_of_rep R (hR _), up_of_rep R (hR _)]
    have e2 : (⟨-(centre R i).u, -(centre R i).l⟩ : Num K) = Num.exact (-med i) := by
      rw [centre_exact hx.1]; rfl
    rw [e1, e2]
    have ha := acc_sum (R := R) (n := n) (c := Num.exact (-med i)) hs
    refine ⟨_, rfl, ?_, ?_, scal_sum ha⟩
    · intro z hz
      have := C24_scal_exact R n _ _ (C24_acc_exact R n t (fits_of_le hD hs) f h (-med i) (hR _))
        (1 / rad i) (hR _) z hz
      beta_reduce at this ⊢
      rwa [show 1 / rad i * (-med i + f z) = (f z - med i) / rad i by ring] at this
    · exact (C75_neg_scal R _ (C75_acc R _ hc (fits_of_le hD hs))).2

theorem unscales_good {R : Rounding K} (hR : ∀ x, R.Rep x) {n D : Nat} (hD : D < 65536)
    (d : Dom K) (hd : Proper d) (ts : List (TM K)) (G : List (List K → K))
    (hlen : ts.length = d.length)
    (h : List.Forall₂ (fun t g => Encloses n t g ∧ Canon n t ∧ ∀ u ∈ t.terms, u.1.sum ≤ D) ts G) :
    ∃ rs, unscales R n d ts = some rs ∧ rs.length = d.length ∧
      List.Forall₂ (fun t g => Encloses n t g ∧ Canon n t ∧ ∀ u ∈ t.terms, u.1.sum ≤ D) rs
        (List.zipWith (fun i g z => unitCoord i (g z)) d G) := by
  induction d generalizing ts G with
  | nil =>
    cases h with
    | nil => exact ⟨[], rfl, rfl, .nil⟩
    | cons _ _ => simp at hlen
  | cons i d ih =>
    cases h with
    | nil => simp at hlen
    | cons h1 h =>
      obtain ⟨r, e1, g1⟩ := unscale_good hR hD (hd i (by simp)) h1.1 h1.2.1 h1.2.2
      obtain ⟨rs, e2, l2, g2⟩ := ih (fun j hj => hd j (by simp [hj])) _ _ (by simpa using hlen) h
      refine ⟨r :: rs, by unfold unscales; rw [e1, e2], by simp [l2], ?_⟩
      simp only [List.zipWith_cons_cons]
      exact .cons g1 g2

theorem unitCoord_box (d : Dom K) (G : List (List K → K)) (x z : List K)
    (h : InDom d (G.map (fun g => g x))) :
    List.map (fun h => h z) (List.zipWith (fun (i : K × K) (g : List K → K) (_ : List K) =>
      unitCoord i (g x)) d G) = unscalePt d (G.map (fun g => g x)) := by
  clear h
  unfold unscalePt
  induction d generalizing G with
  | nil => simp
  | cons i d ih =>
    cases G with
    | nil => simp
    | cons g G => simp only [List.zipWith_cons_cons, List.map_cons, ih]; rfl

/-- All terms of the patch have degree at most `M`. -/
def SPatch.DegLe (f : SPatch K) (M : Nat) : Prop := ∀ u ∈ f.model.terms, u.1.sum ≤ M

/-- All terms of the patch have degree at most `M`. -/
def VPatch.DegLe (f : VPatch K) (M : Nat) : Prop := ∀ t ∈ f.models, ∀ u ∈ t.terms, u.1.sum ≤ M

theorem composeU_good {R : Rounding K} (hR : ∀ x, R.Rep x) (s : Sweeper K) (g : SPatch K)
    (f : VPatch K) (hg : g.Ok) (hf : f.Ok) (hlen : f.models.length = g.dom.length)
    (hd : Proper g.dom) (M D : Nat) (hM : g.DegLe M) (hDg : f.DegLe D) (hD : D < 65536)
    (hMD : M * D < 65536) (G : List K → K) (F : List (List K → K)) (hG : g.Represents G)
    (hF : f.Represents F)
    (hin : ∀ z, InBox f.dom.length z →
      InDom g.dom (F.map (fun h => h (scalePt f.dom z)))) :
    ∃ h, composeU R s g f = some h ∧ h.dom = f.dom ∧ h.Ok ∧ h.DegLe (M * D) ∧
      h.Represents (fun x => G (F.map (fun h => h x))) := by
  have hF' : List.Forall₂ (fun t g => Encloses f.dom.length t g ∧ Canon f.dom.length t ∧
      ∀ u ∈ t.terms, u.1.sum ≤ D) f.models (F.map (fun h z => h (scalePt f.dom z))) := by
    rw [List.forall₂_map_right_iff]
    exact (forall₂_mem hF).imp (fun t A h => ⟨h.2.encloses, hf t h.1, hDg t h.1⟩)
  obtain ⟨rs, e1, l1, h1⟩ := unscales_good hR hD g.dom hd f.models _ hlen hF'
  have hpt : ∀ z, InBox f.dom.length z → List.map (fun h => h z)
      (List.zipWith (fun i g z => unitCoord i (g z)) g.dom
        (F.map (fun h z => h (scalePt f.dom z)))) =
      unscalePt g.dom (F.map (fun h => h (scalePt f.dom z))) := by
    intro z hz
    have := unitCoord_box g.dom F (scalePt f.dom z) z (hin z hz)
    rw [← this, List.zipWith_map_right, List.map_zipWith, List.map_zipWith]
  obtain ⟨r, e2, c2, m2, n2⟩ := C75_compose R hR f.dom.length g.dom.length s g.model hg M D hM hMD
    _ hG.encloses rs _ l1 h1 (by
      intro z hz
      rw [hpt z hz]
      exact (unscalePt_spec (hin z hz)).1)
  refine ⟨⟨f.dom, r⟩, ?_, rfl, c2, m2, ?_⟩
  · unfold composeU
    rw [e1]
    simp only
    rw [e2]
    rfl
  · intro z hz
    have := n2 z hz
    beta_reduce at this
    rw [hpt z hz, (unscalePt_spec (hin z hz)).2] at this
    exact this

/-- If the ranges of the components are in the box, so are the values. -/
theorem codomainIn_spec {R : Rounding K} (f : VPatch K) (hf : f.Ok) {D : Nat} (hD : D < 65536)
    (hDg : f.DegLe D) (F : List (List K → K)) (hF : f.Represents F) (d : Dom K)
    (hlen : f.models.length = d.length) (h : codomainIn R f d = true) (x : List K)
    (hx : InDom f.dom x) : InDom d (F.map (fun A => A x)) := by
  have key : ∀ (d : Dom K) (l : List (TM K)) (F : List (List K → K)), l.length = d.length →
      (List.zipWith (fun (i : K × K) (t : TM K) =>
        let r := TaylorModel.range R f.dom.length t
        Ext.le (.fin i.1) r.l && Ext.le r.u (.fin i.2)) d l).all id = true →
      List.Forall₂ (fun t G => t ∈ f.models ∧ SPatch.Represents ⟨f.dom, t⟩ G) l F →
      InDom d (F.map (fun A => A x)) := by
    intro d
    induction d with
    | nil =>
      intro l F hl _ h
      cases h with
      | nil => exact .nil
      | cons _ _ => simp at hl
    | cons i d ih =>
      intro l F hl hc h
      cases h with
      | nil => simp at hl
      | cons h1 h =>
        simp only [List.zipWith_cons_cons, List.all_cons, id, Bool.and_eq_true] at hc
        refine .cons ?_ (ih _ _ (by simpa using hl) hc.2 h)
        exact (finite_of_contained hc.1.1 hc.1.2 (C76_range R ⟨f.dom, _⟩ (hf _ h1.1)
          (fits_of_le hD (hDg _ h1.1)) _ h1.2 x hx)).2
  exact key d f.models F hlen h (forall₂_mem hF)

/-- **C76** (composition, exact arithmetic): if the composition is not refused, the result represents
the composition of the represented functions. -/
theorem C76_compose_partial {R : Rounding K} (hR : ∀ x, R.Rep x) (s : Sweeper K) (g : SPatch K)
    (f : VPatch K) (hg : g.Ok) (hf : f.Ok) (hlen : f.models.length = g.dom.length)
    (hd : Proper g.dom) (hdf : Proper f.dom) (M D : Nat) (hM : g.DegLe M) (hDg : f.DegLe D)
    (hD : D < 65536) (hMD : M * D < 65536) (G : List K → K) (F : List (List K → K))
    (hG : g.Represents G) (hF : f.Represents F) (hin : codomainIn R f g.dom = true) :
    ∃ h, compose R s g f = some h ∧ h.dom = f.dom ∧ h.Ok ∧ h.DegLe (M * D) ∧
      h.Represents (fun x => G (F.map (fun h => h x))) := by
  unfold compose
  rw [if_pos hin]
  exact composeU_good hR s g f hg hf hlen hd M D hM hDg hD hMD G F hG hF
    (fun z hz => codomainIn_spec f hf hD hDg F hF g.dom hlen hin _ (scalePt_inDom hdf hz))

/-- **C76** (composition refused): if the inner patch represents a function with a value outside the
domain of the outer one, there is an exception. -/
theorem C76_compose_refused {R : Rounding K} (s : Sweeper K) (g : SPatch K)
    (f : VPatch K) (hf : f.Ok) (hlen : f.models.length = g.dom.length) (D : Nat)
    (hDg : f.DegLe D) (hD : D < 65536) (F : List (List K → K)) (hF : f.Represents F) (x : List K)
    (hx : InDom f.dom x) (hout : ¬ InDom g.dom (F.map (fun h => h x))) :
    compose R s g f = none := by
  unfold compose
  rw [if_neg]
  intro h
  exact hout (codomainIn_spec f hf hD hDg F hF g.dom hlen h x hx)

/-! ## Restriction -/

theorem subset_spec {d e : Dom K} (hl : d.length = e.length) (h : subset d e = true) {x : List K}
    (hx : InDom d x) : InDom e x := by
  unfold InDom at *
  unfold subset at h
  induction hx generalizing e with
  | nil => cases e with
    | nil => exact .nil
    | cons _ _ => simp at hl
  | cons h1 _ ih =>
    cases e with
    | nil => simp at hl
    | cons j e =>
      simp only [List.zipWith_cons_cons, List.all_cons, id, Bool.and_eq_true,
        decide_eq_true_eq] at h
      exact .cons ⟨h.1.1.trans h1.1, h1.2.trans h.1.2⟩ (ih (by simpa using hl) h.2)

theorem subset_proper {d e : Dom K} (hl : d.length = e.length) (h : subset d e = true)
    (hd : Proper d) : Proper e := by
  unfold subset at h
  induction d generalizing e with
  | nil => cases e with
    | nil => intro i hi; simp at hi
    | cons _ _ => simp at hl
  | cons i d ih =>
    cases e with
    | nil => simp at hl
    | cons j e =>
      simp only [List.zipWith_cons_cons, List.all_cons, id, Bool.and_eq_true,
        decide_eq_true_eq] at h
      intro k hk
      rcases List.mem_cons.1 hk with rfl | hk
      · exact h.1.1.trans ((hd i (by simp)).trans h.1.2)
      · exact ih (by simpa using hl) h.2 (fun j hj => hd j (by simp [hj])) k hk

theorem subset_refl (d : Dom K) : subset d d = true := by
  unfold subset
  induction d with
  | nil => rfl
  | cons i d ih => simp only [List.zipWith_cons_cons, List.all_cons, ih]; simp

/-- **C76** (restriction, exact arithmetic): the restriction to a smaller domain represents the same
functions. -/
theorem C76_restriction_partial {R : Rounding K} (hR : ∀ x, R.Rep x) (s : Sweeper K) (f : SPatch K)
    (hf : f.Ok) {M : Nat} (hM : f.DegLe M) (hM' : M < 65536) (d : Dom K) (hd : Proper d)
    (hl : d.length = f.dom.length) (hsub : subset d f.dom = true) (F : List K → K)
    (hF : f.Represents F) :
    ∃ h, f.restriction R s d = some h ∧ h.dom = d ∧ h.Ok ∧ h.DegLe M ∧ h.Represents F := by
  have hid := identity_good R d (fun i _ => exactItv_of_rep hR i)
  have hI := C76_identity R d (fun i _ => exactItv_of_rep hR i)
  have hdeg : (identity R d).DegLe 1 := by
    intro t ht
    obtain ⟨j, hj, rfl⟩ := List.mem_iff_getElem.1 ht
    have := (List.forall₂_iff_get.1 hid).2 j hj (by rw [← hid.length_eq]; exact hj)
    exact this.2.2
  have hlen : (identity R d).models.length = f.dom.length := by
    simp [identity, scalings, hl]
  obtain ⟨h, e, hd', hok, hdg, hr⟩ := composeU_good hR s f (identity R d) hf hI.1 hlen
    (subset_proper hl hsub hd) M 1 hM hdeg (by norm_num) (by omega) F (coords d.length) hF hI.2 (by
      intro z hz
      have hz' : (scalePt d z).length = d.length := scalePt_length hz.1
      change InDom f.dom ((coords d.length).map (fun h => h (scalePt d z)))
      rw [coords_map hz']
      exact subset_spec hl hsub (scalePt_inDom hd hz))
  refine ⟨h, by unfold SPatch.restriction; rw [if_pos hsub, e], hd', hok, by simpa using hdg, ?_⟩
  intro z hz
  have := hr z hz
  beta_reduce at this
  have hd'' : h.dom = d := hd'
  have hz' : (scalePt h.dom z).length = d.length := by
    rw [scalePt_length hz.1, hd'']
  rwa [coords_map hz'] at this

/-- **C76** (restriction refused): restricting to a box which is not in the domain is an exception. -/
theorem C76_restriction_refused (R : Rounding K) (s : Sweeper K) (f : SPatch K) (d : Dom K)
    (hl : d.length = f.dom.length) (x : List K) (hx : InDom d x) (hx' : ¬ InDom f.dom x) :
    f.restriction R s d = none := by
  unfold SPatch.restriction
  rw [if_neg]
  intro h
  exact hx' (subset_spec hl h hx)

/-- The loop over the components sets each of them. -/
theorem setAll_spec (op : SPatch K → Option (SPatch K)) (f : VPatch K) (d : Dom K)
    (P : Nat → TM K → Prop) (m k : Nat) (r : VPatch K) (hr : r.dom = d)
    (hlen : r.models.length = k + m)
    (h : ∀ j, k ≤ j → j < k + m → ∃ t, op (f.get j) = some ⟨d, t⟩ ∧ P j t) :
    ∃ r', f.setAll op m k r = some r' ∧ r'.dom = d ∧ r'.models.length = k + m ∧
      (∀ j, j < k → r'.models[j]? = r.models[j]?) ∧
      ∀ j, k ≤ j → j < k + m → ∃ t, r'.models[j]? = some t ∧ P j t := by
  induction m generalizing k r with
  | zero => exact ⟨r, rfl, hr, hlen, fun _ _ => rfl, fun j h1 h2 => by omega⟩
  | succ m ih =>
    obtain ⟨t, e, hp⟩ := h k le_rfl (by omega)
    have hset : r.set k ⟨d, t⟩ = some ⟨d, r.models.set k t⟩ := by
      unfold VPatch.set
      rw [if_pos (by omega)]
      by_cases h0 : r.dom.length ≠ 0
      · rw [if_pos h0, if_pos hr.symm, hr]
      · rw [if_neg h0]
    obtain ⟨r', e', h1, h2, h3, h4⟩ := ih (k + 1) ⟨d, r.models.set k t⟩ rfl (by simp [hlen]; omega)
      (fun j hj1 hj2 => h j (by omega) (by omega))
    refine ⟨r', ?_, h1, by omega, ?_, ?_⟩
    · unfold VPatch.setAll
      rw [e]
      simp only
      rw [hset]
      exact e'
    · intro j hj
      rw [h3 j (by omega)]
      simp only
      rw [List.getElem?_set_ne (by omega)]
    · intro j hj1 hj2
      rcases Nat.eq_or_lt_of_le hj1 with rfl | hlt
      · refine ⟨t, ?_, hp⟩
        rw [h3 k (by omega)]
        simp only
        rw [List.getElem?_set_self (by omega)]
      · exact h4 j hlt (by omega)

/-- **C76** (restriction of vectors, exact arithmetic). -/
theorem C76_restriction_vector_partial {R : Rounding K} (hR : ∀ x, R.Rep x) (s : Sweeper K)
    (f : VPatch K) (hf : f.Ok) {M : Nat} (hM : f.DegLe M) (hM' : M < 65536) (d : Dom K)
    (hd : Proper d) (hl : d.length = f.dom.length) (hsub : subset d f.dom = true)
    (F : List (List K → K)) (hF : f.Represents F) :
    ∃ h, f.restriction R s d = some h ∧ h.dom = d ∧ h.Ok ∧ h.DegLe M ∧ h.Represents F := by
  unfold VPatch.restriction
  rw [if_pos hsub]
  by_cases he : d = f.dom
  · rw [if_pos he]
    exact ⟨f, rfl, he.symm, hf, hM, hF⟩
  · rw [if_neg he]
    have hFl := hF.length_eq
    obtain ⟨r, e, h1, h2, -, h4⟩ := setAll_spec (fun g => g.restriction R s d) f d
      (fun j t => Canon d.length t ∧ (∀ u ∈ t.terms, u.1.sum ≤ M) ∧
        ∀ (hj : j < F.length), SPatch.Represents ⟨d, t⟩ F[j]) f.models.length 0
      ⟨d, List.replicate f.models.length ⟨[], 0⟩⟩ rfl (by simp) (by
        intro j _ hj
        rw [Nat.zero_add] at hj
        have hj' : j < F.length := by rw [← hFl]; exact hj
        have eg : f.get j = ⟨f.dom, f.models[j]⟩ := by
          unfold VPatch.get
          rw [List.getD_eq_getElem?_getD, List.getElem?_eq_getElem hj]
          rfl
        have hrep : SPatch.Represents ⟨f.dom, f.models[j]⟩ F[j] :=
          (List.forall₂_iff_get.1 hF).2 j hj hj'
        obtain ⟨h, e, g1, g2, g3, g4⟩ := C76_restriction_partial hR s ⟨f.dom, f.models[j]⟩
          (hf _ (List.getElem_mem hj)) (hM _ (List.getElem_mem hj)) hM' d hd hl hsub _ hrep
        obtain ⟨hd', t⟩ := h
        simp only at g1
        subst g1
        exact ⟨t, by rw [eg, e], g2, g3, fun _ => g4⟩)
    rw [Nat.zero_add] at h2 h4
    have hall : ∀ j (hj : j < r.models.length), Canon d.length r.models[j] ∧
        (∀ u ∈ r.models[j].terms, u.1.sum ≤ M) ∧
        ∀ (hj : j < F.length), SPatch.Represents ⟨d, r.models[j]⟩ F[j] := by
      intro j hj
      obtain ⟨t, e1, e2⟩ := h4 j (Nat.zero_le _) (by omega)
      rw [List.getElem?_eq_getElem hj] at e1
      obtain rfl := Option.some.inj e1
      exact e2
    refine ⟨r, e, h1, ?_, ?_, ?_⟩
    · intro t ht
      obtain ⟨j, hj, rfl⟩ := List.mem_iff_getElem.1 ht
      rw [h1]
      exact (hall j hj).1
    · intro t ht
      obtain ⟨j, hj, rfl⟩ := List.mem_iff_getElem.1 ht
      exact (hall j hj).2.1
    · unfold VPatch.Represents
      rw [List.forall₂_iff_get]
      refine ⟨by omega, ?_⟩
      intro j hj1 hj2
      rw [h1]
      exact (hall j hj1).2.2 hj2

/-- **C76** fails for the partial restriction of vectors: whenever the interval differs from that of
the domain, the result is an exception, since it is created with the old domain (sfp line 806). -/
theorem C76_partial_restriction_fails (R : Rounding K) (s : Sweeper K) (f : VPatch K) (k : Nat)
    (hk : k < f.dom.length) (hm : f.models ≠ []) (i : K × K) (hi : f.dom[k] ≠ i) :
    f.partialRestriction R s k i = none := by
  unfold VPatch.partialRestriction
  have hne : f.dom.set k i ≠ f.dom := by
    intro h
    have : (f.dom.set k i)[k]? = f.dom[k]? := by rw [h]
    rw [List.getElem?_set_self hk, List.getElem?_eq_getElem hk] at this
    exact hi (Option.some.inj this).symm
  cases hl : f.models with
  | nil => exact absurd hl hm
  | cons t ts =>
    simp only [List.length_cons]
    unfold VPatch.setAll
    cases he : (f.get 0).partialRestriction R s k i with
    | none => simp only [he]
    | some e =>
      have hed : e.dom = f.dom.set k i := by
        unfold SPatch.partialRestriction SPatch.restriction at he
        split_ifs at he with hc
        unfold composeU at he
        cases hu : unscales R (identity R ((f.get 0).dom.set k i)).dom.length (f.get 0).dom
            (identity R ((f.get 0).dom.set k i)).models with
        | none => rw [hu] at he; cases he
        | some y =>
          rw [hu] at he
          obtain ⟨r, -, rfl⟩ := Option.map_eq_some_iff.1 he
          rfl
      have : VPatch.set ⟨f.dom, List.replicate (ts.length + 1) ⟨[], 0⟩⟩ 0 e = none := by
        unfold VPatch.set
        rw [if_pos (by simp), if_pos (by simp only; omega), if_neg]
        rw [hed]; exact hne
      simp only [he, this]

/-! ## Relations on different domains -/

theorem intersection_length {d e : Dom K} (h : d.length = e.length) :
    (intersection d e).length = d.length := by simp [intersection, h]

theorem intersection_subset {d e : Dom K} (h : d.length = e.length) :
    subset (intersection d e) d = true ∧ subset (intersection d e) e = true := by
  unfold subset intersection
  induction d generalizing e with
  | nil => cases e with
    | nil => exact ⟨rfl, rfl⟩
    | cons _ _ => simp at h
  | cons i d ih => cases e with
    | nil => simp at h
    | cons j e =>
      obtain ⟨h1, h2⟩ := ih (e := e) (by simpa using h)
      simp only [List.zipWith_cons_cons, List.all_cons, h1, h2]
      simp

theorem not_isEmpty {d : Dom K} (h : isEmpty d = false) : Proper d := by
  intro i hi
  unfold isEmpty at h
  rw [List.any_eq_false] at h
  have := h i hi
  simpa using this

/-- **C76** (refines, smaller domain, exact arithmetic): if `f` refines `g`, which has a smaller
domain, the functions represented by `f` are represented by `g`. -/
theorem C76_refines_subdomain_partial {R : Rounding K} (hR : ∀ x, R.Rep x) (s : Sweeper K)
    (f g : SPatch K) (hf : f.Ok) (hg : g.Ok) {M : Nat} (hM : f.DegLe M) (hM' : M < 65536)
    (hd : Proper g.dom) (hl : g.dom.length = f.dom.length) (hr : f.refines R s g = true)
    (F : List K → K) (hF : f.Represents F) : g.Represents F := by
  by_cases he : f.dom = g.dom
  · exact C76_refines R s f g he hf hg hr F hF
  · unfold SPatch.refines at hr
    rw [if_neg he] at hr
    by_cases hsub : subset g.dom f.dom = true
    · rw [if_pos hsub] at hr
      obtain ⟨h, e, hd', hok, -, hrep⟩ := C76_restriction_partial hR s f hf hM hM' g.dom hd hl hsub
        F hF
      rw [e] at hr
      refine C76_refines R s h g hd' hok hg ?_ F hrep
      unfold SPatch.refines
      rw [if_pos hd']
      exact hr
    · rw [if_neg hsub] at hr
      cases hr

/-- **C76** (inconsistent, overlapping domains, exact arithmetic): if the domains have a point in
common, no function is represented by both. -/
theorem C76_inconsistent_overlap_partial {R : Rounding K} (hR : ∀ x, R.Rep x) (s : Sweeper K)
    (f g : SPatch K) (hf : f.Ok) (hg : g.Ok) {M : Nat} (hM : f.DegLe M) (hM2 : g.DegLe M)
    (hM' : M < 65536) (hl : f.dom.length = g.dom.length)
    (hd : Proper (intersection f.dom g.dom)) (hr : f.inconsistent R s g = some true)
    (F : List K → K) (hF : f.Represents F) : ¬ g.Represents F := by
  by_cases he : f.dom = g.dom
  · exact C76_inconsistent R s f g he hf hg hr F hF
  · intro hG
    unfold SPatch.inconsistent at hr
    rw [if_neg he] at hr
    simp only at hr
    have hlen := intersection_length hl
    obtain ⟨h1, e1, d1, o1, -, r1⟩ := C76_restriction_partial hR s f hf hM hM' _ hd hlen
      (intersection_subset hl).1 F hF
    obtain ⟨h2, e2, d2, o2, -, r2⟩ := C76_restriction_partial hR s g hg hM2 hM' _ hd
      (hlen.trans hl) (intersection_subset hl).2 F hG
    rw [e1, e2] at hr
    simp only at hr
    have hdd : h1.dom = h2.dom := by rw [d1, d2]
    refine C76_inconsistent R s h1 h2 hdd o1 o2 ?_ F r1 r2
    unfold SPatch.inconsistent
    rw [if_pos hdd, d1]
    exact hr

/-- **C76** (sum and difference of vectors on different domains, exact arithmetic): the result is
defined on the intersection. -/
theorem C76_vector_add_sub_partial {R : Rounding K} (hR : ∀ x, R.Rep x) (s : Sweeper K)
    (f g : VPatch K) (hf : f.Ok) (hg : g.Ok) {M : Nat} (hM : f.DegLe M) (hM2 : g.DegLe M)
    (hM' : M < 65536) (hl : f.dom.length = g.dom.length)
    (hd : isEmpty (intersection f.dom g.dom) = false) (F G : List (List K → K))
    (hF : f.Represents F) (hG : g.Represents G) :
    (∃ h, f.apply2 R s (TaylorModel.add R s) g = some h ∧ h.dom = intersection f.dom g.dom ∧
      h.Represents (List.zipWith (fun a b x => a x + b x) F G)) ∧
    (∃ h, f.apply2 R s (TaylorModel.sub R s) g = some h ∧ h.dom = intersection f.dom g.dom ∧
      h.Represents (List.zipWith (fun a b x => a x - b x) F G)) := by
  have hself : f.dom = g.dom → intersection f.dom g.dom = f.dom := by
    intro e
    rw [← e]
    unfold intersection
    generalize f.dom = d
    induction d with
    | nil => rfl
    | cons i d ih => simp only [List.zipWith_cons_cons, ih, max_self, min_self]
  have main : ∀ (op : TM K → TM K → TM K) (o : K → K → K), (∀ n t u F G, Canon n t → Canon n u →
      Encloses n t F → Encloses n u G → Encloses n (op t u) (fun x => o (F x) (G x))) →
      ∃ h, f.apply2 R s op g = some h ∧ h.dom = intersection f.dom g.dom ∧
        h.Represents (List.zipWith (fun a b x => o (a x) (b x)) F G) := by
    intro op o hop
    unfold VPatch.apply2
    rw [if_neg (by simp [hd])]
    by_cases he : f.dom = g.dom
    · rw [if_pos he]
      refine ⟨_, rfl, (hself he).symm, ?_⟩
      refine zipWith_repr op o f.dom (fun t u F G ht hu hF hG => ?_) _ _ _ _ hf
        (fun t ht => by rw [he]; exact hg t ht) hF ?_
      · exact hop _ t u _ _ ht hu hF.encloses hG.encloses
      · unfold VPatch.Represents at *
        rw [he]
        exact hG
    · rw [if_neg he]
      have hlen := intersection_length hl
      obtain ⟨h1, e1, d1, o1, -, r1⟩ := C76_restriction_vector_partial hR s f hf hM hM' _
        (not_isEmpty hd) hlen (intersection_subset hl).1 F hF
      obtain ⟨h2, e2, d2, o2, -, r2⟩ := C76_restriction_vector_partial hR s g hg hM2 hM' _
        (not_isEmpty hd) (hlen.trans hl) (intersection_subset hl).2 G hG
      rw [e1, e2]
      refine ⟨_, rfl, d1, ?_⟩
      have hdd : h1.dom = h2.dom := by rw [d1, d2]
      refine zipWith_repr op o h1.dom (fun t u F G ht hu hF hG => ?_) _ _ _ _ o1
        (fun t ht => by rw [hdd]; exact o2 t ht) r1 ?_
      · exact hop _ t u _ _ ht hu hF.encloses hG.encloses
      · unfold VPatch.Represents at *
        rw [hdd]
        exact r2
  refine ⟨main _ (· + ·) ?_, main _ (· - ·) ?_⟩
  · intro n t u F G ht hu h1 h2
    exact C24_add R n s t u ht.1 hu.1 _ _ h1 h2
  · intro n t u F G ht hu h1 h2
    exact C24_sub R n s t u ht.1 hu.1 _ _ h1 h2

/-- **C76** (reciprocal radius): with any rounding, the bounds by which a domain is scaled to the unit interval contain
the reciprocal of every number between the bounds of the radius. -/
theorem C76_reciprocal {R : Rounding K} {c q : Num K} (h : recNum R c = some q) {y : K} (hy : c.Has y) :
    q.Has (1 / y) := by
  unfold recNum at h
  by_cases hc : 0 < c.l
  · rw [if_pos hc] at h
    obtain rfl := Option.some.inj h
    have hy0 : 0 < y := lt_of_lt_of_le hc hy.1
    exact ⟨(R.down_le _).trans (one_div_le_one_div_of_le hy0 hy.2),
      (one_div_le_one_div_of_le hc hy.1).trans (R.le_up _)⟩
  · rw [if_neg hc] at h
    cases h

end Verif.FunctionPatch
