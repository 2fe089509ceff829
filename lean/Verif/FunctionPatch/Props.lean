import Verif.FunctionPatch.Spec
import Mathlib.Algebra.Order.Archimedean.Basic

/-!
# Property C76: function patches, operations which round

Evaluation, range, norm, arithmetic, embedding, joining and combining hold for any rounding.
-/

namespace Verif.FunctionPatch

open Ariadne (Rounding XRounding Bounds Ext)
open Ariadne.Rounding
open Verif.Expansion
open Verif.TaylorModel

variable {K : Type*} [Field K] [LinearOrder K] [IsStrictOrderedRing K]

/-! ## Evaluation -/

theorem down_pos [Archimedean K] (R : Rounding K) {x : K} (hx : 0 < x) : 0 < R.down x := by
  obtain ⟨k, hk⟩ := exists_pow_lt_of_lt_one hx (show (1 / 2 : K) < 1 by norm_num)
  have hr : ∀ k : Nat, R.Rep ((1 / 2 : K) ^ k) := by
    intro k
    induction k with
    | zero => simpa using R.rep_one
    | succ k ih =>
      have := R.rep_half _ ih
      rwa [pow_succ, mul_one_div]
  exact lt_of_lt_of_le (by positivity) (R.down_max x _ (hr k) hk.le)

theorem finite_sub (R : Rounding K) {A B : Bounds K} (hA : A.Finite) (hB : B.Finite) :
    (Bounds.sub (XRounding.ofRounding R) A B).Finite := by
  obtain ⟨al, au⟩ := A
  obtain ⟨bl, bu⟩ := B
  obtain ⟨⟨a, ha⟩, b, hb⟩ := hA
  obtain ⟨⟨c, hc⟩, d, hd⟩ := hB
  simp only at ha hb hc hd
  subst ha hb hc hd
  exact ⟨⟨_, rfl⟩, ⟨_, rfl⟩⟩

theorem finite_div (R : Rounding K) {A : Bounds K} (hA : A.Finite) {c d : K} (hc : 0 < c)
    (hd : c ≤ d) : (Bounds.div (XRounding.ofRounding R) A ⟨.fin c, .fin d⟩).Finite := by
  obtain ⟨al, au⟩ := A
  obtain ⟨⟨a, ha⟩, b, hb⟩ := hA
  simp only at ha hb
  subst ha hb
  have h1 : Ext.lt (.fin 0) (.fin c : Ext K) = true := by simpa [Ext.lt] using hc
  have e1 : c ≠ 0 := hc.ne'
  have e2 : d ≠ 0 := (hc.trans_le hd).ne'
  unfold Bounds.div
  simp only [h1, if_true, Ext.div, e1, e2, if_false, XRounding.ofRounding]
  split_ifs <;> exact ⟨⟨_, rfl⟩, ⟨_, rfl⟩⟩

theorem unscaleB_spec [Archimedean K] (R : Rounding K) {i : K × K} {b : Bounds K} {y : K}
    (hi : i.1 ≤ i.2) (hb : b.Finite) (hy : b.Contains y) :
    (unscaleB R i b).Finite ∧
      (unscaleB R i b).Contains (if i.1 = i.2 then 0 else (y - med i) / rad i) := by
  unfold unscaleB
  simp only
  split_ifs with e
  · have h0 : (⟨.fin 0, .fin 0⟩ : Bounds K).Finite := ⟨⟨_, rfl⟩, ⟨_, rfl⟩⟩
    refine ⟨finite_mul R hb h0, ?_⟩
    have := Bounds.C05_mul (XRounding.ofRounding R) hb h0 hy
      (show (⟨.fin 0, .fin 0⟩ : Bounds K).Contains 0 from ⟨le_rfl, le_rfl⟩)
    rwa [mul_zero] at this
  · have hr : 0 < rad i := by
      have := lt_of_le_of_ne hi e
      unfold rad; linarith
    have hm : (⟨.fin (R.down (med i)), .fin (R.up (med i))⟩ : Bounds K).Finite :=
      ⟨⟨_, rfl⟩, ⟨_, rfl⟩⟩
    refine ⟨finite_div R (finite_sub R hb hm) (down_pos R hr)
      ((R.down_le _).trans (R.le_up _)), ?_⟩
    exact Bounds.C06_div _ (Bounds.C05_sub _ hy ⟨R.down_le _, R.le_up _⟩) ⟨R.down_le _, R.le_up _⟩

/-- Bounds definitely in the interval, which contain a number, are finite. -/
theorem finite_of_contained {l u : K} {b : Bounds K} (h1 : Ext.le (.fin l) b.l = true)
    (h2 : Ext.le b.u (.fin u) = true) {y : K} (hy : b.Contains y) :
    b.Finite ∧ l ≤ y ∧ y ≤ u := by
  obtain ⟨bl, bu⟩ := b
  obtain ⟨c1, c2⟩ := hy
  simp only at c1 c2 h1 h2
  cases bl <;> simp [Ext.le, Ariadne.IsLower] at h1 c1
  cases bu <;> simp [Ext.le, Ariadne.IsUpper] at h2 c2
  exact ⟨⟨⟨_, rfl⟩, ⟨_, rfl⟩⟩, h1.trans c1, c2.trans h2⟩

/-- **C76** (evaluation): for arguments in the domain, evaluation never fails, and the result
encloses the value of every represented function at every point of the arguments. -/
theorem C76_evaluate [Archimedean K] (R : Rounding K) (f : SPatch K) (hf : f.Ok)
    (F : List K → K) (hF : f.Represents F) (x : List (Bounds K)) (p : List K)
    (hxp : List.Forall₂ (fun b y => b.Contains y) x p) (hlen : x.length = f.dom.length)
    (hx : definitelyContains f.dom x = true) :
    ∃ y, f.evaluate R x = some y ∧ y.Contains (F p) := by
  have key : ∀ (d : Dom K) (x : List (Bounds K)) (p : List K), x.length = d.length →
      List.Forall₂ (fun b y => b.Contains y) x p → definitelyContains d x = true →
      InDom d p ∧ List.Forall₂ (fun (B : Bounds K) y => B.Finite ∧ B.Contains y)
        (List.zipWith (unscaleB R) d x) (unscalePt d p) := by
    intro d
    induction d with
    | nil =>
      intro x p hl h _
      cases x with
      | nil => cases h; exact ⟨.nil, .nil⟩
      | cons _ _ => simp at hl
    | cons i d ih =>
      intro x p hl h hc
      cases h with
      | nil => simp at hl
      | cons hb h =>
        unfold definitelyContains at hc
        simp only [List.zipWith_cons_cons, List.all_cons, id, Bool.and_eq_true] at hc
        obtain ⟨h1, h2⟩ := ih _ _ (by simpa using hl) h hc.2
        obtain ⟨g1, g2, g3⟩ := finite_of_contained hc.1.1 hc.1.2 hb
        refine ⟨.cons ⟨g2, g3⟩ h1, ?_⟩
        unfold unscalePt
        simp only [List.zipWith_cons_cons]
        exact .cons (unscaleB_spec R (g2.trans g3) g1 hb) h2
  obtain ⟨h1, h2⟩ := key _ _ _ hlen hxp hx
  obtain ⟨h3, h4⟩ := unscalePt_spec h1
  obtain ⟨y, h5, h6⟩ := C29_evaluate R _ f.model hf.1 hf.2 _ hF.encloses _ _ h3 h2
  refine ⟨y, ?_, by rwa [h4] at h6⟩
  unfold SPatch.evaluate
  rw [if_pos ⟨hlen, hx⟩]
  exact h5

/-- **C76** (evaluation outside): if some argument is outside the domain there is an exception. -/
theorem C76_evaluate_outside (R : Rounding K) (f : SPatch K) (x : List (Bounds K)) (p : List K)
    (hxp : List.Forall₂ (fun b y => b.Contains y) x p) (hp : ¬ InDom f.dom p) :
    f.evaluate R x = none := by
  unfold SPatch.evaluate
  rw [if_neg]
  rintro ⟨h1, h2⟩
  apply hp
  revert h1 h2
  generalize f.dom = d
  intro h1 h2
  clear hp
  unfold InDom
  induction hxp generalizing d with
  | nil => cases d with
    | nil => exact .nil
    | cons _ _ => simp at h1
  | cons hb h ih =>
    cases d with
    | nil => simp at h1
    | cons i d =>
      unfold definitelyContains at h2
      simp only [List.zipWith_cons_cons, List.all_cons, id, Bool.and_eq_true] at h2
      exact .cons (finite_of_contained h2.1.1 h2.1.2 hb).2 (ih d (by simpa using h1) h2.2)

theorem mapM_some {α β γ : Type*} (g : α → Option β) (P : α → γ → Prop) (Q : β → γ → Prop)
    (h : ∀ a c, P a c → ∃ b, g a = some b ∧ Q b c) (l : List α) (cs : List γ)
    (hl : List.Forall₂ P l cs) : ∃ bs, l.mapM g = some bs ∧ List.Forall₂ Q bs cs := by
  induction hl with
  | nil => exact ⟨[], rfl, .nil⟩
  | cons hp _ ih =>
    obtain ⟨b, e, q⟩ := h _ _ hp
    obtain ⟨bs, e', q'⟩ := ih
    exact ⟨b :: bs, by simp [List.mapM_cons, e, e'], .cons q q'⟩

theorem forall₂_mem {α β : Type*} {P : α → β → Prop} {l : List α} {m : List β}
    (h : List.Forall₂ P l m) : List.Forall₂ (fun a b => a ∈ l ∧ P a b) l m := by
  induction h with
  | nil => exact .nil
  | cons hp _ ih =>
    exact .cons ⟨by simp, hp⟩ (ih.imp (fun a b hab => ⟨by simp [hab.1], hab.2⟩))

/-- **C76** (evaluation of vectors). -/
theorem C76_evaluate_vector [Archimedean K] (R : Rounding K) (f : VPatch K) (hf : f.Ok)
    (F : List (List K → K)) (hF : f.Represents F) (x : List (Bounds K)) (p : List K)
    (hxp : List.Forall₂ (fun b y => b.Contains y) x p) (hlen : x.length = f.dom.length)
    (hx : definitelyContains f.dom x = true) :
    ∃ y, f.evaluate R x = some y ∧ List.Forall₂ (fun B G => B.Contains (G p)) y F := by
  unfold VPatch.evaluate
  rw [if_pos ⟨hlen, hx⟩]
  refine mapM_some _ (fun t G => t ∈ f.models ∧ SPatch.Represents ⟨f.dom, t⟩ G)
    (fun (B : Bounds K) G => B.Contains (G p)) ?_ _ _ (forall₂_mem hF)
  rintro t G ⟨ht, hG⟩
  obtain ⟨y, h1, h2⟩ := C76_evaluate R ⟨f.dom, t⟩ (hf t ht) G hG x p hxp hlen hx
  unfold SPatch.evaluate at h1
  rw [if_pos ⟨hlen, hx⟩] at h1
  exact ⟨y, h1, h2⟩

/-! ## Range and norm -/

/-- **C76** (range): on the domain the values of represented functions are in the range. -/
theorem C76_range (R : Rounding K) (f : SPatch K) (hf : f.Ok)
    (hfit : ∀ u ∈ f.model.terms, Fits u.1) (F : List K → K) (hF : f.Represents F) (x : List K)
    (hx : InDom f.dom x) : (f.range R).Contains (F x) := by
  obtain ⟨h1, h2⟩ := unscalePt_spec hx
  have := C27_range R _ f.model hf.1 hfit (C75_distinct hf) _ hF.encloses _ h1
  rwa [h2] at this

/-- **C76** (norm). -/
theorem C76_norm (R : Rounding K) (f : SPatch K) (F : List K → K) (hF : f.Represents F)
    (x : List K) (hx : InDom f.dom x) : |F x| ≤ f.norm R := by
  obtain ⟨h1, h2⟩ := unscalePt_spec hx
  have := C27_norm R _ f.model _ hF.encloses _ h1
  rwa [h2] at this

/-- **C76** (norm of a vector): every component of the value is bounded by the norm. -/
theorem C76_norm_vector (R : Rounding K) (f : VPatch K) (F : List (List K → K))
    (hF : f.Represents F) (x : List K) (hx : InDom f.dom x) : ∀ G ∈ F, |G x| ≤ f.norm R := by
  have mono : ∀ (l : List (TM K)) (r : K),
      r ≤ l.foldl (fun r t => max r (TaylorModel.norm R t)) r := by
    intro l
    induction l with
    | nil => intro r; exact le_rfl
    | cons t l ih => intro r; exact (le_max_left _ _).trans (ih _)
  have key : ∀ (l : List (TM K)) (F : List (List K → K)) (r : K),
      List.Forall₂ (fun t G => SPatch.Represents ⟨f.dom, t⟩ G) l F →
      ∀ G ∈ F, |G x| ≤ l.foldl (fun r t => max r (TaylorModel.norm R t)) r := by
    intro l F r h
    induction h generalizing r with
    | nil => simp
    | cons hp _ ih =>
      intro G hG
      rcases List.mem_cons.1 hG with rfl | hG
      · exact (C76_norm R ⟨f.dom, _⟩ G hp x hx).trans ((le_max_right _ _).trans (mono _ _))
      · exact ih _ G hG
  exact key _ _ _ hF

/-! ## Arithmetic -/

theorem apply2_some {op : TM K → TM K → TM K} {f g h : SPatch K} (e : f.apply2 op g = some h) :
    f.dom = g.dom ∧ h = ⟨f.dom, op f.model g.model⟩ := by
  unfold SPatch.apply2 at e
  split_ifs at e with hd
  exact ⟨hd, (Option.some.inj e).symm⟩

/-- **C76** (sum and difference): on equal domains the result represents the sum and the difference
of the represented functions, for any rounding and sweeper, and is in canonical form. -/
theorem C76_add_sub (R : Rounding K) (s : Sweeper K) (f g : SPatch K) (hd : f.dom = g.dom)
    (hf : f.Ok) (hg : g.Ok) (F G : List K → K) (hF : f.Represents F) (hG : g.Represents G) :
    (∃ h, f.add R s g = some h ∧ h.dom = f.dom ∧ h.Ok ∧ h.Represents (fun x => F x + G x)) ∧
    (∃ h, f.sub R s g = some h ∧ h.dom = f.dom ∧ h.Ok ∧ h.Represents (fun x => F x - G x)) := by
  obtain ⟨d, t⟩ := f
  obtain ⟨e, u⟩ := g
  simp only at hd
  subst hd
  have hc := C75_add_sub R s hf hg
  refine ⟨⟨_, if_pos rfl, rfl, hc.1, ?_⟩, ⟨_, if_pos rfl, rfl, hc.2, ?_⟩⟩
  · exact C24_add R _ s t u hf.1 hg.1 _ _ hF.encloses hG.encloses
  · exact C24_sub R _ s t u hf.1 hg.1 _ _ hF.encloses hG.encloses

/-- **C76** (negation, and multiplication by an exact number). -/
theorem C76_neg_scal (R : Rounding K) (f : SPatch K) (hf : f.Ok) (c : K) (hc : R.Rep c)
    (F : List K → K) (hF : f.Represents F) :
    ((f.neg R).Ok ∧ (f.neg R).Represents (fun x => -F x)) ∧
    ((f.scal R (Num.exact c)).Ok ∧ (f.scal R (Num.exact c)).Represents (fun x => c * F x)) := by
  have h := C75_neg_scal R (Num.exact c) hf
  exact ⟨⟨h.1, C24_neg R _ _ _ hF.encloses⟩, ⟨h.2, C24_scal_exact R _ _ _ hF.encloses c hc⟩⟩

/-- **C76** (product), for models with exact products of coefficients (C25). -/
theorem C76_mul_partial (R : Rounding K) (s : Sweeper K) (f g : SPatch K) (hd : f.dom = g.dom)
    (hf : f.Ok) (hg : g.Ok)
    (hdeg : ∀ u ∈ f.model.terms, ∀ t ∈ g.model.terms, u.1.sum + t.1.sum < 65536)
    (hrep : ∀ u ∈ f.model.terms, ∀ t ∈ g.model.terms, R.Rep (u.2 * t.2))
    (F G : List K → K) (hF : f.Represents F) (hG : g.Represents G) :
    ∃ h, f.mul R s g = some h ∧ h.dom = f.dom ∧ h.Ok ∧ h.Represents (fun x => F x * G x) := by
  obtain ⟨d, t⟩ := f
  obtain ⟨e, u⟩ := g
  simp only at hd
  subst hd
  refine ⟨_, if_pos rfl, rfl, C75_mul R s hf.1 hg hdeg, ?_⟩
  exact C25_mul_exact_products R _ s t u hf.1 hg.1 hdeg hrep _ _ hF.encloses hG.encloses

/-- **C76** (different domains): arithmetic on scalar patches with different domains is an
exception, never a wrong result. -/
theorem C76_domains_differ (R : Rounding K) (s : Sweeper K) (f g : SPatch K) (hd : f.dom ≠ g.dom) :
    f.add R s g = none ∧ f.sub R s g = none ∧ f.mul R s g = none ∧ f.refinement R g = none :=
  ⟨if_neg hd, if_neg hd, if_neg hd, if_neg hd⟩

/-- **C76** (distance): bounds the difference of represented functions. -/
theorem C76_distance (R : Rounding K) (s : Sweeper K) (f g : SPatch K) (hf : f.Ok) (hg : g.Ok)
    (F G : List K → K) (hF : f.Represents F) (hG : g.Represents G) (r : K)
    (hr : f.distance R s g = some r) (x : List K) (hx : InDom f.dom x) : |F x - G x| ≤ r := by
  unfold SPatch.distance at hr
  obtain ⟨h, e, rfl⟩ := Option.map_eq_some_iff.1 hr
  have hd := (apply2_some e).1
  obtain ⟨-, h', e', d', -, rep⟩ := C76_add_sub R s f g hd hf hg F G hF hG
  rw [e] at e'
  obtain rfl := Option.some.inj e'
  exact C76_norm R h _ rep x (by rw [d']; exact hx)

theorem zipWith_repr (op : TM K → TM K → TM K) (o : K → K → K) (d : Dom K)
    (hop : ∀ t u F G, Canon d.length t → Canon d.length u → SPatch.Represents ⟨d, t⟩ F →
      SPatch.Represents ⟨d, u⟩ G → SPatch.Represents ⟨d, op t u⟩ (fun x => o (F x) (G x)))
    (l m : List (TM K)) (F G : List (List K → K)) (hl : ∀ t ∈ l, Canon d.length t)
    (hm : ∀ t ∈ m, Canon d.length t) (hF : VPatch.Represents ⟨d, l⟩ F)
    (hG : VPatch.Represents ⟨d, m⟩ G) :
    VPatch.Represents ⟨d, List.zipWith op l m⟩
      (List.zipWith (fun a b x => o (a x) (b x)) F G) := by
  unfold VPatch.Represents at *
  simp only at *
  induction hF generalizing m G with
  | nil => simp
  | cons h1 _ ih =>
    cases hG with
    | nil => simp
    | cons h2 hG =>
      simp only [List.zipWith_cons_cons]
      exact .cons (hop _ _ _ _ (hl _ (by simp)) (hm _ (by simp)) h1 h2)
        (ih _ _ (fun t ht => hl t (by simp [ht])) (fun t ht => hm t (by simp [ht])) hG)

/-- **C76** (`+=` of vectors). -/
theorem C76_iadd (R : Rounding K) (s : Sweeper K) (f g h : VPatch K) (hf : f.Ok) (hg : g.Ok)
    (F G : List (List K → K)) (hF : f.Represents F) (hG : g.Represents G)
    (hr : f.iadd R s g = some h) :
    h.Represents (List.zipWith (fun a b x => a x + b x) F G) := by
  unfold VPatch.iadd at hr
  split_ifs at hr with hc
  obtain rfl := Option.some.inj hr
  obtain ⟨d, l⟩ := f
  obtain ⟨e, m⟩ := g
  obtain ⟨-, hd⟩ := hc
  simp only at hd
  subst hd
  refine zipWith_repr _ (· + ·) _ ?_ _ _ _ _ hf hg hF hG
  intro t u F G ht hu hF hG
  exact C24_add R _ s t u ht.1 hu.1 _ _ hF.encloses hG.encloses

/-! ## Embedding, joining, combining -/

theorem scalePt_append {d e : Dom K} {s t : List K} (h : s.length = d.length) :
    scalePt (d ++ e) (s ++ t) = scalePt d s ++ scalePt e t := by
  unfold scalePt
  rw [List.zipWith_append h.symm]

theorem scalePt_middle (d1 d d3 : Dom K) (s : List K) (hs : s.length = d1.length + d.length + d3.length) :
    ((scalePt (d1 ++ d ++ d3) s).drop d1.length).take d.length =
      scalePt d ((s.drop d1.length).take d.length) := by
  have e : s = s.take d1.length ++ (s.drop d1.length).take d.length ++
      (s.drop d1.length).drop d.length := by
    rw [List.append_assoc, List.take_append_drop, List.take_append_drop]
  have l1 : (s.take d1.length).length = d1.length := by simp; omega
  have l2 : ((s.drop d1.length).take d.length).length = d.length := by simp; omega
  conv_lhs => rw [e]
  rw [List.append_assoc, List.append_assoc, scalePt_append l1, scalePt_append l2]
  rw [List.drop_append_of_le_length (by rw [scalePt_length l1]),
    List.drop_of_length_le (by rw [scalePt_length l1]), List.nil_append,
    List.take_append_of_le_length (by rw [scalePt_length l2]),
    List.take_of_length_le (by rw [scalePt_length l2])]

/-- **C76** (embedding): the embedded patch represents the function of the middle arguments. -/
theorem C76_embed (R : Rounding K) (s : Sweeper K) (d1 d3 : Dom K) (f : SPatch K) (hf : f.Ok)
    (F : List K → K) (hF : f.Represents F) :
    (f.embed R s d1 d3).Represents (fun x => F ((x.drop d1.length).take f.dom.length)) := by
  intro z hz
  unfold SPatch.embed at hz ⊢
  simp only [List.length_append] at hz ⊢
  have := C29_embed R f.dom.length d1.length d3.length s f.model hf.1 _ (.refl _) _ hF.encloses z hz
  rw [scalePt_middle _ _ _ _ hz.1]
  exact this

/-- **C76** (embedding of vectors). -/
theorem C76_embed_vector (R : Rounding K) (s : Sweeper K) (d1 d3 : Dom K) (f : VPatch K)
    (hf : f.Ok) (F : List (List K → K)) (hF : f.Represents F) :
    (f.embed R s d1 d3).Represents
      (F.map (fun G x => G ((x.drop d1.length).take f.dom.length))) := by
  unfold VPatch.embed VPatch.Represents
  simp only
  rw [List.forall₂_map_left_iff, List.forall₂_map_right_iff]
  refine (forall₂_mem hF).imp ?_
  rintro t G ⟨ht, hG⟩
  exact C76_embed R s d1 d3 ⟨f.dom, t⟩ (hf t ht) G hG

/-- **C76** (join): the components of both, on equal domains; otherwise an exception. -/
theorem C76_join (f g : VPatch K) (F G : List (List K → K)) (hF : f.Represents F)
    (hG : g.Represents G) :
    (f.dom = g.dom → ∃ h, join f g = some h ∧ h.dom = f.dom ∧ h.Represents (F ++ G)) ∧
    (f.dom ≠ g.dom → join f g = none) := by
  refine ⟨fun hd => ?_, fun hd => if_neg hd⟩
  refine ⟨_, if_pos hd, rfl, ?_⟩
  unfold VPatch.Represents at *
  simp only
  refine List.rel_append hF ?_
  rw [hd]; exact hG

/-- **C76** (combine): the first components depend on the first arguments, the others on the
rest. -/
theorem C76_combine (R : Rounding K) (s : Sweeper K) (f g : VPatch K) (hf : f.Ok) (hg : g.Ok)
    (F G : List (List K → K)) (hF : f.Represents F) (hG : g.Represents G) :
    (combine R s f g).Represents (F.map (fun A x => A (x.take f.dom.length)) ++
      G.map (fun A x => A ((x.drop f.dom.length).take g.dom.length))) := by
  have h1 := C76_embed_vector R s [] g.dom f hf F hF
  have h2 := C76_embed_vector R s f.dom [] g hg G hG
  unfold VPatch.embed VPatch.Represents at h1 h2
  simp only [List.nil_append, List.append_nil, List.length_nil, List.drop_zero] at h1 h2
  unfold combine VPatch.Represents
  simp only
  exact List.rel_append h1 h2

/-! ## Relations on equal domains -/

/-- **C76** (refines, equal domains): a function represented by the finer patch is represented by
the coarser one. -/
theorem C76_refines (R : Rounding K) (s : Sweeper K) (f g : SPatch K) (hd : f.dom = g.dom)
    (hf : f.Ok) (hg : g.Ok) (hr : f.refines R s g = true) (F : List K → K)
    (hF : f.Represents F) : g.Represents F := by
  unfold SPatch.refines at hr
  rw [if_pos hd] at hr
  obtain ⟨d, t⟩ := f
  obtain ⟨e, u⟩ := g
  simp only at hd
  subst hd
  exact C28_refines R _ s t u hf.1 hg.1 hr _ hF.encloses

/-- **C76** (inconsistent, equal domains): no function is represented by both. -/
theorem C76_inconsistent (R : Rounding K) (s : Sweeper K) (f g : SPatch K) (hd : f.dom = g.dom)
    (hf : f.Ok) (hg : g.Ok) (hr : f.inconsistent R s g = some true) (F : List K → K)
    (hF : f.Represents F) : ¬ g.Represents F := by
  unfold SPatch.inconsistent at hr
  rw [if_pos hd] at hr
  have hr' := Option.some.inj hr
  obtain ⟨d, t⟩ := f
  obtain ⟨e, u⟩ := g
  simp only at hd
  subst hd
  exact C28_inconsistent R _ t u hf.1 hg.1 (C75_distinct hf) (C75_distinct hg) hr' _ hF.encloses

end Verif.FunctionPatch
