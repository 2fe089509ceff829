import Verif.TaylorModel.Struct
import Verif.Expansion.Horner

/-!
# Property C29: evaluation and composition of Taylor models

Both substitute into the polynomial by Horner's rule and add the error as a symmetric interval.
-/

namespace Verif.TaylorModel

open Ariadne (Rounding XRounding Bounds Ext)
open Ariadne.Rounding
open Verif.Expansion

variable {K : Type*} [Field K] [LinearOrder K] [IsStrictOrderedRing K]

/-! ## Evaluation over bounds -/

/-- `_evaluate(tm,Vector<ValidatedNumericType>)`, tm lines 1725-1731. -/
def evaluate (R : Rounding K) (n : Nat) (t : TM K) (x : List (Bounds K)) : Option (Bounds K) :=
  let X := XRounding.ofRounding R
  (hornerEvaluate (Bounds.add X) (Bounds.mul X) (fun c => ⟨.fin c, .fin c⟩) ⟨.fin 0, .fin 0⟩ n
    t.terms x).map (fun y => Bounds.add X y ⟨.fin (-t.err), .fin t.err⟩)

theorem finite_mul (R : Rounding K) {A B : Bounds K} (hA : A.Finite) (hB : B.Finite) :
    (Bounds.mul (XRounding.ofRounding R) A B).Finite := by
  obtain ⟨al, au⟩ := A
  obtain ⟨bl, bu⟩ := B
  obtain ⟨⟨a, ha⟩, b, hb⟩ := hA
  obtain ⟨⟨c, hc⟩, d, hd⟩ := hB
  simp only at ha hb hc hd
  subst ha hb hc hd
  unfold Bounds.mul
  simp only [Ext.mul, XRounding.ofRounding]
  split_ifs <;> first | exact ⟨⟨_, rfl⟩, ⟨_, rfl⟩⟩ | (simp only [Ext.min, Ext.max]; split_ifs <;> exact ⟨⟨_, rfl⟩, ⟨_, rfl⟩⟩)

/-- **C29** (evaluate): evaluating a model over bounds inside the unit box never fails and gives
bounds on the values of every enclosed function. -/
theorem C29_evaluate (R : Rounding K) (n : Nat) (t : TM K) (ht : WF n t)
    (hs : Sorted revLexLess t.terms) (f : List K → K) (hf : Encloses n t f) (X : List (Bounds K))
    (x : List K) (hx : InBox n x)
    (hX : List.Forall₂ (fun B y => B.Finite ∧ B.Contains y) X x) :
    ∃ y, evaluate R n t X = some y ∧ y.Contains (f x) := by
  set XR := XRounding.ofRounding R with hXR
  have hlen : X.length = n := by rw [hX.length_eq, hx.1]
  obtain ⟨y, h1, h2⟩ := C53_horner_encloses (K := K) (X := K) (Y := Bounds K)
    (add := Bounds.add XR) (mul := Bounds.mul XR) (coef := fun c => ⟨.fin c, .fin c⟩)
    (z := ⟨.fin 0, .fin 0⟩) (val := id) (In := fun v B => B.Finite ∧ B.Contains v)
    (fun v w t r h1 h2 => ⟨finite_add R h1.1 h2.1, Bounds.C05_add XR h1.2 h2.2⟩)
    (fun v w t r h1 h2 => ⟨finite_mul R h1.1 h2.1, Bounds.C05_mul XR h1.1 h2.1 h1.2 h2.2⟩)
    (fun c => ⟨⟨⟨_, rfl⟩, ⟨_, rfl⟩⟩, ⟨le_rfl, le_rfl⟩⟩)
    ⟨⟨⟨_, rfl⟩, ⟨_, rfl⟩⟩, ⟨le_rfl, le_rfl⟩⟩ n t.terms ht hs X x hlen hX
  refine ⟨_, by unfold evaluate; simp only; rw [← hXR, h1]; rfl, ?_⟩
  have h3 := hf x hx
  have h4 : (⟨.fin (-t.err), .fin t.err⟩ : Bounds K).Contains
      (f x - value (monomial x) t.terms) := abs_le.1 h3
  have h5 := Bounds.C05_add XR h2.2 h4
  simp only [id, Prod.mk.eta, List.map_id'] at h5
  rwa [add_sub_cancel] at h5

/-! ## Composition -/

/-- `_compose(x,y)`, tm lines 1746-1749, with the multiplication as a parameter; the arguments are
models in `n` variables. -/
def composeWith (mulM : TM K → TM K → TM K) (R : Rounding K) (s : Sweeper K) (n m : Nat) (t : TM K)
    (y : List (TM K)) : Option (TM K) :=
  (hornerEvaluate (add R s) mulM (fun c => assign R n (Num.exact c)) ⟨[], 0⟩ m t.terms y).map
    (fun r => acc R n r ⟨-t.err, t.err⟩)

/-- `_compose(x,y)`, tm lines 1746-1749. -/
def compose (R : Rounding K) (s : Sweeper K) (n m : Nat) (t : TM K) (y : List (TM K)) :
    Option (TM K) := composeWith (mul R s) R s n m t y

/-- `_partial_evaluate`, tm lines 1819-1828, for a model in `n+1` variables. -/
def partialEvaluate (R : Rounding K) (s : Sweeper K) (n k : Nat) (c : Num K) (t : TM K) :
    Option (TM K) :=
  compose R s n (n + 1) t ((List.range (n + 1)).map (fun i =>
    if i < k then coordinate n i else if i = k then constant R n c else coordinate n (i - 1)))

section
variable (R : Rounding K)

/-- A model enclosing a function, with room for `room` further multiplications by models of degree
at most `D`, each raising the degree by at most `D`. -/
structure Good (n D room : Nat) (t : TM K) (f : List K → K) : Prop where
  enc : Encloses n t f
  wf : WF n t
  deg : ∀ u ∈ t.terms, u.1.sum + room * D < 65536
  rep : ∀ u ∈ t.terms, R.Rep u.2

theorem assign_encloses (n : Nat) (c : K) :
    Encloses n (assign R n (Num.exact c)) (fun _ => c) := by
  intro z _
  have h1 := error_ok R (Num.exact c) c ⟨le_rfl, le_rfl⟩
  have h2 := R.le_up (0 + (Num.exact c).error R)
  unfold assign
  by_cases h : (Num.exact c).value R = 0
  · rw [if_pos h]
    rw [h] at h1
    simp only [value_nil]
    linarith
  · rw [if_neg h]
    simp only [value_cons, value_nil, monomial_zero, mul_one, add_zero]
    linarith

theorem assign_terms (n : Nat) (c : K) :
    ∀ u ∈ (assign R n (Num.exact c)).terms, u.1 = List.replicate n 0 ∧ R.Rep u.2 := by
  intro u hu
  unfold assign at hu
  by_cases h : (Num.exact c).value R = 0
  · rw [if_pos h] at hu; simp at hu
  · rw [if_neg h] at hu
    simp only [List.mem_singleton] at hu
    rw [hu]
    exact ⟨rfl, R.rep_half _ (rep_near R _)⟩

theorem rep_apply2F (N : Nat) (p q : Terms (List Nat) K) (hp : ∀ u ∈ p, R.Rep u.2)
    (hq : ∀ u ∈ q, R.Rep u.2) (e : K) : ∀ u ∈ (apply2F (addOp R) N p q e).1, R.Rep u.2 := by
  induction N generalizing p q e with
  | zero => intro u hu; simp [apply2F] at hu
  | succ N ih =>
    intro u hu
    match p, q with
    | [], [] => simp [apply2F] at hu
    | (a, x) :: p, [] =>
      unfold apply2F at hu
      rcases List.mem_cons.1 hu with rfl | hu
      · exact hp (a, x) (by simp)
      · exact ih p [] (fun v hv => hp v (by simp [hv])) (by simp) e u hu
    | [], (b, y) :: q =>
      unfold apply2F at hu
      rcases List.mem_cons.1 hu with rfl | hu
      · exact hq (b, y) (by simp)
      · exact ih [] q (by simp) (fun v hv => hq v (by simp [hv])) e u hu
    | (a, x) :: p, (b, y) :: q =>
      unfold apply2F at hu
      have hp' : ∀ v ∈ p, R.Rep v.2 := fun v hv => hp v (by simp [hv])
      have hq' : ∀ v ∈ q, R.Rep v.2 := fun v hv => hq v (by simp [hv])
      by_cases h1 : revLexLess a b = true
      · rw [if_pos h1] at hu
        rcases List.mem_cons.1 hu with rfl | hu
        · exact hp (a, x) (by simp)
        · exact ih p _ hp' hq e u hu
      · rw [if_neg h1] at hu
        by_cases h2 : revLexLess b a = true
        · rw [if_pos h2] at hu
          rcases List.mem_cons.1 hu with rfl | hu
          · exact hq (b, y) (by simp)
          · exact ih _ q hp hq' e u hu
        · rw [if_neg h2] at hu
          rcases List.mem_cons.1 hu with rfl | hu
          · exact rep_near R _
          · exact ih p q hp' hq' _ u hu

theorem good_add (n D room : Nat) (s : Sweeper K) {t r : TM K} {f g : List K → K}
    (ht : Good R n D room t f) (hr : Good R n D room r g) :
    Good R n D room (add R s t r) (fun z => f z + g z) := by
  refine ⟨C24_add R n s t r ht.wf hr.wf f g ht.enc hr.enc, C24_wf R n s _ t r ht.wf hr.wf, ?_, ?_⟩
  · intro u hu
    obtain ⟨v, hv, e⟩ := mem_apply2F (mem_sweep R hu)
    rw [← e]
    rcases hv with hv | hv
    · exact ht.deg v hv
    · exact hr.deg v hv
  · intro u hu
    exact rep_apply2F R _ _ _ ht.rep hr.rep 0 u (mem_sweep R hu)

/-- What is needed of the multiplication: it encloses the product when no exponent overflows, its
indices are sums of indices, and its coefficients are representable. -/
structure SoundMul (n : Nat) (mulM : TM K → TM K → TM K) : Prop where
  enc : ∀ t x f g, WF n t → WF n x → (∀ u ∈ t.terms, ∀ v ∈ x.terms, u.1.sum + v.1.sum < 65536) →
    Encloses n t f → Encloses n x g → Encloses n (mulM t x) (fun z => f z * g z)
  idx : ∀ t x, ∀ u ∈ (mulM t x).terms, ∃ v ∈ t.terms, ∃ w ∈ x.terms, u.1 = addIndex v.1 w.1
  rep : ∀ t x, ∀ u ∈ (mulM t x).terms, R.Rep u.2

theorem addIndex_sum_le (a b : List Nat) : (addIndex a b).sum ≤ a.sum + b.sum := by
  unfold addIndex
  induction a generalizing b with
  | nil => simp
  | cons x a ih =>
    cases b with
    | nil => simp
    | cons y b =>
      have := ih b
      simp only [List.zipWith_cons_cons, List.sum_cons]
      have h1 : wrap (x + y) ≤ x + y := Nat.mod_le _ _
      omega

theorem good_mul (n D room : Nat) {mulM : TM K → TM K → TM K} (hm : SoundMul R n mulM)
    {t x : TM K} {f g : List K → K} (ht : Good R n D (room + 1) t f) (hx : Encloses n x g)
    (hxw : WF n x) (hxd : ∀ u ∈ x.terms, u.1.sum ≤ D) :
    Good R n D room (mulM t x) (fun z => f z * g z) := by
  refine ⟨hm.enc t x f g ht.wf hxw ?_ ht.enc hx, ?_, ?_, hm.rep t x⟩
  · intro u hu v hv
    have h1 := ht.deg u hu
    have h2 := hxd v hv
    have : (room + 1) * D = room * D + D := by ring
    omega
  · intro u hu
    obtain ⟨v, hv, w, hw, e⟩ := hm.idx t x u hu
    rw [e]
    have h1 := ht.wf v hv
    have h2 := hxw w hw
    simp [addIndex, h1, h2]
  · intro u hu
    obtain ⟨v, hv, w, hw, e⟩ := hm.idx t x u hu
    rw [e]
    have h1 := ht.deg v hv
    have h2 := hxd w hw
    have h3 := addIndex_sum_le v.1 w.1
    have : (room + 1) * D = room * D + D := by ring
    omega

theorem sum_replicate_zero (n : Nat) : (List.replicate n 0).sum = 0 := by
  induction n with
  | zero => rfl
  | succ n ih => rw [List.replicate_succ, List.sum_cons, ih]

/-- Evaluation of a polynomial in the ring of functions is evaluation at the values. -/
theorem sum_apply (p : Terms (List Nat) K) (g : List (List K → K)) (z : List K) :
    (p.map (fun t => (fun _ : List K => t.2) * monomial g t.1)).sum z =
      value (monomial (g.map (fun h => h z))) p := by
  have hm : ∀ (g : List (List K → K)) (a : List Nat),
      monomial g a z = monomial (g.map (fun h => h z)) a := by
    intro g
    induction g with
    | nil => intro a; simp [monomial]
    | cons h g ih =>
      intro a
      cases a with
      | nil => simp [monomial]
      | cons k a =>
        rw [List.map_cons, monomial_cons, monomial_cons', Pi.mul_apply, Pi.pow_apply, ih]
  induction p with
  | nil => simp
  | cons t p ih =>
    rw [List.map_cons, List.sum_cons, Pi.add_apply, Pi.mul_apply, ih, value_cons, hm]

theorem compose_ok (n m : Nat) (mulM : TM K → TM K → TM K) (hm : SoundMul R n mulM) (s : Sweeper K)
    (t : TM K) (ht : WF m t) (hs : Sorted revLexLess t.terms) (M D : Nat)
    (hM : ∀ u ∈ t.terms, u.1.sum ≤ M) (hMD : M * D < 65536) (f : List K → K) (hf : Encloses m t f)
    (y : List (TM K)) (g : List (List K → K)) (hy : y.length = m)
    (hyg : List.Forall₂ (fun x h => Encloses n x h ∧ WF n x ∧ ∀ u ∈ x.terms, u.1.sum ≤ D) y g)
    (hbox : ∀ z, InBox n z → InBox m (g.map (fun h => h z))) :
    ∃ r, composeWith mulM R s n m t y = some r ∧
      Encloses n r (fun z => f (g.map (fun h => h z))) := by
  obtain ⟨q, hq⟩ := Option.isSome_iff_exists.1 (horner_total (add R s) mulM
    (fun c => assign R n (Num.exact c)) (⟨[], 0⟩ : TM K) m t.terms ht hs y)
  have hres : Respects (add R s) mulM (fun c => assign R n (Num.exact c)) (⟨[], 0⟩ : TM K)
      (fun c : K => (fun _ : List K => c)) (Good R n D)
      (fun x h => Encloses n x h ∧ WF n x ∧ ∀ u ∈ x.terms, u.1.sum ≤ D) M := by
    refine ⟨fun room t r f g h1 h2 => good_add R n D room s h1 h2,
      fun room t f x g h1 h2 => good_mul R n D room hm h1 h2.1 h2.2.1 h2.2.2, ?_, ?_⟩
    · intro room c hr
      refine ⟨assign_encloses R n c, ?_, ?_, fun u hu => (assign_terms R n c u hu).2⟩
      · intro u hu
        rw [(assign_terms R n c u hu).1, List.length_replicate]
      · intro u hu
        rw [(assign_terms R n c u hu).1, sum_replicate_zero, zero_add]
        exact lt_of_le_of_lt (Nat.mul_le_mul_right D hr) hMD
    · intro room _
      refine ⟨encloses_zero n, ?_, ?_, ?_⟩ <;> intro u hu <;> simp at hu
  have hgood := horner_rel hres m t.terms (fun u hu => ⟨ht u hu, hM u hu⟩) y g hy hyg q hq
  refine ⟨_, by unfold composeWith; rw [hq]; rfl, ?_⟩
  intro z hz
  have h1 := hf _ (hbox z hz)
  have h2 := C24_acc_symmetric R n q
    (fun u hu => by have := hgood.deg u hu; unfold Fits; omega) hgood.rep _ hgood.enc t.err _ h1 z hz
  beta_reduce at h2
  rw [sum_apply, sub_add_cancel] at h2
  exact h2

/-! ### The multiplications -/

theorem mem_fmaLoop (fma : K → K → K → K → K × K) (C : List Nat × K → Prop) (xa : List Nat) (xv : K)
    (y : Terms (List Nat) K)
    (hmul : ∀ v ∈ y, ∀ e, C (addIndex xa v.1, (mulErr R xv v.2 e).1))
    (hfma : ∀ v ∈ y, ∀ z e, C (addIndex xa v.1, (fma xv v.2 z e).1)) :
    ∀ (N : Nat) (r q : Terms (List Nat) K) (e : K), (∀ v ∈ q, v ∈ y) → (∀ u ∈ r, C u) →
      ∀ u ∈ (fmaLoopF R fma xa xv N r q e).1, C u := by
  intro N
  induction N with
  | zero => intro r q e _ _ u hu; simp [fmaLoopF] at hu
  | succ N ih =>
    intro r q e hq hr u hu
    match r, q with
    | [], [] => simp [fmaLoopF] at hu
    | w :: r, [] =>
      unfold fmaLoopF at hu
      rcases List.mem_cons.1 hu with rfl | hu
      · exact hr _ (by simp)
      · exact ih r [] e (by simp) (fun v hv => hr v (by simp [hv])) u hu
    | [], (ya, yv) :: q =>
      unfold fmaLoopF at hu
      rcases List.mem_cons.1 hu with rfl | hu
      · exact hmul (ya, yv) (hq _ (by simp)) e
      · exact ih [] q _ (fun v hv => hq v (by simp [hv])) (by simp) u hu
    | (ra, rv) :: r, (ya, yv) :: q =>
      have hq' : ∀ v ∈ q, v ∈ y := fun v hv => hq v (by simp [hv])
      have hr' : ∀ v ∈ r, C v := fun v hv => hr v (by simp [hv])
      unfold fmaLoopF at hu
      simp only at hu
      by_cases h1 : ra = addIndex xa ya
      · rw [if_pos h1] at hu
        rcases List.mem_cons.1 hu with rfl | hu
        · exact hfma (ya, yv) (hq _ (by simp)) rv e
        · exact ih r q _ hq' hr' u hu
      · rw [if_neg h1] at hu
        by_cases h2 : revLexLess ra (addIndex xa ya) = true
        · rw [if_pos h2] at hu
          rcases List.mem_cons.1 hu with rfl | hu
          · exact hr _ (by simp)
          · exact ih r _ e hq hr' u hu
        · rw [if_neg h2] at hu
          rcases List.mem_cons.1 hu with rfl | hu
          · exact hmul (ya, yv) (hq _ (by simp)) e
          · exact ih _ q _ hq' hr u hu

theorem mem_ifma (fma : K → K → K → K → K × K) (s : Sweeper K)
    (hfma : ∀ x y z e, R.Rep (fma x y z e).1) (t x : TM K) :
    ∀ u ∈ (ifmaWith fma R s ⟨[], 0⟩ t x).terms,
      (∃ v ∈ t.terms, ∃ w ∈ x.terms, u.1 = addIndex v.1 w.1) ∧ R.Rep u.2 := by
  have key : ∀ (p : Terms (List Nat) K) (r : TM K), (∀ v ∈ p, v ∈ t.terms) →
      (∀ u ∈ r.terms, (∃ v ∈ t.terms, ∃ w ∈ x.terms, u.1 = addIndex v.1 w.1) ∧ R.Rep u.2) →
      ∀ u ∈ (p.foldl (fmaStep R fma s x.terms) r).terms,
        (∃ v ∈ t.terms, ∃ w ∈ x.terms, u.1 = addIndex v.1 w.1) ∧ R.Rep u.2 := by
    intro p
    induction p with
    | nil => intro r _ hr; exact hr
    | cons v p ih =>
      intro r hp hr
      rw [List.foldl_cons]
      apply ih _ (fun w hw => hp w (by simp [hw]))
      intro u hu
      refine mem_fmaLoop R fma (fun u => (∃ v ∈ t.terms, ∃ w ∈ x.terms, u.1 = addIndex v.1 w.1) ∧
        R.Rep u.2) v.1 v.2 x.terms ?_ ?_ _ r.terms x.terms 0 (fun _ h => h) hr u (mem_sweep R hu)
      · exact fun w hw e => ⟨⟨v, hp v (by simp), w, hw, rfl⟩, rep_near R _⟩
      · exact fun w hw z e => ⟨⟨v, hp v (by simp), w, hw, rfl⟩, hfma _ _ _ _⟩
  exact key t.terms ⟨[], 0⟩ (fun _ h => h) (by simp)

theorem soundMul_repaired (n : Nat) (s : Sweeper K) :
    SoundMul R n (ifmaWith (mulThenAdd R) R s ⟨[], 0⟩) := by
  refine ⟨fun t x f g h1 h2 h3 h4 h5 => C25_mul_repaired R n s t x h1 h2 h3 f g h4 h5, ?_, ?_⟩
  · exact fun t x u hu => (mem_ifma R _ s (fun _ _ _ _ => rep_near R _) t x u hu).1
  · exact fun t x u hu => (mem_ifma R _ s (fun _ _ _ _ => rep_near R _) t x u hu).2

theorem soundMul_exact (hR : ∀ x, R.Rep x) (n : Nat) (s : Sweeper K) : SoundMul R n (mul R s) := by
  refine ⟨fun t x f g h1 h2 h3 h4 h5 => C25_mul_exact_products R n s t x h1 h2 h3
    (fun _ _ _ _ => hR _) f g h4 h5, ?_, fun _ _ _ _ => hR _⟩
  exact fun t x u hu => (mem_ifma R _ s (fun _ _ _ _ => rep_near R _) t x u hu).1

/-- **C29** (composition, partial): with the multiplication repaired as in `C25_mul_repaired`, the
composition encloses the composed function, in any precision and with any sweeper.  With the code's
multiplication the statement fails because of `C25_mul_counterexample`; the hypothesis `M*D<65536`
excludes the overflow of `C25_overflow_counterexample`. -/
theorem C29_compose_repaired_partial (n m : Nat) (s : Sweeper K)
    (t : TM K) (ht : WF m t) (hs : Sorted revLexLess t.terms) (M D : Nat)
    (hM : ∀ u ∈ t.terms, u.1.sum ≤ M) (hMD : M * D < 65536) (f : List K → K) (hf : Encloses m t f)
    (y : List (TM K)) (g : List (List K → K)) (hy : y.length = m)
    (hyg : List.Forall₂ (fun x h => Encloses n x h ∧ WF n x ∧ ∀ u ∈ x.terms, u.1.sum ≤ D) y g)
    (hbox : ∀ z, InBox n z → InBox m (g.map (fun h => h z))) :
    ∃ r, composeWith (ifmaWith (mulThenAdd R) R s ⟨[], 0⟩) R s n m t y = some r ∧
      Encloses n r (fun z => f (g.map (fun h => h z))) :=
  compose_ok R n m _ (soundMul_repaired R n s) s t ht hs M D hM hMD f hf y g hy hyg hbox

/-- **C29** (composition, partial): the code's composition encloses the composed function when the
arithmetic on coefficients is exact. -/
theorem C29_compose_exact_partial (hR : ∀ x, R.Rep x) (n m : Nat) (s : Sweeper K)
    (t : TM K) (ht : WF m t) (hs : Sorted revLexLess t.terms) (M D : Nat)
    (hM : ∀ u ∈ t.terms, u.1.sum ≤ M) (hMD : M * D < 65536) (f : List K → K) (hf : Encloses m t f)
    (y : List (TM K)) (g : List (List K → K)) (hy : y.length = m)
    (hyg : List.Forall₂ (fun x h => Encloses n x h ∧ WF n x ∧ ∀ u ∈ x.terms, u.1.sum ≤ D) y g)
    (hbox : ∀ z, InBox n z → InBox m (g.map (fun h => h z))) :
    ∃ r, compose R s n m t y = some r ∧ Encloses n r (fun z => f (g.map (fun h => h z))) :=
  compose_ok R n m _ (soundMul_exact R hR n s) s t ht hs M D hM hMD f hf y g hy hyg hbox

/-- **C29** (partial evaluation, partial): fixing variable `k` at an exact number in `[-1,1]` gives a
model of the function of the remaining variables, in exact arithmetic. -/
theorem C29_partial_evaluate_partial (hR : ∀ x, R.Rep x) (n k : Nat) (hk : k ≤ n) (s : Sweeper K)
    (t : TM K) (ht : WF (n + 1) t) (hs : Sorted revLexLess t.terms)
    (hM : ∀ u ∈ t.terms, u.1.sum < 65536) (c : K) (hc : |c| ≤ 1) (f : List K → K)
    (hf : Encloses (n + 1) t f) :
    ∃ r, partialEvaluate R s n k (Num.exact c) t = some r ∧
      Encloses n r (fun z => f (z.take k ++ [c] ++ z.drop k)) := by
  set g : List (List K → K) := (List.range (n + 1)).map (fun i =>
    if i < k then (fun z => z.getD i 0) else if i = k then (fun _ => c)
      else (fun z => z.getD (i - 1) 0)) with hg
  have hpt : ∀ z : List K, z.length = n → g.map (fun h => h z) = z.take k ++ [c] ++ z.drop k := by
    intro z hz
    apply List.ext_getElem
    · simp [hg, hz]; omega
    · intro i h1 h2
      have hi : i < n + 1 := by simpa [hg] using h1
      simp only [hg, List.map_map, List.getElem_map, List.getElem_range, Function.comp_apply]
      by_cases h3 : i < k
      · rw [if_pos h3, List.getElem_append_left (by simp; omega),
          List.getElem_append_left (by simp; omega), List.getElem_take, List.getD_eq_getElem?_getD, List.getElem?_eq_getElem (by omega)]
        rfl
      · rw [if_neg h3]
        by_cases h4 : i = k
        · subst h4
          rw [if_pos rfl, List.getElem_append_left (by simp; omega),
            List.getElem_append_right (by simp)]
          simp
        · rw [if_neg h4, List.getElem_append_right (by simp; omega), List.getElem_drop,
            List.getD_eq_getElem?_getD, List.getElem?_eq_getElem (by omega)]
          simp only [Option.getD_some]
          congr 1
          simp
          omega
  have hcoord : ∀ j, j < n → Encloses n (coordinate n j : TM K) (fun z => z.getD j 0) ∧
      WF n (coordinate n j : TM K) ∧ ∀ u ∈ (coordinate n j : TM K).terms, u.1.sum ≤ 1 := by
    intro j hj
    refine ⟨?_, ?_, ?_⟩
    · intro z hz
      have h1 := monomial_set_right z (List.replicate n 0) j (by rw [hz.1]; exact hj)
        (by simpa using hj) 1
      have h2 : (List.replicate n 0).set j 0 = List.replicate n 0 := by
        have := set_getD_self (List.replicate n 0) j 0
        have h0 : (List.replicate n 0).getD j 0 = 0 := by
          rw [List.getD_eq_getElem?_getD, List.getElem?_replicate]
          split_ifs <;> rfl
        rwa [h0] at this
      rw [h2, monomial_zero, one_mul, pow_one] at h1
      simp only [coordinate, value_cons, value_nil, h1]
      simp
    · intro u hu
      simp only [coordinate, List.mem_singleton] at hu
      rw [hu]; simp
    · intro u hu
      simp only [coordinate, List.mem_singleton] at hu
      rw [hu]
      simp only
      clear hu
      induction n generalizing j with
      | zero => omega
      | succ n ih =>
        rw [List.replicate_succ]
        cases j with
        | zero => rw [List.set_cons_zero, List.sum_cons, sum_replicate_zero]
        | succ j =>
          rw [List.set_cons_succ, List.sum_cons, zero_add]
          have : ∀ m j, ((List.replicate m 0).set j 1).sum ≤ 1 := by
            intro m
            induction m with
            | zero => intro j; simp
            | succ m ih =>
              intro j
              rw [List.replicate_succ]
              cases j with
              | zero => rw [List.set_cons_zero, List.sum_cons, sum_replicate_zero]
              | succ j => rw [List.set_cons_succ, List.sum_cons, zero_add]; exact ih j
          exact this n j
  have hconst : Encloses n (constant R n (Num.exact c)) (fun _ => c) ∧
      WF n (constant R n (Num.exact c)) ∧
      ∀ u ∈ (constant R n (Num.exact c)).terms, u.1.sum ≤ 1 := by
    have h0 : Encloses n (⟨[(List.replicate n 0, 1)], 0⟩ : TM K) (fun _ => 1) := by
      intro z _; simp [monomial_zero]
    have hw : WF n (⟨[(List.replicate n 0, 1)], 0⟩ : TM K) := by simp [WF]
    refine ⟨?_, scal_wf R hw _, ?_⟩
    · have := C24_scal_exact R n _ _ h0 c (hR c)
      simp only [mul_one] at this
      exact this
    · intro u hu
      obtain ⟨v, hv, e⟩ := mem_apply1 hu
      simp only [List.mem_singleton] at hv
      rw [← e, hv, sum_replicate_zero]
      exact Nat.zero_le _
  have hy : List.Forall₂ (fun x h => Encloses n x h ∧ WF n x ∧ ∀ u ∈ x.terms, u.1.sum ≤ 1)
      ((List.range (n + 1)).map (fun i =>
        if i < k then (coordinate n i : TM K) else if i = k then constant R n (Num.exact c)
          else coordinate n (i - 1))) g := by
    rw [hg, List.forall₂_map_left_iff, List.forall₂_map_right_iff, List.forall₂_same]
    intro i hi
    have hi := List.mem_range.1 hi
    by_cases h3 : i < k
    · simp only [if_pos h3]; exact hcoord i (by omega)
    · by_cases h4 : i = k
      · simp only [if_neg h3, if_pos h4]; exact hconst
      · simp only [if_neg h3, if_neg h4]; exact hcoord (i - 1) (by omega)
  have hbox : ∀ z, InBox n z → InBox (n + 1) (g.map (fun h => h z)) := by
    intro z hz
    rw [hpt z hz.1]
    refine ⟨by simp [hz.1]; omega, ?_⟩
    intro y hy
    simp only [List.mem_append, List.mem_singleton] at hy
    rcases hy with (hy | hy) | hy
    · exact hz.2 y (List.mem_of_mem_take hy)
    · rw [hy]; exact hc
    · exact hz.2 y (List.mem_of_mem_drop hy)
  obtain ⟨r, h1, h2⟩ := C29_compose_exact_partial R hR n (n + 1) s t ht hs 65535 1
    (fun u hu => by have := hM u hu; omega) (by norm_num) f hf _ g (by simp) hy hbox
  refine ⟨r, h1, ?_⟩
  intro z hz
  have := h2 z hz
  beta_reduce at this ⊢
  rwa [hpt z hz.1] at this

end

/-- Arithmetic without rounding: every number is representable. -/
def exactRounding : Rounding K where
  Rep := fun _ => True
  down := id
  up := id
  near := id
  rep_down := fun _ => trivial
  rep_up := fun _ => trivial
  down_le := fun _ => le_rfl
  le_up := fun _ => le_rfl
  down_max := fun _ _ _ h => h
  up_min := fun _ _ _ h => h
  near_cases := fun _ => Or.inl rfl
  near_down := fun _ => by simp
  near_up := fun _ => by simp
  rep_zero := trivial
  rep_one := trivial
  rep_neg := fun _ _ => trivial
  rep_half := fun _ _ => trivial
  rep_two := fun _ _ => trivial

/-- **C29** fails for composition with rounded coefficients, because of the multiplication: with
two-bit numbers, substituting `s/4+3/16` and `3s/16+1/2` into `x*y` loses the product at `s=1`. -/
theorem C29_compose_counterexample :
    ∃ (R : Rounding ℚ) (s : Sweeper ℚ) (t x y r : TM ℚ) (f g h : List ℚ → ℚ),
      WF 2 t ∧ WF 1 x ∧ WF 1 y ∧ Sorted revLexLess t.terms ∧ Encloses 2 t f ∧ Encloses 1 x g ∧
      Encloses 1 y h ∧ (∀ z, InBox 1 z → InBox 2 [g z, h z]) ∧ compose R s 1 2 t [x, y] = some r ∧
      ¬ Encloses 1 r (fun z => f [g z, h z]) := by
  have hcomp : (compose (Ariadne.PBit.rounding 2 (by norm_num)) trivialSweeper 1 2
      (⟨[([1, 1], 1)], 0⟩ : TM ℚ) [⟨[([1], 1 / 4), ([0], 3 / 16)], 0⟩,
        ⟨[([1], 3 / 16), ([0], 1 / 2)], 0⟩]).map (fun r => (r.terms, r.err)) =
      some ([([2], 3 / 64), ([1], 1 / 8), ([0], 3 / 32)], 1 / 32) := by decide +kernel
  obtain ⟨r, hr, he⟩ := Option.map_eq_some_iff.1 hcomp
  refine ⟨Ariadne.PBit.rounding 2 (by norm_num), trivialSweeper, ⟨[([1, 1], 1)], 0⟩,
    ⟨[([1], 1 / 4), ([0], 3 / 16)], 0⟩, ⟨[([1], 3 / 16), ([0], 1 / 2)], 0⟩, r,
    fun z => value (monomial z) [([1, 1], 1)], fun z => 1 / 4 * z.headD 0 + 3 / 16,
    fun z => 3 / 16 * z.headD 0 + 1 / 2, by simp [WF], by simp [WF], by simp [WF], by simp [Sorted],
    ?_, ?_, ?_, ?_, hr, ?_⟩
  · intro z _; simp
  · intro z hz
    obtain ⟨y, rfl⟩ := List.length_eq_one_iff.1 hz.1
    simp [monomial]
  · intro z hz
    obtain ⟨y, rfl⟩ := List.length_eq_one_iff.1 hz.1
    simp [monomial]
  · intro z hz
    obtain ⟨y, rfl⟩ := List.length_eq_one_iff.1 hz.1
    have := hz.2 y (by simp)
    rw [abs_le] at this
    refine ⟨rfl, ?_⟩
    intro w hw
    simp only [List.headD_cons, List.mem_cons, List.not_mem_nil, or_false] at hw
    rw [abs_le]
    rcases hw with rfl | rfl <;> constructor <;> linarith [this.1, this.2]
  · intro h
    have h1 := h [1] ⟨rfl, by simp⟩
    have e1 : r.terms = [([2], 3 / 64), ([1], 1 / 8), ([0], 3 / 32)] := congrArg Prod.fst he
    have e2 : r.err = 1 / 32 := congrArg Prod.snd he
    rw [e1, e2] at h1
    simp [monomial] at h1
    norm_num [abs_le] at h1

/-- Non-vacuity of composition: `(s+1/4)²` through two variables, with an error. -/
example : (compose (exactRounding : Rounding ℚ) trivialSweeper 1 2
      (⟨[([1, 1], 1)], 1 / 8⟩ : TM ℚ) [⟨[([1], 1 / 2), ([0], 1 / 4)], 0⟩,
        ⟨[([1], 1 / 2), ([0], 1 / 4)], 1 / 4⟩]).map (fun r => (r.terms, r.err)) =
      some ([([2], 1 / 4), ([1], 1 / 4), ([0], 1 / 16)], 5 / 16) := by decide +kernel

end Verif.TaylorModel
