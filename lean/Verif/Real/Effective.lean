import Verif.Real.Props

/-!
# C77: convergence, accuracy and comparisons
-/

namespace Verif.RealNumber

open Ariadne (Ext Bounds XRounding IsLower IsUpper Describes)
open Ariadne.Logical (LV)
open Ariadne.Ext (fin)
open Filter Topology

/-! ## Convergence -/

theorem tendsto_chk {ι : Type*} {F : Filter ι} {B : ι → Bounds ℝ} {y : ℝ} (st : Bool) (hB : Tendsto B F (nB y)) :
    Tendsto (fun i => chk st (B i)) F ((nB y).map some) := by
  have ck : ∀ᶠ i in F, some (B i) = chk st (B i) := by
    have := hB.eventually ((nB_basis y).mem_of_mem one_pos)
    filter_upwards [this] with i hi
    obtain ⟨l, u, h, -, -⟩ := hi
    rw [h]; simp [chk, hasNaN]
  exact Tendsto.congr' ck (tendsto_map.comp hB)

theorem tendsto_bind {ι : Type*} {F : Filter ι} {A : ι → Option (Bounds ℝ)} {g : ι → Bounds ℝ → Bounds ℝ} {x y : ℝ}
    (st : Bool) (hA : Tendsto A F ((nB x).map some))
    (hg : ∀ B : ι → Bounds ℝ, Tendsto B F (nB x) → Tendsto (fun i => g i (B i)) F (nB y)) :
    Tendsto (fun i => (A i).bind fun b => chk st (g i b)) F ((nB y).map some) := by
  set B : ι → Bounds ℝ := fun i => (A i).getD ⟨fin 0, fin 0⟩ with hB
  have e : A =ᶠ[F] fun i => some (B i) := by
    have hr : Set.range (some : Bounds ℝ → Option (Bounds ℝ)) ∈ (nB x).map some :=
      mem_map.2 (Eventually.of_forall fun y => ⟨y, rfl⟩)
    filter_upwards [hA.eventually hr] with i ⟨b, hb⟩
    simp [hB, ← hb]
  have tB : Tendsto B F (nB x) := by
    rw [tendsto_def] at hA ⊢
    intro s hs
    filter_upwards [e, hA (some '' s) (image_mem_map hs)] with i h ⟨b, hb, h2⟩
    rw [h] at h2
    obtain rfl := Option.some.inj h2
    exact hb
  have tg := hg B tB
  have ck : ∀ᶠ i in F, chk st (g i (B i)) = some (g i (B i)) := by
    have := tg.eventually ((nB_basis y).mem_of_mem one_pos)
    filter_upwards [this] with i hi
    obtain ⟨l, u, h, -, -⟩ := hi
    rw [h]; simp [chk, hasNaN]
  refine Tendsto.congr' ?_ (tendsto_map.comp tg)
  filter_upwards [e, ck] with i h h'
  rw [h]; exact h'.symm

theorem tendsto_bind2 {ι : Type*} {F : Filter ι} {A A' : ι → Option (Bounds ℝ)}
    {g : ι → Bounds ℝ → Bounds ℝ → Bounds ℝ} {x x' y : ℝ}
    (st : Bool) (hA : Tendsto A F ((nB x).map some)) (hA' : Tendsto A' F ((nB x').map some))
    (hg : ∀ B B' : ι → Bounds ℝ, Tendsto B F (nB x) → Tendsto B' F (nB x') → Tendsto (fun i => g i (B i) (B' i)) F (nB y)) :
    Tendsto (fun i => (A i).bind fun b => (A' i).bind fun b' => chk st (g i b b')) F ((nB y).map some) := by
  set B : ι → Bounds ℝ := fun i => (A i).getD ⟨fin 0, fin 0⟩ with hB
  have e : A =ᶠ[F] fun i => some (B i) := by
    have hr : Set.range (some : Bounds ℝ → Option (Bounds ℝ)) ∈ (nB x).map some :=
      mem_map.2 (Eventually.of_forall fun y => ⟨y, rfl⟩)
    filter_upwards [hA.eventually hr] with i ⟨b, hb⟩
    simp [hB, ← hb]
  have tB : Tendsto B F (nB x) := by
    rw [tendsto_def] at hA ⊢
    intro s hs
    filter_upwards [e, hA (some '' s) (image_mem_map hs)] with i h ⟨b, hb, h2⟩
    rw [h] at h2
    obtain rfl := Option.some.inj h2
    exact hb
  have := tendsto_bind (g := fun i b' => g i (B i) b') st hA' (fun B' hB' => hg B B' tB hB')
  refine Tendsto.congr' ?_ this
  filter_upwards [e] with i h
  rw [h]; rfl

theorem tendsto_op1 {ι : Type*} {F : Filter ι} {A : ι → Option (Bounds ℝ)} {x y : ℝ} {fl : Floats} {o : Op1} (st : Bool)
    (ho : o.Tight fl) (hv : o.val x y) (p : ι → ℕ) (hp : Tendsto p F atTop) (hA : Tendsto A F ((nB x).map some)) :
    Tendsto (fun i => (A i).bind fun b => chk st (o.ev (fl (.mp (p i))) b)) F ((nB y).map some) := by
  refine tendsto_bind (g := fun i b => o.ev (fl (.mp (p i))) b) st hA ?_
  intro B hB
  exact (Op1.tight_iff.1 ho x y hv).comp (hp.prodMk hB)

theorem tendsto_op2 {ι : Type*} {F : Filter ι} {A A' : ι → Option (Bounds ℝ)} {x x' y : ℝ} {fl : Floats} {o : Op2}
    (st : Bool) (ho : o.Tight fl) (hv : o.val x x' y) (p : ι → ℕ) (hp : Tendsto p F atTop)
    (hA : Tendsto A F ((nB x).map some)) (hA' : Tendsto A' F ((nB x').map some)) :
    Tendsto (fun i => (A i).bind fun b => (A' i).bind fun b' => chk st (o.ev (fl (.mp (p i))) b b')) F
      ((nB y).map some) := by
  refine tendsto_bind2 (g := fun i b b' => o.ev (fl (.mp (p i))) b b') st hA hA' ?_
  intro B B' hB hB'
  exact (Op2.tight_iff.1 ho x x' y hv).comp (hp.prodMk (hB.prodMk hB'))

theorem tendsto_exprDy {f : Prec → ℕ → Option (Bounds ℝ)} {G : Filter (Option (Bounds ℝ))}
    (h : Tendsto (fun t : ℕ × ℕ => f (.mp t.1) t.2) (atTop ×ˢ atTop) G) : Tendsto (exprDy f) atTop G := by
  have t : Tendsto (fun e : ℕ => (e * 16, e)) atTop (atTop ×ˢ atTop) :=
    (tendsto_id.atTop_mul_const' (by norm_num : 0 < 16)).prodMk tendsto_id
  refine Tendsto.congr' ?_ (h.comp t)
  filter_upwards [eventually_ge_atTop 4] with e he
  simp only [exprDy, Function.comp]
  rw [if_neg (by omega)]

theorem tendsto_get {A : Ev} {G : Filter (Option (Bounds ℝ))}
    (h : Tendsto (fun t : ℕ × ℕ => A.flt (.mp t.1) t.2) (atTop ×ˢ atTop) G) :
    Tendsto (fun t : ℕ × ℕ => A.get (.mp t.1)) (atTop ×ˢ atTop) G := by
  have t : Tendsto (fun t : ℕ × ℕ => (t.1, t.1)) (atTop ×ˢ atTop) (atTop ×ˢ atTop) :=
    tendsto_fst.prodMk tendsto_fst
  exact h.comp t

theorem tendsto_twoNeg : Tendsto (fun e : ℕ => twoNeg (e + 1)) atTop (𝓝 0) := by
  simp only [twoNeg_eq]
  exact (tendsto_pow_atTop_nhds_zero_of_lt_one (by norm_num) (by norm_num)).comp (tendsto_add_atTop_nat 1)

theorem nB_round {ι : Type*} {F : Filter ι} {B : ι → Bounds ℝ} {R : ι → XRounding ℝ} {x : ℝ}
    (hd : FineR F fun i => (R i).down) (hu : FineR F fun i => (R i).up) (hB : Tendsto B F (nB x)) :
    Tendsto (fun i => roundB (R i) (B i)) F (nB x) :=
  nB_mk (nE_round hd (tendsto_nB.1 hB).1) (nE_round hu (tendsto_nB.1 hB).2)

theorem Shrinks.tendsto {s : ℕ → Bounds ℝ} {x : ℝ} (h : Shrinks s) (hx : ∀ n, (s n).Contains x) :
    Tendsto s atTop (nB x) := by
  rw [(atTop_basis (α := ℕ)).tendsto_iff (nB_basis x)]
  intro ε hε
  obtain ⟨N, hN⟩ := h ε hε
  refine ⟨N, trivial, fun n hn => ?_⟩
  obtain ⟨l, u, e, hw⟩ := hN n hn
  have := hx n
  rw [e] at this
  have h1 : l ≤ x := this.1
  have h2 : x ≤ u := this.2
  exact ⟨l, u, e, by rw [abs_lt]; constructor <;> linarith, by rw [abs_lt]; constructor <;> linarith⟩

/-- The bounds of the computation converge; the same holds for the code and for the clean computation. -/
theorem effective_tendsto (fl : Floats) (hf : Fine fl) (st : Bool) (r : Re) (x : ℝ) (hr : r.Effective fl)
    (hx : Denotes r x) :
    Tendsto (fun t : ℕ × ℕ => (r.ev fl st).flt (.mp t.1) t.2) (atTop ×ˢ atTop) ((nB x).map some) ∧
    Tendsto (r.ev fl st).dy atTop ((nB x).map some) := by
  have hd : FineR (atTop ×ˢ atTop) fun t : ℕ × ℕ => (fl (.mp t.1)).down := hf.down tendsto_fst
  have hu : FineR (atTop ×ˢ atTop) fun t : ℕ × ℕ => (fl (.mp t.1)).up := hf.up tendsto_fst
  induction r generalizing x with
  | cnst c =>
    obtain rfl : x = c := hx
    have h : Tendsto (fun t : ℕ × ℕ => ((Re.cnst x).ev fl st).flt (.mp t.1) t.2) (atTop ×ˢ atTop) ((nB x).map some) := by
      have h1 : Tendsto (fun t : ℕ × ℕ => Bounds.ofExact (fl (.mp t.1)) x) (atTop ×ˢ atTop) (nB x) :=
        nB_mk (hd _ _ tendsto_const_nhds) (hu _ _ tendsto_const_nhds)
      exact tendsto_chk st h1
    exact ⟨h, tendsto_exprDy h⟩
  | un o a ih =>
    obtain ⟨y, hy, hv⟩ := hx
    have := (ih y hr.2 hy).1
    have h : Tendsto (fun t : ℕ × ℕ => ((Re.un o a).ev fl st).flt (.mp t.1) t.2) (atTop ×ˢ atTop) ((nB x).map some) :=
      tendsto_op1 st hr.1 hv Prod.fst tendsto_fst (tendsto_get this)
    exact ⟨h, tendsto_exprDy h⟩
  | power o a ih =>
    obtain ⟨y, hy, hv⟩ := hx
    have := (ih y hr.2 hy).1
    have h : Tendsto (fun t : ℕ × ℕ => ((Re.power o a).ev fl st).flt (.mp t.1) t.2) (atTop ×ˢ atTop) ((nB x).map some) :=
      tendsto_op1 st hr.1 hv Prod.fst tendsto_fst this
    exact ⟨h, tendsto_exprDy h⟩
  | bin o a b iha ihb =>
    obtain ⟨y, z, hy, hz, hv⟩ := hx
    have h1 := (iha y hr.2.1 hy).1
    have h2 := (ihb z hr.2.2 hz).1
    have h : Tendsto (fun t : ℕ × ℕ => ((Re.bin o a b).ev fl st).flt (.mp t.1) t.2) (atTop ×ˢ atTop) ((nB x).map some) :=
      tendsto_op2 st hr.1 hv Prod.fst tendsto_fst h1 h2
    exact ⟨h, tendsto_exprDy h⟩
  | limR s ih => exact hr.elim
  | limD s =>
    obtain ⟨hc, ht⟩ := hx
    have h1 : Tendsto (fun e : ℕ => s (e + 1)) atTop (𝓝 x) := ht.comp (tendsto_add_atTop_nat 1)
    have h : Tendsto (fun e : ℕ => (⟨fin (s (e + 1) - twoNeg (e + 1)), fin (s (e + 1) + twoNeg (e + 1))⟩ : Bounds ℝ))
        atTop (nB x) :=
      nB_mk (nE_fin (by simpa using h1.sub tendsto_twoNeg)) (nE_fin (by simpa using h1.add tendsto_twoNeg))
    have h2 : Tendsto ((Re.limD s).ev fl st).dy atTop ((nB x).map some) := tendsto_map.comp h
    exact ⟨tendsto_chk st (nB_round hd hu (h.comp tendsto_snd)), h2⟩
  | limB s =>
    have h := Shrinks.tendsto hr hx
    exact ⟨tendsto_chk st (nB_round hd hu (h.comp tendsto_snd)), tendsto_chk st h⟩
  | when_ p q a b iha ihb =>
    obtain ⟨h0, hp, hq⟩ := hx
    obtain ⟨sp, sq, ep, eq, ra, rb⟩ := hr
    have h : Tendsto ((Re.when_ p q a b).ev fl st).dy atTop ((nB x).map some) := by
      show Tendsto (whenDy st p q (a.ev fl st) (b.ev fl st)) atTop ((nB x).map some)
      have tp : p.truth → ∀ e, (p.check e).possibly = true := by
        intro h e; by_contra hn; exact sp e (by simpa using hn) h
      have tq : q.truth → ∀ e, (q.check e).possibly = true := by
        intro h e; by_contra hn; exact sq e (by simpa using hn) h
      by_cases cp : p.truth
      · have ta := (iha x ra (hp cp)).2
        by_cases cq : q.truth
        · have tb := (ihb x rb (hq cq)).2
          refine Tendsto.congr (f₁ := fun e => ((a.ev fl st).dy e).bind fun w1 => ((b.ev fl st).dy e).bind fun w2 =>
            chk st (Bounds.coarsening w1 w2)) ?_ ?_
          · intro e; simp [whenDy, tp cp e, tq cq e]
          · refine tendsto_bind2 (g := fun _ w1 w2 => Bounds.coarsening w1 w2) st ta tb ?_
            intro B B' hB hB'
            have h1 := tendsto_nB.1 hB
            have h2 := tendsto_nB.1 hB'
            exact nB_mk (by simpa using nE_min h1.1 h2.1) (by simpa using nE_max h1.2 h2.2)
        · obtain ⟨N, hN⟩ := eq cq
          refine Tendsto.congr' ?_ ta
          filter_upwards [eventually_ge_atTop N] with e he
          simp [whenDy, tp cp e, hN e he]
      · have cq := h0.resolve_left cp
        have tb := (ihb x rb (hq cq)).2
        obtain ⟨N, hN⟩ := ep cp
        refine Tendsto.congr' ?_ tb
        filter_upwards [eventually_ge_atTop N] with e he
        simp [whenDy, tq cq e, hN e he]
    refine ⟨?_, h⟩
    refine tendsto_bind (ι := ℕ × ℕ) (F := atTop ×ˢ atTop)
      (A := fun t => whenDy st p q (a.ev fl st) (b.ev fl st) t.1) (g := fun t b => roundB (fl (.mp t.1)) b) st
      (h.comp tendsto_fst) ?_
    intro B hB
    exact nB_round hd hu hB

/-- C77: the bounds of an expression of tight operators converge to the number, both the dyadic bounds with increasing
effort and the bounds in multiple precision with increasing effort and number of bits. -/
theorem C77_effective (fl : Floats) (hf : Fine fl) (r : Re) (x : ℝ) (hr : r.Effective fl) (hx : Denotes r x) :
    Converges (code fl r).dy x ∧ ConvergesMP (code fl r).flt x :=
  ⟨converges_iff.2 (effective_tendsto fl hf false r x hr hx).2,
    convergesMP_iff.2 (effective_tendsto fl hf false r x hr hx).1⟩

/-- C77: and from some effort no NaN arises. -/
theorem C77_effective_clean (fl : Floats) (hf : Fine fl) (r : Re) (x : ℝ) (hr : r.Effective fl) (hx : Denotes r x) :
    Converges (clean fl r).dy x ∧ ConvergesMP (clean fl r).flt x :=
  ⟨converges_iff.2 (effective_tendsto fl hf true r x hr hx).2,
    convergesMP_iff.2 (effective_tendsto fl hf true r x hr hx).1⟩

/-! ## Operators which cannot give NaN -/

/-- Bounds of arguments give bounds of the value. -/
def Op1.Total (fl : Floats) (o : Op1) : Prop :=
  ∀ pr X x y, X.Contains x → o.val x y → (o.ev (fl pr) X).Contains y

/-- The same for two arguments. -/
def Op2.Total (fl : Floats) (o : Op2) : Prop :=
  ∀ pr X Y x y z, X.Contains x → Y.Contains y → o.val x y z → (o.ev (fl pr) X Y).Contains z

/-- All operators are total; no conditions and no limits of sequences of `Real`. -/
def Re.Total (fl : Floats) : Re → Prop
  | .cnst _ => True
  | .un o a => o.Total fl ∧ a.Total fl
  | .power o a => o.Total fl ∧ a.Total fl
  | .bin o a b => o.Total fl ∧ a.Total fl ∧ b.Total fl
  | .limR _ => False
  | .limD _ => True
  | .limB _ => True
  | .when_ _ _ _ _ => False

theorem chk_of_contains {b : Bounds ℝ} {x : ℝ} (h : b.Contains x) : chk true b = some b := by
  have : hasNaN b = false := by
    have := noNaN_of_contains h
    rw [← not_not (a := b.NoNaN), ← hasNaN_iff] at this
    simpa using this
  simp [chk, this]

/-- C77: without multiplication no NaN arises: for an expression of total operators every effort and precision gives bounds, which
contain the number. -/
theorem C77_total (fl : Floats) (r : Re) (x : ℝ) (hr : r.Total fl) (hx : Denotes r x) :
    (∀ pr e, ∃ b, (clean fl r).flt pr e = some b ∧ b.Contains x) ∧ ∀ e, ∃ b, (clean fl r).dy e = some b ∧ b.Contains x := by
  have ex : ∀ {f : Prec → ℕ → Option (Bounds ℝ)} {x : ℝ}, (∀ pr e, ∃ b, f pr e = some b ∧ b.Contains x) →
      ∀ e, ∃ b, exprDy f e = some b ∧ b.Contains x := by
    intro f x h e
    unfold exprDy
    by_cases c : e * 16 ≤ 52
    · rw [if_pos c]; exact h _ _
    · rw [if_neg c]; exact h _ _
  have gt : ∀ {A : Ev} {x : ℝ}, (∀ pr e, ∃ b, A.flt pr e = some b ∧ b.Contains x) →
      ∀ pr, ∃ b, A.get pr = some b ∧ b.Contains x := by
    intro A x h pr; cases pr <;> exact h _ _
  have bk : ∀ {A : Option (Bounds ℝ)} {g : Bounds ℝ → Bounds ℝ} {x y : ℝ}, (∃ b, A = some b ∧ b.Contains x) →
      (∀ b, b.Contains x → (g b).Contains y) → ∃ b, (A.bind fun X => chk true (g X)) = some b ∧ b.Contains y := by
    rintro A g x y ⟨b, rfl, hb⟩ hg
    exact ⟨g b, chk_of_contains (hg b hb), hg b hb⟩
  have bk2 : ∀ {A B : Option (Bounds ℝ)} {g : Bounds ℝ → Bounds ℝ → Bounds ℝ} {x y z : ℝ}, (∃ b, A = some b ∧ b.Contains x) →
      (∃ b, B = some b ∧ b.Contains y) →
      (∀ b c, b.Contains x → c.Contains y → (g b c).Contains z) →
      ∃ b, (A.bind fun X => B.bind fun Y => chk true (g X Y)) = some b ∧ b.Contains z := by
    rintro A B g x y z ⟨b, rfl, hb⟩ ⟨c, rfl, hc⟩ hg
    exact ⟨g b c, chk_of_contains (hg b c hb hc), hg b c hb hc⟩
  induction r generalizing x with
  | cnst c =>
    obtain rfl : x = c := hx
    have h : ∀ pr e, ∃ b, (clean fl (.cnst x)).flt pr e = some b ∧ b.Contains x := fun pr e =>
      ⟨_, chk_of_contains (Bounds.C05_ofExact (fl pr) x), Bounds.C05_ofExact (fl pr) x⟩
    exact ⟨h, ex h⟩
  | un o a ih =>
    obtain ⟨y, hy, hv⟩ := hx
    have h : ∀ pr e, ∃ b, (clean fl (.un o a)).flt pr e = some b ∧ b.Contains x := fun pr e =>
      bk (gt (ih y hr.2 hy).1 pr) (fun b hb => hr.1 pr b y x hb hv)
    exact ⟨h, ex h⟩
  | power o a ih =>
    obtain ⟨y, hy, hv⟩ := hx
    have h : ∀ pr e, ∃ b, (clean fl (.power o a)).flt pr e = some b ∧ b.Contains x := by
      intro pr e
      cases pr
      · exact bk (gt (ih y hr.2 hy).1 _) (fun b hb => hr.1 _ b y x hb hv)
      · exact bk ((ih y hr.2 hy).1 _ _) (fun b hb => hr.1 _ b y x hb hv)
    exact ⟨h, ex h⟩
  | bin o a b iha ihb =>
    obtain ⟨y, z, hy, hz, hv⟩ := hx
    have h : ∀ pr e, ∃ c, (clean fl (.bin o a b)).flt pr e = some c ∧ c.Contains x := by
      intro pr e
      cases pr
      · exact bk2 (gt (iha y hr.2.1 hy).1 _) (gt (ihb z hr.2.2 hz).1 _) (fun b c hb hc => hr.1 _ b c y z x hb hc hv)
      · exact bk2 ((iha y hr.2.1 hy).1 _ _) ((ihb z hr.2.2 hz).1 _ _) (fun b c hb hc => hr.1 _ b c y z x hb hc hv)
    exact ⟨h, ex h⟩
  | limR s ih => exact hr.elim
  | limD s =>
    obtain ⟨hc, ht⟩ := hx
    have hd := hc.dist_le ht
    have h : ∀ e : ℕ, (⟨fin (s (e + 1) - twoNeg (e + 1)), fin (s (e + 1) + twoNeg (e + 1))⟩ : Bounds ℝ).Contains x := by
      intro e
      have h3 := abs_le.1 (hd (e + 1))
      constructor
      · show _ ≤ x; linarith
      · show x ≤ _; linarith
    exact ⟨fun pr e => ⟨_, chk_of_contains (roundB_contains (fl pr) (h e)), roundB_contains (fl pr) (h e)⟩,
      fun e => ⟨_, rfl, h e⟩⟩
  | limB s =>
    exact ⟨fun pr e => ⟨_, chk_of_contains (roundB_contains (fl pr) (hx e)), roundB_contains (fl pr) (hx e)⟩,
      fun e => ⟨_, chk_of_contains (hx e), hx e⟩⟩
  | when_ p q a b iha ihb => exact hr.elim

/-- C77: every operator but multiplication is total, for any rounding, also with overflow. -/
theorem C77_total_operators (fl : Floats) :
    opPos.Total fl ∧ opNeg.Total fl ∧ opHlf.Total fl ∧ opSqr.Total fl ∧ opRec.Total fl ∧ opAbs.Total fl ∧
    (∀ n, (opPow n).Total fl) ∧ opAdd.Total fl ∧ opSub.Total fl ∧ opDiv.Total fl ∧ opMax.Total fl ∧ opMin.Total fl := by
  refine ⟨?_, ?_, ?_, ?_, ?_, ?_, ?_, ?_, ?_, ?_, ?_, ?_⟩
  · rintro pr X x y h rfl; exact Bounds.C05_pos h
  · rintro pr X x y h rfl; exact Bounds.C05_neg h
  · rintro pr X x y h rfl; exact Bounds.C05_hlf h
  · rintro pr X x y h rfl; exact Bounds.C05_sqr _ h
  · rintro pr X x y h ⟨-, rfl⟩; exact Bounds.C06_rec _ h
  · rintro pr X x y h rfl; exact Bounds.C05_abs h
  · rintro n pr X x y h ⟨-, rfl⟩; exact Bounds.C06_pow_int _ n h
  · rintro pr X Y x y z h h' rfl; exact Bounds.C05_add _ h h'
  · rintro pr X Y x y z h h' rfl; exact Bounds.C05_sub _ h h'
  · rintro pr X Y x y z h h' ⟨-, rfl⟩; exact Bounds.C06_div _ h h'
  · rintro pr X Y x y z h h' rfl; exact Bounds.C05_max h h'
  · rintro pr X Y x y z h h' rfl; exact Bounds.C05_min h h'

/-- C77: every operator is sound, and tight if rounding is fine. -/
theorem C77_operators (fl : Floats) (hf : Fine fl) :
    (∀ o ∈ [opPos, opNeg, opHlf, opSqr, opRec, opAbs], o.Sound fl ∧ o.Tight fl) ∧
    (∀ n, (opPow n).Sound fl ∧ (opPow n).Tight fl) ∧
    ∀ o ∈ [opAdd, opSub, opMul, opDiv, opMax, opMin], o.Sound fl ∧ o.Tight fl := by
  refine ⟨?_, fun n => ⟨opPow_sound fl n, opPow_tight hf n⟩, ?_⟩
  · intro o ho
    simp only [List.mem_cons, List.not_mem_nil, or_false] at ho
    rcases ho with rfl | rfl | rfl | rfl | rfl | rfl
    · exact ⟨opPos_sound fl, opPos_tight⟩
    · exact ⟨opNeg_sound fl, opNeg_tight⟩
    · exact ⟨opHlf_sound fl, opHlf_tight⟩
    · exact ⟨opSqr_sound fl, opSqr_tight hf⟩
    · exact ⟨opRec_sound fl, opRec_tight hf⟩
    · exact ⟨opAbs_sound fl, opAbs_tight⟩
  · intro o ho
    simp only [List.mem_cons, List.not_mem_nil, or_false] at ho
    rcases ho with rfl | rfl | rfl | rfl | rfl | rfl
    · exact ⟨opAdd_sound fl, opAdd_tight hf⟩
    · exact ⟨opSub_sound fl, opSub_tight hf⟩
    · exact ⟨opMul_sound fl, opMul_tight hf⟩
    · exact ⟨opDiv_sound fl, opDiv_tight hf⟩
    · exact ⟨opMax_sound fl, opMax_tight⟩
    · exact ⟨opMin_sound fl, opMin_tight⟩

/-! ## Accuracy -/

theorem accLoop_some {d : ℕ → Option (Bounds ℝ)} {err : ℝ} {b : Bounds ℝ} : ∀ {k e : ℕ}, accLoop d err k e = some b →
    ∃ n ≥ e, n < e + k ∧ d n = some b ∧ Ext.lt (halfWidth b) (fin err) = true := by
  intro k
  induction k with
  | zero => intro e h; simp [accLoop] at h
  | succ k ih =>
    intro e h
    simp only [accLoop] at h
    obtain ⟨c, hc, h2⟩ := Option.bind_eq_some_iff.1 h
    by_cases hl : Ext.lt (halfWidth c) (fin err) = true
    · rw [if_pos hl] at h2
      obtain rfl := Option.some.inj h2
      exact ⟨e, le_rfl, by omega, hc, hl⟩
    · rw [if_neg hl] at h2
      obtain ⟨n, hn, hn', h3⟩ := ih h2
      exact ⟨n, by omega, by omega, h3⟩

theorem accLoop_terminates {d : ℕ → Option (Bounds ℝ)} {err : ℝ} {e : ℕ} : ∀ {n : ℕ},
    (∀ i, e ≤ i → i ≤ e + n → (d i).isSome) →
    (∃ b, d (e + n) = some b ∧ Ext.lt (halfWidth b) (fin err) = true) → ∃ k b, accLoop d err k e = some b := by
  intro n
  induction n generalizing e with
  | zero =>
    rintro - ⟨b, hb, hl⟩
    refine ⟨1, b, ?_⟩
    simp only [add_zero] at hb
    simp [accLoop, hb, hl]
  | succ n ih =>
    rintro h1 ⟨b, hb, hl⟩
    obtain ⟨c, hc⟩ := Option.isSome_iff_exists.1 (h1 e le_rfl (by omega))
    by_cases hl' : Ext.lt (halfWidth c) (fin err) = true
    · exact ⟨1, c, by simp [accLoop, hc, hl']⟩
    · obtain ⟨k, b', hk⟩ := ih (e := e + 1) (fun i h2 h3 => h1 i (by omega) (by omega))
        ⟨b, by rwa [show e + 1 + n = e + (n + 1) by omega], hl⟩
      refine ⟨k + 1, b', ?_⟩
      rw [accLoop, hc]
      simp [hl', hk]

theorem accLoop_le {d : ℕ → Option (Bounds ℝ)} {err : ℝ} {b : Bounds ℝ} : ∀ {k e : ℕ}, accLoop d err k e = some b →
    ∀ j, accLoop d err (k + j) e = some b := by
  intro k
  induction k with
  | zero => intro e h; simp [accLoop] at h
  | succ k ih =>
    intro e h j
    rw [show k + 1 + j = (k + j) + 1 by omega]
    simp only [accLoop] at h ⊢
    obtain ⟨c, hc, h2⟩ := Option.bind_eq_some_iff.1 h
    rw [hc]
    by_cases hl : Ext.lt (halfWidth c) (fin err) = true
    · simpa [hl] using h2
    · simp only [hl, Bool.false_eq_true, if_false, Option.bind_some] at h2 ⊢
      exact ih h2 j

/-- C77: `compute(Accuracy)` has at most one result, contains the number if no NaN arises, and has half-width below the
accuracy. -/
theorem C77_accuracy (fl : Floats) (r : Re) (x err : ℝ) (hs : r.Sound fl) (hx : Denotes r x)
    (hn : ∀ e, ((clean fl r).dy e).isSome) (b : Bounds ℝ) (h : ComputesTo (code fl r).dy err b) :
    (∀ c, ComputesTo (code fl r).dy err c → c = b) ∧ b.Contains x ∧
      ∃ l u : ℝ, b = ⟨fin l, fin u⟩ ∧ (u - l) / 2 < err := by
  obtain ⟨k, hk⟩ := h
  obtain ⟨e, -, -, he, hl⟩ := accLoop_some hk
  obtain ⟨c, hc⟩ := Option.isSome_iff_exists.1 (hn e)
  have h1 := (C77_sound fl r x hs hx).2 e c hc
  rw [he] at h1
  obtain rfl := Option.some.inj h1.1
  refine ⟨?_, h1.2, ?_⟩
  · rintro c ⟨k', hk'⟩
    have e1 := accLoop_le hk k'
    have e2 := accLoop_le hk' k
    rw [add_comm] at e2
    rw [e1] at e2
    exact (Option.some.inj e2).symm
  · obtain ⟨l, u⟩ := b
    obtain ⟨hc1, hc2⟩ := h1.2
    rcases l with - | l | - | - <;> rcases u with - | u | - | - <;>
      simp_all [halfWidth, Ext.sub, Ext.add, Ext.neg, Ext.hlf, Ext.lt, IsLower, IsUpper]
    linarith

/-- C77: `compute(Accuracy)` terminates with any positive accuracy, if the bounds converge and no exception is thrown. -/
theorem C77_accuracy_terminates (d : ℕ → Option (Bounds ℝ)) (x err : ℝ) (he : 0 < err) (hc : Converges d x)
    (hs : ∀ e, (d e).isSome) : ∃ b, ComputesTo d err b := by
  obtain ⟨N, hN⟩ := hc err he
  obtain ⟨b, hb, l, u, rfl, h1, h2⟩ := hN (1 + N) (by omega)
  obtain ⟨k, b, hk⟩ := accLoop_terminates (d := d) (err := err) (e := 1) (n := N) (fun i _ _ => hs i)
    ⟨_, hb, by
      rw [abs_lt] at h1 h2
      simp only [halfWidth, Ext.sub, Ext.add, Ext.neg, Ext.hlf, Ext.lt, decide_eq_true_eq]
      linarith⟩
  exact ⟨b, k, hk⟩

/-- C77: with accuracy zero `compute(Accuracy)` never terminates: not even for a number which is known exactly. -/
theorem C77_accuracy_zero (fl : Floats) (r : Re) (x : ℝ) (hs : r.Sound fl) (hx : Denotes r x)
    (hn : ∀ e, ((clean fl r).dy e).isSome) (b : Bounds ℝ) : ¬ ComputesTo (code fl r).dy 0 b := by
  intro h
  obtain ⟨-, ⟨h1, h2⟩, l, u, rfl, h3⟩ := C77_accuracy fl r x 0 hs hx hn b h
  have h1' : l ≤ x := h1
  have h2' : x ≤ u := h2
  linarith

/-- C77: `round` gives an integer less than 1 away from the number. -/
theorem C77_round (fl : Floats) (r : Re) (x : ℝ) (hs : r.Sound fl) (hx : Denotes r x)
    (hn : ∀ e, ((clean fl r).dy e).isSome) (near : ℝ → ℤ) (hr : Nearest near) (z : ℤ)
    (h : RoundsTo (code fl r).dy near z) : |(z : ℝ) - x| < 1 := by
  obtain ⟨l, u, hc, rfl⟩ := h
  obtain ⟨-, ⟨h1, h2⟩, l', u', e, h3⟩ := C77_accuracy fl r x (1 / 2) hs hx hn _ hc
  simp only [Bounds.mk.injEq, Ext.fin.injEq] at e
  obtain ⟨rfl, rfl⟩ := e
  have h1' : l ≤ x := h1
  have h2' : x ≤ u := h2
  have h4 := hr ((l + u) / 2)
  have h5 : |(l + u) / 2 - x| < 1 / 2 := by rw [abs_lt]; constructor <;> linarith
  calc |((near ((l + u) / 2) : ℤ) : ℝ) - x|
      = |(((near ((l + u) / 2) : ℤ) : ℝ) - (l + u) / 2) + ((l + u) / 2 - x)| := by congr 1; ring
    _ ≤ _ := abs_add_le _ _
    _ < 1 := by linarith

/-! ## Comparisons -/

theorem lt_sound {u l : Ext ℝ} {x y : ℝ} (h : Ext.lt u l = true) (hu : IsUpper u x) (hl : IsLower l y) : x < y := by
  rcases u with - | u | - | - <;> rcases l with - | l | - | - <;>
    simp_all [Ext.lt, IsLower, IsUpper]
  linarith

theorem le_sound {u l : Ext ℝ} {x y : ℝ} (h : Ext.le u l = true) (hu : IsUpper u x) (hl : IsLower l y) : x ≤ y := by
  rcases u with - | u | - | - <;> rcases l with - | l | - | - <;>
    simp_all [Ext.le, IsLower, IsUpper]
  linarith

theorem zero_contains : IsUpper (fin (0 : ℝ)) 0 ∧ IsLower (fin (0 : ℝ)) 0 := ⟨le_refl (0 : ℝ), le_refl (0 : ℝ)⟩

theorem describes_mk {v : LV} {P : Prop} (h1 : v = .true_ → P) (h2 : v = .false_ → ¬ P) : Describes v P := ⟨h1, h2⟩

/-- C77: the comparisons of bounds which contain two numbers are never definitely wrong about the numbers. -/
theorem comparisons_sound {X Y : Bounds ℝ} {x y : ℝ} (hX : X.Contains x) (hY : Y.Contains y) :
    Describes (ltD X Y) (x < y) ∧ Describes (gtD X Y) (x > y) ∧ Describes (leD X Y) (x ≤ y) ∧
    Describes (geD X Y) (x ≥ y) ∧ Describes (eqD X Y) (x = y) ∧ Describes (neD X Y) (x ≠ y) ∧
    (sgnD X = .true_ → 0 < x) ∧ (sgnD X = .false_ → x < 0) := by
  have a1 : ∀ h : Ext.lt X.u Y.l = true, x < y := fun h => lt_sound h hX.2 hY.1
  have a2 : ∀ h : Ext.lt Y.u X.l = true, y < x := fun h => lt_sound h hY.2 hX.1
  have a3 : ∀ h : Ext.le X.u Y.l = true, x ≤ y := fun h => le_sound h hX.2 hY.1
  have a4 : ∀ h : Ext.le Y.u X.l = true, y ≤ x := fun h => le_sound h hY.2 hX.1
  refine ⟨?_, ?_, ?_, ?_, ?_, ?_, ?_, ?_⟩
  · unfold ltD
    by_cases c : Ext.lt X.u Y.l = true
    · rw [if_pos c]; exact ⟨fun _ => a1 c, by simp⟩
    · rw [if_neg c]
      by_cases c' : Ext.le Y.u X.l = true
      · rw [if_pos c']; exact ⟨by simp, fun _ => not_lt.2 (a4 c')⟩
      · rw [if_neg c']; exact ⟨by simp, by simp⟩
  · unfold gtD
    by_cases c : Ext.lt Y.u X.l = true
    · rw [if_pos c]; exact ⟨fun _ => a2 c, by simp⟩
    · rw [if_neg c]
      by_cases c' : Ext.le X.u Y.l = true
      · rw [if_pos c']; exact ⟨by simp, fun _ => not_lt.2 (a3 c')⟩
      · rw [if_neg c']; exact ⟨by simp, by simp⟩
  · unfold leD
    by_cases c : Ext.le X.u Y.l = true
    · rw [if_pos c]; exact ⟨fun _ => a3 c, by simp⟩
    · rw [if_neg c]
      by_cases c' : Ext.lt Y.u X.l = true
      · rw [if_pos c']; exact ⟨by simp, fun _ => not_le.2 (a2 c')⟩
      · rw [if_neg c']; exact ⟨by simp, by simp⟩
  · unfold geD
    by_cases c : Ext.le Y.u X.l = true
    · rw [if_pos c]; exact ⟨fun _ => a4 c, by simp⟩
    · rw [if_neg c]
      by_cases c' : Ext.lt X.u Y.l = true
      · rw [if_pos c']; exact ⟨by simp, fun _ => not_le.2 (a1 c')⟩
      · rw [if_neg c']; exact ⟨by simp, by simp⟩
  · unfold eqD
    by_cases c : (Ext.le Y.u X.l && Ext.le X.u Y.l) = true
    · rw [if_pos c]
      rw [Bool.and_eq_true] at c
      exact ⟨fun _ => le_antisymm (a3 c.2) (a4 c.1), by simp⟩
    · rw [if_neg c]
      by_cases c' : (Ext.lt X.u Y.l || Ext.lt Y.u X.l) = true
      · rw [if_pos c']
        rw [Bool.or_eq_true] at c'
        exact ⟨by simp, fun _ => c'.elim (fun h => (a1 h).ne) (fun h => (a2 h).ne')⟩
      · rw [if_neg c']; exact ⟨by simp, by simp⟩
  · unfold neD
    by_cases c' : (Ext.lt X.u Y.l || Ext.lt Y.u X.l) = true
    · rw [if_pos c']
      rw [Bool.or_eq_true] at c'
      exact ⟨fun _ => c'.elim (fun h => (a1 h).ne) (fun h => (a2 h).ne'), by simp⟩
    · rw [if_neg c']
      by_cases c : (Ext.le Y.u X.l && Ext.le X.u Y.l) = true
      · rw [if_pos c]
        rw [Bool.and_eq_true] at c
        exact ⟨by simp, fun _ => not_not.2 (le_antisymm (a3 c.2) (a4 c.1))⟩
      · rw [if_neg c]; exact ⟨by simp, by simp⟩
  · unfold sgnD
    by_cases c : Ext.lt (fin 0) X.l = true
    · rw [if_pos c]; intro _; exact lt_sound c zero_contains.1 hX.1
    · rw [if_neg c]
      by_cases c' : Ext.lt X.u (fin 0) = true
      · rw [if_pos c']; simp
      · rw [if_neg c']; simp
  · unfold sgnD
    by_cases c : Ext.lt (fin 0) X.l = true
    · rw [if_pos c]; simp
    · rw [if_neg c]
      by_cases c' : Ext.lt X.u (fin 0) = true
      · rw [if_pos c']; intro _; exact lt_sound c' hX.2 zero_contains.2
      · rw [if_neg c']; simp

/-- C77: checking a comparison of two real numbers, with any effort, is never definitely wrong, as long as no NaN arises. -/
theorem C77_comparisons_sound (fl : Floats) (r s : Re) (x y : ℝ) (hr : r.Sound fl) (hs : s.Sound fl) (hx : Denotes r x)
    (hy : Denotes s y) (e : ℕ) (h1 : ((clean fl r).dy e).isSome) (h2 : ((clean fl s).dy e).isSome) :
    (∀ v, compare ltD (code fl r) (code fl s) e = some v → Describes v (x < y)) ∧
    (∀ v, compare gtD (code fl r) (code fl s) e = some v → Describes v (x > y)) ∧
    (∀ v, compare leD (code fl r) (code fl s) e = some v → Describes v (x ≤ y)) ∧
    (∀ v, compare geD (code fl r) (code fl s) e = some v → Describes v (x ≥ y)) ∧
    (∀ v, compare eqD (code fl r) (code fl s) e = some v → Describes v (x = y)) ∧
    (∀ v, compare neD (code fl r) (code fl s) e = some v → Describes v (x ≠ y)) ∧
    ∀ v, checkSgn (code fl r) e = some v → (v = .true_ → 0 < x) ∧ (v = .false_ → x < 0) := by
  obtain ⟨X, hX⟩ := Option.isSome_iff_exists.1 h1
  obtain ⟨Y, hY⟩ := Option.isSome_iff_exists.1 h2
  obtain ⟨eX, cX⟩ := (C77_sound fl r x hr hx).2 e X hX
  obtain ⟨eY, cY⟩ := (C77_sound fl s y hs hy).2 e Y hY
  obtain ⟨c1, c2, c3, c4, c5, c6, c7, c8⟩ := comparisons_sound cX cY
  simp only [compare, checkSgn, eX, eY, Option.bind_some, Option.map_some, Option.some.injEq]
  refine ⟨?_, ?_, ?_, ?_, ?_, ?_, ?_⟩ <;> rintro v rfl
  · exact c1
  · exact c2
  · exact c3
  · exact c4
  · exact c5
  · exact c6
  · exact ⟨c7, c8⟩

/-- C77: comparisons of different numbers, whose bounds converge, are decided by all large efforts. -/
theorem C77_comparisons_decided (A B : Ev) (x y : ℝ) (hA : Converges A.dy x) (hB : Converges B.dy y) (h : x < y) :
    ∃ N, ∀ e ≥ N, compare ltD A B e = some .true_ ∧ compare gtD A B e = some .false_ ∧ compare leD A B e = some .true_ ∧
      compare geD A B e = some .false_ ∧ compare eqD A B e = some .false_ ∧ compare neD A B e = some .true_ ∧
      compare ltD B A e = some .false_ ∧ compare gtD B A e = some .true_ ∧ compare leD B A e = some .false_ ∧
      compare geD B A e = some .true_ ∧ compare eqD B A e = some .false_ ∧ compare neD B A e = some .true_ := by
  obtain ⟨N, hN⟩ := hA ((y - x) / 2) (by linarith)
  obtain ⟨M, hM⟩ := hB ((y - x) / 2) (by linarith)
  refine ⟨max N M, fun e he => ?_⟩
  obtain ⟨X, eX, l, u, rfl, h1, h2⟩ := hN e ((le_max_left _ _).trans he)
  obtain ⟨Y, eY, l', u', rfl, h3, h4⟩ := hM e ((le_max_right _ _).trans he)
  rw [abs_lt] at h1 h2 h3 h4
  have a1 : u < l' := by linarith
  have a2 : l < u' := by linarith
  simp [compare, eX, eY, ltD, gtD, leD, geD, eqD, neD, Ext.lt, Ext.le, a1, a1.le, a2, a2.le, not_le.2 a2, not_le.2 a1,
    not_lt.2 a1.le, not_lt.2 a2.le]

/-- C77: the sign of a nonzero number, whose bounds converge, is decided by all large efforts. -/
theorem C77_sign_decided (A : Ev) (x : ℝ) (hA : Converges A.dy x) :
    (0 < x → ∃ N, ∀ e ≥ N, checkSgn A e = some .true_) ∧ (x < 0 → ∃ N, ∀ e ≥ N, checkSgn A e = some .false_) := by
  constructor
  · intro h
    obtain ⟨N, hN⟩ := hA x h
    refine ⟨N, fun e he => ?_⟩
    obtain ⟨X, eX, l, u, rfl, h1, h2⟩ := hN e he
    rw [abs_lt] at h1 h2
    have a1 : 0 < l := by linarith
    simp [checkSgn, eX, sgnD, Ext.lt, a1]
  · intro h
    obtain ⟨N, hN⟩ := hA (-x) (by linarith)
    refine ⟨N, fun e he => ?_⟩
    obtain ⟨X, eX, l, u, rfl, h1, h2⟩ := hN e he
    rw [abs_lt] at h1 h2
    have a1 : u < 0 := by linarith
    have a2 : l < 0 := by linarith
    simp [checkSgn, eX, sgnD, Ext.lt, a1, not_lt.2 a2.le]

/-- C77: `same` only holds for equal numbers. -/
theorem C77_same (fl : Floats) (r s : Re) (x y : ℝ) (hr : r.Sound fl) (hs : s.Sound fl) (hx : Denotes r x)
    (hy : Denotes s y) (h1 : ((clean fl r).flt .dp 53).isSome) (h2 : ((clean fl s).flt .dp 53).isSome)
    (h : same (code fl r) (code fl s) = some true) : x = y := by
  obtain ⟨X, hX⟩ := Option.isSome_iff_exists.1 h1
  obtain ⟨Y, hY⟩ := Option.isSome_iff_exists.1 h2
  obtain ⟨eX, cX⟩ := (C77_sound fl r x hr hx).1 _ _ X hX
  obtain ⟨eY, cY⟩ := (C77_sound fl s y hs hy).1 _ _ Y hY
  simp only [same, eX, eY, Option.bind_some, Option.map_some, Option.some.injEq, Bool.and_eq_true] at h
  obtain ⟨l, u⟩ := X
  obtain ⟨l', u'⟩ := Y
  obtain ⟨hl, hu⟩ := cX
  obtain ⟨hl', hu'⟩ := cY
  rcases l with - | l | - | - <;> rcases u with - | u | - | - <;> rcases l' with - | l' | - | - <;>
    rcases u' with - | u' | - | - <;> simp_all [Ext.eq, IsLower, IsUpper]
  obtain ⟨h3, h4⟩ := h
  subst h3 h4
  linarith

/-! ## Nondeterministic choice -/

/-- C77: `nondeterministic_greater(r,a,b)` returns true only for numbers greater than `a`, and false only for numbers less
than `b`, as long as no NaN arises. -/
theorem C77_nondeterministic_greater (fl : Floats) (r : Re) (x a b : ℝ) (hs : r.Sound fl) (hx : Denotes r x)
    (hn : ∀ e, ((clean fl r).dy e).isSome) (v : Bool) (h : Greater (code fl r).dy a b v) :
    (v = true → a < x) ∧ (v = false → x < b) := by
  obtain ⟨k, hk⟩ := h
  generalize 0 = e at hk
  induction k generalizing e with
  | zero => simp [greaterLoop] at hk
  | succ k ih =>
    simp only [greaterLoop] at hk
    obtain ⟨X, hX⟩ := Option.isSome_iff_exists.1 (hn e)
    obtain ⟨eX, cX⟩ := (C77_sound fl r x hs hx).2 e X hX
    rw [eX, Option.bind_some] at hk
    by_cases c : Ext.lt (fin a) X.l = true
    · rw [if_pos c] at hk
      obtain rfl := Option.some.inj hk
      exact ⟨fun _ => lt_sound (u := fin a) c (le_refl a) cX.1, by simp⟩
    · rw [if_neg c] at hk
      by_cases c' : Ext.lt X.u (fin b) = true
      · rw [if_pos c'] at hk
        obtain rfl := Option.some.inj hk
        exact ⟨by simp, fun _ => lt_sound (l := fin b) c' cX.2 (le_refl b)⟩
      · rw [if_neg c'] at hk
        exact ih _ hk

/-- C77: `nondeterministic_greater(r,a,b)` with `a < b` terminates, if the bounds converge and no exception is thrown. -/
theorem C77_nondeterministic_greater_terminates (d : ℕ → Option (Bounds ℝ)) (x a b : ℝ) (hab : a < b)
    (hc : Converges d x) (hs : ∀ e, (d e).isSome) : ∃ v, Greater d a b v := by
  obtain ⟨N, hN⟩ := hc ((b - a) / 2) (by linarith)
  have key : ∀ n e, N ≤ e + n → ∃ k v, greaterLoop d a b k e = some v := by
    intro n
    induction n with
    | zero =>
      intro e he
      obtain ⟨X, eX, l, u, rfl, h1, h2⟩ := hN e (by omega)
      rw [abs_lt] at h1 h2
      by_cases c : Ext.lt (fin a) (fin l) = true
      · exact ⟨1, true, by simp only [greaterLoop, eX, Option.bind_some]; rw [if_pos c]⟩
      · have c' : Ext.lt (fin u) (fin b) = true := by
          simp only [Ext.lt, decide_eq_true_eq, not_lt] at c ⊢
          linarith
        exact ⟨1, false, by simp only [greaterLoop, eX, Option.bind_some]; rw [if_neg c, if_pos c']⟩
    | succ n ih =>
      intro e he
      obtain ⟨X, eX⟩ := Option.isSome_iff_exists.1 (hs e)
      by_cases c : Ext.lt (fin a) X.l = true
      · exact ⟨1, true, by simp only [greaterLoop, eX, Option.bind_some]; rw [if_pos c]⟩
      · by_cases c' : Ext.lt X.u (fin b) = true
        · exact ⟨1, false, by simp only [greaterLoop, eX, Option.bind_some]; rw [if_neg c, if_pos c']⟩
        · obtain ⟨k, v, hk⟩ := ih (e + 1) (by omega)
          exact ⟨k + 1, v, by simp only [greaterLoop, eX, Option.bind_some]; rw [if_neg c, if_neg c', hk]⟩
  obtain ⟨k, v, h⟩ := key N 0 (by omega)
  exact ⟨v, k, h⟩

/-! ## Lower and upper reals -/

/-- C77: a `LowerReal` gives lower bounds and an `UpperReal` upper bounds, which converge if the bounds of the number do. -/
theorem C77_lower_upper (fl : Floats) (r : Re) (x : ℝ) (hs : r.Sound fl) (hx : Denotes r x) (e : ℕ)
    (hn : ((clean fl r).dy e).isSome) :
    (∀ l, lowerGet (code fl r) e = some l → IsLower l x) ∧ ∀ u, upperGet (code fl r) e = some u → IsUpper u x := by
  obtain ⟨X, hX⟩ := Option.isSome_iff_exists.1 hn
  obtain ⟨eX, cX⟩ := (C77_sound fl r x hs hx).2 e X hX
  constructor
  · intro l hl
    simp only [lowerGet, eX, Option.map_some, Option.some.injEq] at hl
    subst hl; exact cX.1
  · intro l hl
    simp only [upperGet, eX, Option.map_some, Option.some.injEq] at hl
    subst hl; exact cX.2

/-! ## Limits of sequences of real numbers -/

/-- C77: the dyadic bounds of a limit converge if the bounds of the sequence converge along the diagonal. -/
theorem C77_limit (fl : Floats) (s : ℕ → Re) (y : ℕ → ℝ) (x : ℝ) (hc : FastCauchy y) (ht : Tendsto y atTop (𝓝 x))
    (hd : ∀ ε > 0, ∃ N, ∀ e ≥ N, ∃ b, (code fl (s (e + 1))).dy e = some b ∧ Within (y (e + 1)) ε b) :
    Converges (code fl (.limR s)).dy x := by
  intro ε hε
  obtain ⟨N, hN⟩ := hd (ε / 3) (by linarith)
  have t : ∀ᶠ e : ℕ in atTop, twoNeg (e + 1) < ε / 3 := tendsto_twoNeg.eventually_lt_const (by linarith)
  obtain ⟨M, hM⟩ := eventually_atTop.1 t
  refine ⟨max N M, fun e he => ?_⟩
  obtain ⟨b, hb, l, u, rfl, h1, h2⟩ := hN e ((le_max_left _ _).trans he)
  have h3 := hM e ((le_max_right _ _).trans he)
  have h4 := abs_le.1 (hc.dist_le ht (e + 1))
  have h5 := twoNeg_pos (e + 1)
  refine ⟨⟨fin (l + -twoNeg (e + 1)), fin (u + twoNeg (e + 1))⟩, ?_, _, _, rfl, ?_, ?_⟩
  · show (((code fl (s (e + 1))).dy e).bind fun x => chk false (pmD x (twoNeg (e + 1)))) = _
    rw [hb, Option.bind_some, chk_false]; rfl
  · rw [abs_lt] at h1 ⊢; constructor <;> linarith
  · rw [abs_lt] at h2 ⊢; constructor <;> linarith

theorem xorTerm_big {n : ℕ} (h1 : 1 ≤ n) (h2 : n ≤ 2 ^ 31) : 2 ^ 31 ≤ xorTerm n := by
  have e : (2 ^ 32 - n % 2 ^ 32) % 2 ^ 32 = 2 ^ 32 - n := by
    rw [Nat.mod_eq_of_lt (a := n) (by omega), Nat.mod_eq_of_lt (by omega)]
  unfold xorTerm
  rw [e]
  have hb : (2 ^ 32 - n).testBit 31 = true := by
    rw [Nat.testBit_eq_decide_div_mod_eq]
    have : (2 ^ 32 - n) / 2 ^ 31 = 1 := by omega
    rw [this]; decide
  apply Nat.ge_two_pow_of_testBit
  show (2 ^^^ (2 ^ 32 - n)).testBit 31 = true
  rw [Nat.testBit_xor, hb]; decide

/-- C77: the upper bounds of a limit of real numbers in floating-point arithmetic exceed the lower bound by `2^31`, for every
effort which can occur: `+two^(-n)` is not the power of two.  They are therefore sound, but no arithmetic with the limit ever
becomes accurate. -/
theorem C77_limit_float_wrong (fl : Floats) (s : ℕ → Re) (pr : Prec) (e : ℕ) (he : e < 2 ^ 31) (b : Bounds ℝ)
    (y : ℝ) (hs : ∀ c, (code fl (s (e + 1))).flt pr e = some c → c.Contains y)
    (h : (code fl (.limR s)).flt pr e = some b) : IsUpper b.u (y + 2 ^ 31) := by
  obtain ⟨X, hX, h2⟩ := Option.bind_eq_some_iff.1 h
  simp only [Bool.false_and, Bool.false_eq_true, if_false, chk_false, Option.some.injEq] at h2
  subst h2
  have := xorTerm_big (n := e + 1) (by omega) (by omega)
  have h3 : IsUpper ((fl pr).up (xorTerm (e + 1) : ℝ)) (2 ^ 31) := (fl pr).up_of_le (by exact_mod_cast this)
  exact Ariadne.add_up _ (hs X hX).2 h3

end Verif.RealNumber
