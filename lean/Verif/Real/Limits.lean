import Verif.Real.Spec
import Verif.Rounding.Props

/-!
# Convergence of bounds, in terms of filters
-/

namespace Verif.RealNumber

open Ariadne (Ext Bounds XRounding)
open Ariadne.Ext (fin)
open Filter Topology

variable {ι : Type*} {F : Filter ι}

/-- Convergence of endpoints. -/
def nE (x : ℝ) : Filter (Ext ℝ) := (𝓝 x).map fin

/-- Convergence of bounds. -/
def nB (x : ℝ) : Filter (Bounds ℝ) := (𝓝 x ×ˢ 𝓝 x).map fun q => ⟨fin q.1, fin q.2⟩

theorem tendsto_nE {f : ι → Ext ℝ} {x : ℝ} :
    Tendsto f F (nE x) ↔ ∃ g : ι → ℝ, f =ᶠ[F] (fun i => fin (g i)) ∧ Tendsto g F (𝓝 x) := by
  constructor
  · intro h
    have hr : Set.range (fin : ℝ → Ext ℝ) ∈ nE x := by
      unfold nE; exact mem_map.2 (Eventually.of_forall fun y => ⟨y, rfl⟩)
    have he := h.eventually hr
    refine ⟨fun i => match f i with | .fin y => y | _ => 0, ?_, ?_⟩
    · filter_upwards [he] with i ⟨y, hy⟩
      simp [← hy]
    · rw [tendsto_def]
      intro s hs
      have h2 : fin '' s ∈ nE x := image_mem_map hs
      filter_upwards [h h2] with i ⟨y, hy, e⟩
      simp [← e, hy]
  · rintro ⟨g, e, hg⟩
    refine Tendsto.congr' e.symm ?_
    exact tendsto_map.comp hg

theorem nE_fin {g : ι → ℝ} {x : ℝ} (h : Tendsto g F (𝓝 x)) : Tendsto (fun i => fin (g i)) F (nE x) :=
  tendsto_map.comp h

theorem tendsto_nB {B : ι → Bounds ℝ} {x : ℝ} :
    Tendsto B F (nB x) ↔ Tendsto (fun i => (B i).l) F (nE x) ∧ Tendsto (fun i => (B i).u) F (nE x) := by
  constructor
  · intro h
    constructor
    · have : Tendsto (fun b : Bounds ℝ => b.l) (nB x) (nE x) := by
        unfold nB nE; rw [tendsto_map'_iff]; exact tendsto_map.comp tendsto_fst
      exact this.comp h
    · have : Tendsto (fun b : Bounds ℝ => b.u) (nB x) (nE x) := by
        unfold nB nE; rw [tendsto_map'_iff]; exact tendsto_map.comp tendsto_snd
      exact this.comp h
  · rintro ⟨h1, h2⟩
    obtain ⟨l, e1, t1⟩ := tendsto_nE.1 h1
    obtain ⟨u, e2, t2⟩ := tendsto_nE.1 h2
    have : B =ᶠ[F] fun i => ⟨fin (l i), fin (u i)⟩ := by
      filter_upwards [e1, e2] with i a b
      rw [← a, ← b]
    refine Tendsto.congr' this.symm ?_
    unfold nB
    exact tendsto_map.comp (t1.prodMk t2)

theorem nB_basis (x : ℝ) : (nB x).HasBasis (fun ε : ℝ => 0 < ε) (fun ε => {B | Within x ε B}) := by
  have h := ((Metric.nhds_basis_ball (x := x)).prod_self).map (fun q : ℝ × ℝ => (⟨fin q.1, fin q.2⟩ : Bounds ℝ))
  refine h.congr (fun _ => Iff.rfl) ?_
  intro ε _
  ext B
  simp only [Set.mem_image, Set.mem_prod, Metric.mem_ball, Real.dist_eq, Set.mem_setOf_eq, Within]
  constructor
  · rintro ⟨⟨l, u⟩, ⟨h1, h2⟩, rfl⟩; exact ⟨l, u, rfl, h1, h2⟩
  · rintro ⟨l, u, rfl, h1, h2⟩; exact ⟨⟨l, u⟩, ⟨h1, h2⟩, rfl⟩

theorem nE_basis (x : ℝ) : (nE x).HasBasis (fun ε : ℝ => 0 < ε) (fun ε => {b | ∃ y, b = fin y ∧ |y - x| < ε}) := by
  have h := (Metric.nhds_basis_ball (x := x)).map (fin : ℝ → Ext ℝ)
  refine h.congr (fun _ => Iff.rfl) ?_
  intro ε _
  ext B
  simp only [Set.mem_image, Metric.mem_ball, Real.dist_eq, Set.mem_setOf_eq]
  constructor
  · rintro ⟨l, h1, rfl⟩; exact ⟨l, rfl, h1⟩
  · rintro ⟨l, rfl, h1⟩; exact ⟨l, h1, rfl⟩

/-! ## The specification in terms of filters -/

theorem converges_iff {d : ℕ → Option (Bounds ℝ)} {x : ℝ} :
    Converges d x ↔ Tendsto d atTop ((nB x).map some) := by
  rw [((atTop_basis (α := ℕ)).tendsto_iff ((nB_basis x).map some))]
  unfold Converges
  refine forall₂_congr fun ε _ => ?_
  constructor
  · rintro ⟨N, h⟩
    refine ⟨N, trivial, fun e he => ?_⟩
    obtain ⟨b, h1, h2⟩ := h e he
    exact ⟨b, h2, h1.symm⟩
  · rintro ⟨N, -, h⟩
    refine ⟨N, fun e he => ?_⟩
    obtain ⟨b, h2, h1⟩ := h e he
    exact ⟨b, h1.symm, h2⟩

theorem convergesMP_iff {f : Prec → ℕ → Option (Bounds ℝ)} {x : ℝ} :
    ConvergesMP f x ↔ Tendsto (fun t : ℕ × ℕ => f (.mp t.1) t.2) (atTop ×ˢ atTop) ((nB x).map some) := by
  rw [((atTop_basis (α := ℕ)).prod_self.tendsto_iff ((nB_basis x).map some))]
  unfold ConvergesMP
  refine forall₂_congr fun ε _ => ?_
  constructor
  · rintro ⟨N, h⟩
    refine ⟨N, trivial, fun t ht => ?_⟩
    obtain ⟨b, h1, h2⟩ := h t.2 ht.2 t.1 ht.1
    exact ⟨b, h2, h1.symm⟩
  · rintro ⟨N, -, h⟩
    refine ⟨N, fun e he p hp => ?_⟩
    obtain ⟨b, h2, h1⟩ := h (p, e) ⟨hp, he⟩
    exact ⟨b, h1.symm, h2⟩

theorem Op1.tight_iff {fl : Floats} {o : Op1} : o.Tight fl ↔ ∀ x y, o.val x y →
    Tendsto (fun t : ℕ × Bounds ℝ => o.ev (fl (.mp t.1)) t.2) (atTop ×ˢ nB x) (nB y) := by
  unfold Op1.Tight
  refine forall₃_congr fun x y _ => ?_
  rw [((atTop_basis (α := ℕ)).prod (nB_basis x)).tendsto_iff (nB_basis y)]
  refine forall₂_congr fun ε _ => ?_
  constructor
  · rintro ⟨N, δ, hδ, h⟩
    exact ⟨(N, δ), ⟨trivial, hδ⟩, fun t ht => h t.1 ht.1 t.2 ht.2⟩
  · rintro ⟨⟨N, δ⟩, ⟨-, hδ⟩, h⟩
    exact ⟨N, δ, hδ, fun p hp X hX => h (p, X) ⟨hp, hX⟩⟩

theorem Op2.tight_iff {fl : Floats} {o : Op2} : o.Tight fl ↔ ∀ x y z, o.val x y z →
    Tendsto (fun t : ℕ × Bounds ℝ × Bounds ℝ => o.ev (fl (.mp t.1)) t.2.1 t.2.2) (atTop ×ˢ nB x ×ˢ nB y) (nB z) := by
  unfold Op2.Tight
  refine forall₄_congr fun x y z _ => ?_
  rw [((atTop_basis (α := ℕ)).prod ((nB_basis x).prod (nB_basis y))).tendsto_iff (nB_basis z)]
  refine forall₂_congr fun ε _ => ?_
  constructor
  · rintro ⟨N, δ, hδ, h⟩
    exact ⟨(N, δ, δ), ⟨trivial, hδ, hδ⟩, fun t ht => h t.1 ht.1 _ _ ht.2.1 ht.2.2⟩
  · rintro ⟨⟨N, δ, δ'⟩, ⟨-, hδ, hδ'⟩, h⟩
    have mono : ∀ {x δ δ' X}, δ ≤ δ' → Within x δ X → Within x δ' X := by
      rintro x δ δ' X hd ⟨l, u, e, h1, h2⟩
      exact ⟨l, u, e, h1.trans_le hd, h2.trans_le hd⟩
    exact ⟨N, min δ δ', lt_min hδ hδ', fun p hp X Y hX hY =>
      h (p, X, Y) ⟨hp, mono (min_le_left _ _) hX, mono (min_le_right _ _) hY⟩⟩

theorem fine_iff {fl : Floats} : Fine fl ↔ ∀ v,
    Tendsto (fun t : ℕ × ℝ => (fl (.mp t.1)).down t.2) (atTop ×ˢ 𝓝 v) (nE v) ∧
    Tendsto (fun t : ℕ × ℝ => (fl (.mp t.1)).up t.2) (atTop ×ˢ 𝓝 v) (nE v) := by
  unfold Fine
  refine forall_congr' fun v => ?_
  have hb := (atTop_basis (α := ℕ)).prod (Metric.nhds_basis_ball (x := v))
  rw [hb.tendsto_iff (nE_basis v), hb.tendsto_iff (nE_basis v)]
  constructor
  · intro h
    constructor <;> intro ε hε <;> obtain ⟨N, δ, hδ, h'⟩ := h ε hε
    · exact ⟨(N, δ), ⟨trivial, hδ⟩, fun t ht => (h' t.1 ht.1 t.2 (by simpa [Real.dist_eq] using ht.2)).1⟩
    · exact ⟨(N, δ), ⟨trivial, hδ⟩, fun t ht => (h' t.1 ht.1 t.2 (by simpa [Real.dist_eq] using ht.2)).2⟩
  · rintro ⟨h1, h2⟩ ε hε
    obtain ⟨⟨N, δ⟩, ⟨-, hδ⟩, a⟩ := h1 ε hε
    obtain ⟨⟨N', δ'⟩, ⟨-, hδ'⟩, b⟩ := h2 ε hε
    refine ⟨max N N', min δ δ', lt_min hδ hδ', fun p hp w hw => ⟨a (p, w) ⟨?_, ?_⟩, b (p, w) ⟨?_, ?_⟩⟩⟩
    · exact (le_max_left _ _).trans hp
    · simpa [Real.dist_eq] using hw.trans_le (min_le_left _ _)
    · exact (le_max_right _ _).trans hp
    · simpa [Real.dist_eq] using hw.trans_le (min_le_right _ _)

/-! ## Operations on endpoints -/

section ext

variable {f g : ι → Ext ℝ} {x y : ℝ}

/-- A rounding which tends to the identity. -/
def FineR (F : Filter ι) (rnd : ι → ℝ → Ext ℝ) : Prop :=
  ∀ (h : ι → ℝ) (v : ℝ), Tendsto h F (𝓝 v) → Tendsto (fun i => rnd i (h i)) F (nE v)

theorem Fine.down {fl : Floats} (h : Fine fl) {p : ι → ℕ} (hp : Tendsto p F atTop) :
    FineR F fun i => (fl (.mp (p i))).down := by
  intro k v hk
  exact ((fine_iff.1 h v).1).comp (hp.prodMk hk)

theorem Fine.up {fl : Floats} (h : Fine fl) {p : ι → ℕ} (hp : Tendsto p F atTop) :
    FineR F fun i => (fl (.mp (p i))).up := by
  intro k v hk
  exact ((fine_iff.1 h v).2).comp (hp.prodMk hk)

theorem fineR_id : FineR F fun _ : ι => (fin : ℝ → Ext ℝ) := fun _ _ h => nE_fin h

variable {rnd : ι → ℝ → Ext ℝ}

theorem nE_neg (hf : Tendsto f F (nE x)) : Tendsto (fun i => (f i).neg) F (nE (-x)) := by
  obtain ⟨f', e, t⟩ := tendsto_nE.1 hf
  refine Tendsto.congr' ?_ (nE_fin t.neg)
  filter_upwards [e] with i h
  rw [h]; rfl

theorem nE_hlf (hf : Tendsto f F (nE x)) : Tendsto (fun i => (f i).hlf) F (nE (x / 2)) := by
  obtain ⟨f', e, t⟩ := tendsto_nE.1 hf
  refine Tendsto.congr' ?_ (nE_fin (t.div_const 2))
  filter_upwards [e] with i h
  rw [h]; rfl

theorem nE_add (hr : FineR F rnd) (hf : Tendsto f F (nE x)) (hg : Tendsto g F (nE y)) :
    Tendsto (fun i => Ext.add (rnd i) (f i) (g i)) F (nE (x + y)) := by
  obtain ⟨f', e, t⟩ := tendsto_nE.1 hf
  obtain ⟨g', e', t'⟩ := tendsto_nE.1 hg
  refine Tendsto.congr' ?_ (hr _ _ (t.add t'))
  filter_upwards [e, e'] with i h h'
  rw [h, h']; rfl

theorem nE_sub (hr : FineR F rnd) (hf : Tendsto f F (nE x)) (hg : Tendsto g F (nE y)) :
    Tendsto (fun i => Ext.sub (rnd i) (f i) (g i)) F (nE (x - y)) := by
  rw [sub_eq_add_neg]
  exact nE_add hr hf (nE_neg hg)

theorem nE_mul (hr : FineR F rnd) (hf : Tendsto f F (nE x)) (hg : Tendsto g F (nE y)) :
    Tendsto (fun i => Ext.mul (rnd i) (f i) (g i)) F (nE (x * y)) := by
  obtain ⟨f', e, t⟩ := tendsto_nE.1 hf
  obtain ⟨g', e', t'⟩ := tendsto_nE.1 hg
  refine Tendsto.congr' ?_ (hr _ _ (t.mul t'))
  filter_upwards [e, e'] with i h h'
  rw [h, h']; rfl

theorem nE_div (hr : FineR F rnd) (hf : Tendsto f F (nE x)) (hg : Tendsto g F (nE y)) (hy : y ≠ 0) :
    Tendsto (fun i => Ext.div (rnd i) (f i) (g i)) F (nE (x / y)) := by
  obtain ⟨f', e, t⟩ := tendsto_nE.1 hf
  obtain ⟨g', e', t'⟩ := tendsto_nE.1 hg
  refine Tendsto.congr' ?_ (hr _ _ (t.div t' hy))
  filter_upwards [e, e', t'.eventually_ne hy] with i h h' h0
  rw [h, h']
  simp [Ext.div, h0]

theorem nE_max (hf : Tendsto f F (nE x)) (hg : Tendsto g F (nE y)) :
    Tendsto (fun i => Ext.max (f i) (g i)) F (nE (max x y)) := by
  obtain ⟨f', e, t⟩ := tendsto_nE.1 hf
  obtain ⟨g', e', t'⟩ := tendsto_nE.1 hg
  refine Tendsto.congr' ?_ (nE_fin (t.max t'))
  filter_upwards [e, e'] with i h h'
  rw [h, h']
  unfold Ext.max Ext.lt
  by_cases c : f' i < g' i
  · simp [c, max_eq_right c.le]
  · simp [c, max_eq_left (not_lt.1 c)]

theorem nE_min (hf : Tendsto f F (nE x)) (hg : Tendsto g F (nE y)) :
    Tendsto (fun i => Ext.min (f i) (g i)) F (nE (min x y)) := by
  obtain ⟨f', e, t⟩ := tendsto_nE.1 hf
  obtain ⟨g', e', t'⟩ := tendsto_nE.1 hg
  refine Tendsto.congr' ?_ (nE_fin (t.min t'))
  filter_upwards [e, e'] with i h h'
  rw [h, h']
  unfold Ext.min Ext.lt
  by_cases c : g' i < f' i
  · simp [c, min_eq_right c.le]
  · simp [c, min_eq_left (not_lt.1 c)]

theorem nE_lt (hf : Tendsto f F (nE x)) (hg : Tendsto g F (nE y)) (h : x < y) :
    ∀ᶠ i in F, Ext.lt (f i) (g i) = true := by
  obtain ⟨f', e, t⟩ := tendsto_nE.1 hf
  obtain ⟨g', e', t'⟩ := tendsto_nE.1 hg
  filter_upwards [e, e', t.eventually_lt t' h] with i h h' h0
  rw [h, h']; simp [Ext.lt, h0]

theorem nE_const (x : ℝ) : Tendsto (fun _ : ι => fin x) F (nE x) := nE_fin tendsto_const_nhds

theorem nE_round (hr : FineR F rnd) (hf : Tendsto f F (nE x)) :
    Tendsto (fun i => roundExt (rnd i) (f i)) F (nE x) := by
  obtain ⟨f', e, t⟩ := tendsto_nE.1 hf
  refine Tendsto.congr' ?_ (hr _ _ t)
  filter_upwards [e] with i h
  rw [h]; rfl

end ext

end Verif.RealNumber
