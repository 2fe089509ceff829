import Verif.HybridEvolver.Real
import Verif.Enclosure.Examples
import Mathlib.Topology.Order.IntermediateValue

/-!
# Operations for which the assumptions of C74 hold

Arithmetic without rounding, and a solver which returns the relation between a point and the zeros above it if the
signs at the ends of the interval guarantee a zero.
-/

namespace Verif.HybridEvolver

open Ariadne Ariadne.Logical Verif.ConstraintSolver Verif.Enclosure Verif.Evolver
open Ariadne.Ext (fin)

variable {L Ev : Type*} {dim : L → ℕ} {n m k : ℕ} {K : Type*} [Field K] [LinearOrder K] [IsStrictOrderedRing K]

/-- The values of a function scaled by a number. -/
def scaleIvl (c : K) : Bounds K → Bounds K
  | ⟨.fin a, .fin b⟩ => if 0 ≤ c then between (a * c) (b * c) else between (b * c) (a * c)
  | _ => line

theorem scaleIvl_contains {c a : K} {b : Bounds K} (h : b.Contains a) : (scaleIvl c b).Contains (a * c) := by
  obtain ⟨l, u⟩ := b
  cases l <;> cases u <;> try exact line_contains _
  simp only [scaleIvl]
  have h1 : _ ≤ a := h.1
  have h2 : a ≤ _ := h.2
  split_ifs with hc
  · exact ⟨mul_le_mul_of_nonneg_right h1 hc, mul_le_mul_of_nonneg_right h2 hc⟩
  · exact ⟨mul_le_mul_of_nonpos_right h2 (not_le.1 hc).le, mul_le_mul_of_nonpos_right h1 (not_le.1 hc).le⟩

/-- Operations without rounding for functions without errors. -/
def exact (K : Type*) [Field K] [LinearOrder K] [IsStrictOrderedRing K] : Calc K where
  coord _ i := ⟨fun p y => y = p i, fun B => B i, fun p y h B hB => by rw [h]; exact hB i⟩
  const _ c := ⟨fun _ y => y = c, fun _ => between c c, fun p y h B hB => by rw [h]; exact ⟨le_rfl, le_rfl⟩⟩
  create _ f := f
  compose _ h g := ⟨fun p y => ∃ x, (∀ i, (g i).has p (x i)) ∧ h.has x y, fun B => h.ev fun i => (g i).ev B,
    fun p _ ⟨x, h1, h2⟩ B hB => h.ok x _ h2 _ fun i => (g i).ok p _ (h1 i) B hB⟩
  partialEval f c := ⟨fun x y => f.has (ext x c) y, fun B => f.ev (ext B (between c c)),
    fun _ y h B hB => f.ok _ y h _ (mem_ext.2 ⟨hB, le_rfl, le_rfl⟩)⟩
  embed k f := embedP k f
  embedLeft k f := ⟨fun r y => f.has (fun i => r (Fin.natAdd k i)) y, fun B => f.ev fun i => B (Fin.natAdd k i),
    fun _ y h B hB => f.ok _ y h _ fun i => hB (Fin.natAdd k i)⟩
  restrict _ f := f
  add f g := ⟨fun p y => ∃ a b, f.has p a ∧ g.has p b ∧ y = a + b, fun B => Bounds.add (XE K) (f.ev B) (g.ev B),
    fun p y ⟨a, b, h1, h2, e⟩ B hB => by
      rw [e]; exact Bounds.C05_add _ (f.ok p a h1 B hB) (g.ok p b h2 B hB)⟩
  sub f g := ⟨fun p y => ∃ a b, f.has p a ∧ g.has p b ∧ y = a - b, fun B => Bounds.sub (XE K) (f.ev B) (g.ev B),
    fun p y ⟨a, b, h1, h2, e⟩ B hB => by
      rw [e]; exact Bounds.C05_sub _ (f.ok p a h1 B hB) (g.ok p b h2 B hB)⟩
  addBounds f b := ⟨fun p y => ∃ a c, f.has p a ∧ b.Contains c ∧ y = a + c, fun B => Bounds.add (XE K) (f.ev B) b,
    fun p y ⟨a, c, h1, h2, e⟩ B hB => by rw [e]; exact Bounds.C05_add _ (f.ok p a h1 B hB) h2⟩
  scale f c := ⟨fun p y => ∃ a, f.has p a ∧ y = a * c, fun B => scaleIvl c (f.ev B),
    fun p y ⟨a, h, e⟩ B hB => by rw [e]; exact scaleIvl_contains (f.ok p a h B hB)⟩
  error _ := 0
  clobber f := f
  range D f := f.ev D
  slope _ _ _ := 1
  hull _ _ B := B
  fuel := 3

theorem exact_sound : (exact K).Sound where
  coord _ _ := rfl
  const _ _ := rfl
  create _ h := h
  compose _ h1 h2 := ⟨_, h1, h2⟩
  partialEval h := h
  embed q h := (embedP_has _ _ q _).2 h
  embedLeft q h := by simpa [exact] using h
  embed_inv h := (embedP_has _ _ _ _).1 h
  embedLeft_inv h := by simpa [exact] using h
  restrict _ h := h
  add h1 h2 := ⟨_, _, h1, h2, rfl⟩
  sub h1 h2 := ⟨_, _, h1, h2, rfl⟩
  addBounds h1 h2 := ⟨_, _, h1, h2, rfl⟩
  scale h := ⟨_, h, rfl⟩
  clobber {n f p y} h := ⟨y, h, by simp [exact]⟩
  clobber_embed q h := (embedP_has _ _ q _).2 h
  error_embed _ _ := rfl
  range h1 h2 := Patch.ok _ _ _ h2 _ h1
  hull h _ _ := h

/-- The product of two intervals with finite ends. -/
def mulIvl : Bounds K → Bounds K → Bounds K
  | ⟨.fin a, .fin b⟩, ⟨.fin c, .fin d⟩ => Bounds.mul (XE K) (between a b) (between c d)
  | _, _ => line

theorem mulIvl_contains {F G : Bounds K} {a b : K} (h1 : F.Contains a) (h2 : G.Contains b) : (mulIvl F G).Contains (a * b) := by
  obtain ⟨a1, a2⟩ := F
  obtain ⟨b1, b2⟩ := G
  cases a1 <;> cases a2 <;> cases b1 <;> cases b2 <;>
    first | exact line_contains _ | exact Bounds.C05_mul _ ⟨⟨_, rfl⟩, _, rfl⟩ ⟨⟨_, rfl⟩, _, rfl⟩ h1 h2

/-- The product of two functions. -/
def mulP (f g : Patch n K) : Patch n K where
  has p y := ∃ a b, f.has p a ∧ g.has p b ∧ y = a * b
  ev B := mulIvl (f.ev B) (g.ev B)
  ok p y h B hB := by
    obtain ⟨a, b, h1, h2, rfl⟩ := h
    exact mulIvl_contains (f.ok p a h1 B hB) (g.ok p b h2 B hB)

/-- The beginning of the part of an interval in which there may be zeros: the first quarter is left out if the
function is negative there. -/
def trim (F : Patch (m + 1) K) (D : Box m K) (a b : K) : K :=
  if Ext.lt (F.ev (ext D (between a (a + (b - a) / 4)))).u (fin 0) then a + (b - a) / 4 else a

/-- A solver: if the function is not positive at the beginning of the interval and not negative at its end then the
zeros above a point are returned. -/
def signSolve (F : Patch (m + 1) K) (D : Box m K) : Bounds K → Solved m K
  | ⟨.fin a, .fin b⟩ =>
    if 0 ≤ a ∧ a ≤ b ∧ Ext.le (F.ev (ext D (between a a))).u (fin 0) = true ∧
        Ext.le (fin 0) (F.ev (ext D (between b b))).l = true then
      .ok ⟨fun x y => trim F D a b ≤ y ∧ y ≤ b ∧ F.has (ext x y) 0, fun _ => between (trim F D a b) b,
        fun _ _ h _ _ => ⟨h.1, h.2.1⟩⟩
    else .failed
  | _ => .failed

/-- The functions of time have the intermediate value property from zero on. -/
def Crosses (Reg : (K → K) → Prop) : Prop :=
  ∀ v, Reg v → ∀ a b, 0 ≤ a → a ≤ b → v a ≤ 0 → 0 ≤ v b → ∃ y, a ≤ y ∧ y ≤ b ∧ v y = 0

theorem signSolve_some {F : Patch (m + 1) K} {D : Box m K} {a b : K} {f : Patch m K}
    (h : signSolve F D (between a b) = .ok f) :
    (0 ≤ a ∧ a ≤ b ∧ Ext.le (F.ev (ext D (between a a))).u (fin 0) = true ∧
        Ext.le (fin 0) (F.ev (ext D (between b b))).l = true) ∧
      (∀ x y, f.has x y ↔ trim F D a b ≤ y ∧ y ≤ b ∧ F.has (ext x y) 0) ∧ ∀ B, f.ev B = between (trim F D a b) b := by
  by_cases hc : 0 ≤ a ∧ a ≤ b ∧ Ext.le (F.ev (ext D (between a a))).u (fin 0) = true ∧
      Ext.le (fin 0) (F.ev (ext D (between b b))).l = true
  · have h' := (if_pos hc).symm.trans h
    obtain rfl := Solved.ok.inj h'
    exact ⟨hc, fun _ _ => Iff.rfl, fun _ => rfl⟩
  · have h' := (if_neg hc).symm.trans h
    cases h'

theorem trim_le {F : Patch (m + 1) K} {D : Box m K} {a b : K} {x} (hx : Mem D x) {y : K} (h0 : a ≤ y)
    (hy : F.has (ext x y) 0) : trim F D a b ≤ y := by
  rw [trim]
  split_ifs with hc
  · by_contra hn
    exact lt_irrefl _ (lt_sound_upper hc (F.ok _ _ hy _ (mem_ext.2 ⟨hx, h0, (not_le.1 hn).le⟩)))
  · exact h0

theorem signSolve_ok {Reg : (K → K) → Prop} (hR : Crosses Reg) {F : Patch (m + 1) K} {D : Box m K} {a b : K} {f : Patch m K}
    (h : signSolve F D (between a b) = .ok f) (x) (hx : Mem D x) (v) (hv : Reg v)
    (hF : ∀ y, a ≤ y → y ≤ b → F.has (ext x y) (v y)) :
    (∃ y, a ≤ y ∧ y ≤ b ∧ v y = 0 ∧ f.has x y) ∧ ∀ y, a ≤ y → y ≤ b → v y = 0 → f.has x y := by
  obtain ⟨⟨h1, h2, h3, h4⟩, h5, -⟩ := signSolve_some h
  have key : ∀ y, a ≤ y → y ≤ b → v y = 0 → f.has x y :=
    fun y y0 y1 e => (h5 x y).2 ⟨trim_le hx y0 (e ▸ hF y y0 y1), y1, e ▸ hF y y0 y1⟩
  refine ⟨?_, key⟩
  obtain ⟨y, y0, y1, e⟩ := hR v hv a b h1 h2
    (le_sound_upper h3 (F.ok _ _ (hF a le_rfl h2) _ (mem_ext.2 ⟨hx, le_rfl, le_rfl⟩)))
    (le_sound_lower h4 (F.ok _ _ (hF b h2 le_rfl) _ (mem_ext.2 ⟨hx, le_rfl, le_rfl⟩)))
  exact ⟨y, y0, y1, e, key y y0 y1 e⟩

/-- Line 1881 without rounding. -/
def alphaE (h : K) : Ext K → Ext K → K
  | .fin d, .fin g => 1 + h * d / g
  | _, _ => 2

/-- Half of the width. -/
def radE : Bounds K → K
  | ⟨.fin a, .fin b⟩ => (b - a) / 2
  | _ => 1

/-- The tools. -/
def exactTools (K : Type*) [Field K] [LinearOrder K] [IsStrictOrderedRing K] (final : Bounds K) (steps : ℕ) : Tools K where
  X := XE K
  C := exact K
  up := id
  rad := radE
  radius B := (List.finRange _).foldl (fun s i => Ext.max s (fin (radE (B i)))) (fin 0)
  kuhn E := E
  mul := mulP
  implicit := signSolve
  alpha := alphaE
  errorTolerance := 1
  maximumRadius := 1000
  maximumError := 1
  reconditioning := true
  subdivisions := true
  upper := true
  strict := true
  final := final
  maximumSteps := steps
  halvings := 100

theorem exactTools_ok {Reg : (K → K) → Prop} (hR : Crosses Reg) (b : Bounds K) (N : ℕ) :
    (exactTools K b N).Ok TaylorModel.exactRounding Reg where
  round := rfl
  sound := exact_sound
  hull_fin _ _ _ h := h
  mul h1 h2 := ⟨_, _, h1, h2, rfl⟩
  kuhn {m E p x t d} h := ⟨p, d, h⟩
  implicit := signSolve_ok hR
  implicit_range {m F D h f} hf := by
    obtain ⟨hc, -, h5⟩ := signSolve_some (F := F) (D := D) hf
    refine ⟨h, congrArg Bounds.u (h5 D), ?_⟩
    linarith [hc.2.1]
  alpha h d g hh hg ha := by
    have ha : alphaE h d g < 1 := ha
    have h2 : ¬ (2 : K) < 1 := by norm_num
    obtain ⟨d, rfl⟩ : ∃ d', d = fin d' := by
      cases d with
      | fin d => exact ⟨d, rfl⟩
      | _ => exact absurd ha h2
    obtain ⟨g, rfl⟩ : ∃ g', g = fin g' := by
      cases g with
      | fin g => exact ⟨g, rfl⟩
      | _ => exact absurd ha h2
    have hg : g < 0 := of_decide_eq_true hg
    have ha : 1 + h * d / g < 1 := ha
    have : h * d / g < 0 := by linarith
    rw [div_neg_iff] at this
    refine decide_eq_true ?_
    rcases this with ⟨h3, -⟩ | ⟨-, h3⟩
    · exact ((mul_pos_iff_of_pos_left hh).1 h3).le
    · linarith

theorem exactTools_creepOk {Reg : (K → K) → Prop} (hR : Crosses Reg) (hZ : FirstZero Reg) (b : Bounds K) (N : ℕ) :
    (exactTools K b N).CreepOk L Ev dim Reg := creepOk_of_keeps (exactTools_ok hR b N) hZ fun h => h

/-! ## Functions of time -/

/-- Affine functions of time. -/
def Affine (v : K → K) : Prop := ∃ a b, ∀ y, v y = a * y + b

theorem affine_crosses : Crosses (K := K) Affine := by
  rintro v ⟨c, d, h⟩ a b - hab h1 h2
  rw [h] at h1 h2
  rcases eq_or_lt_of_le hab with rfl | hab
  · exact ⟨a, le_rfl, le_rfl, by rw [h]; exact le_antisymm h1 h2⟩
  rcases eq_or_ne c 0 with rfl | hc
  · refine ⟨a, le_rfl, hab.le, ?_⟩
    rw [h]
    linarith
  have hc : 0 < c := by
    rcases lt_or_gt_of_ne hc with hc | hc
    · have := mul_lt_mul_of_neg_left hab hc
      linarith
    · exact hc
  refine ⟨-d / c, ?_, ?_, ?_⟩
  · rw [le_div_iff₀ hc]; linarith
  · rw [div_le_iff₀ hc]; linarith
  · rw [h]; field_simp; ring

theorem affine_first : FirstZero (K := K) Affine := by
  rintro v ⟨c, d, h⟩ a b y - h1 h2 h3
  rcases eq_or_ne c 0 with rfl | hc
  · refine ⟨a, le_rfl, h1.trans h2, ?_, fun _ h _ _ => h⟩
    rw [h] at h3 ⊢
    linarith
  · refine ⟨y, h1, h2, h3, fun z _ _ hz => le_of_eq ?_⟩
    rw [h] at h3 hz
    have : c * y = c * z := by linarith
    exact mul_left_cancel₀ hc this

/-- Continuous functions of time. -/
abbrev Cont (v : ℝ → ℝ) : Prop := ContinuousOn v (Set.Ici 0)

theorem cont_crosses : Crosses Cont := by
  intro v hv a b ha hab h1 h2
  obtain ⟨y, hy, e⟩ := intermediate_value_Icc hab (hv.mono fun x hx => Set.mem_Ici.2 (ha.trans hx.1)) ⟨h1, h2⟩
  exact ⟨y, hy.1, hy.2, e⟩

theorem cont_first : FirstZero Cont := by
  intro v hv a b y ha h1 h2 h3
  have hc : IsCompact (Set.Icc a b ∩ v ⁻¹' {0}) := by
    have := (hv.mono (s := Set.Ici 0) (t := Set.Icc a b) fun x hx => Set.mem_Ici.2 (ha.trans hx.1)).preimage_isClosed_of_isClosed
      isClosed_Icc (isClosed_singleton (x := (0 : ℝ)))
    exact isCompact_Icc.of_isClosed_subset this Set.inter_subset_left
  obtain ⟨z, hz, hl⟩ := hc.exists_isLeast ⟨y, ⟨h1, h2⟩, h3⟩
  exact ⟨z, hz.1.1, hz.1.2, hz.2, fun w w0 w1 hw => hl ⟨⟨w0, w1⟩, hw⟩⟩

/-- The assumptions on the tools hold over the real numbers for continuous functions of time. -/
example (b : Bounds ℝ) (N : ℕ) : (exactTools ℝ b N).Ok TaylorModel.exactRounding Cont ∧ (exactTools ℝ b N).CreepOk L Ev dim Cont :=
  ⟨exactTools_ok cont_crosses b N, exactTools_creepOk cont_crosses cont_first b N⟩

end Verif.HybridEvolver
