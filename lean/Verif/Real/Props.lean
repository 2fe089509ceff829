import Verif.Real.Ops

/-!
# C77: real numbers
-/

namespace Verif.RealNumber

open Ariadne (Ext Bounds XRounding IsLower IsUpper Describes)
open Ariadne.Logical (LV)
open Ariadne.Ext (fin)
open Filter Topology

/-- What the code computes. -/
noncomputable abbrev code (fl : Floats) (r : Re) : Ev := r.ev fl false

/-- What the code computes, if no NaN arises. -/
noncomputable abbrev clean (fl : Floats) (r : Re) : Ev := r.ev fl true

/-! ## Soundness -/

theorem hasNaN_iff (b : Bounds ℝ) : hasNaN b = true ↔ ¬ b.NoNaN := by
  obtain ⟨l, u⟩ := b
  cases l <;> cases u <;> simp [hasNaN, Bounds.NoNaN]

theorem chk_true {b c : Bounds ℝ} (h : chk true b = some c) : b = c ∧ b.NoNaN := by
  unfold chk at h
  by_cases hn : hasNaN b = true
  · simp [hn] at h
  · simp only [hn, Bool.and_false, Bool.false_eq_true, if_false, Option.some.injEq] at h
    exact ⟨h, by rwa [hasNaN_iff, not_not] at hn⟩

theorem chk_false (b : Bounds ℝ) : chk false b = some b := by simp [chk]

theorem noNaN_of_contains {b : Bounds ℝ} {x : ℝ} (h : b.Contains x) : b.NoNaN := by
  obtain ⟨h1, h2⟩ := h
  constructor
  · intro e; rw [e] at h1; exact h1
  · intro e; rw [e] at h2; exact h2

/-- The computation of one evaluation agrees with that of the other where it is defined. -/
def Ev.Below (A B : Ev) : Prop :=
  (∀ pr e b, A.flt pr e = some b → B.flt pr e = some b) ∧ ∀ e b, A.dy e = some b → B.dy e = some b

theorem Ev.Below.get {A B : Ev} (h : A.Below B) {pr b} (hb : A.get pr = some b) : B.get pr = some b := by
  cases pr
  · exact h.1 _ _ _ hb
  · exact h.1 _ _ _ hb

theorem exprDy_of {P : Bounds ℝ → Prop} {f g : Prec → ℕ → Option (Bounds ℝ)}
    (h : ∀ pr e b, f pr e = some b → g pr e = some b ∧ P b) :
    ∀ e b, exprDy f e = some b → exprDy g e = some b ∧ P b := by
  intro e b hb
  unfold exprDy at hb ⊢
  by_cases c : e * 16 ≤ 52
  · rw [if_pos c] at hb ⊢; exact h _ _ _ hb
  · rw [if_neg c] at hb ⊢; exact h _ _ _ hb

theorem exprDy_below {f g : Prec → ℕ → Option (Bounds ℝ)} (h : ∀ pr e b, f pr e = some b → g pr e = some b) :
    ∀ e b, exprDy f e = some b → exprDy g e = some b := fun e b hb =>
  (exprDy_of (P := fun _ => True) (fun pr e b hb => ⟨h pr e b hb, trivial⟩) e b hb).1

theorem clean_below (fl : Floats) (r : Re) : (clean fl r).Below (code fl r) := by
  induction r with
  | cnst c =>
    have h : ∀ pr e b, (clean fl (.cnst c)).flt pr e = some b → (code fl (.cnst c)).flt pr e = some b := by
      intro pr e b hb
      obtain ⟨rfl, -⟩ := chk_true hb
      exact chk_false _
    exact ⟨h, exprDy_below h⟩
  | un o a ih =>
    have h : ∀ pr e b, (clean fl (.un o a)).flt pr e = some b → (code fl (.un o a)).flt pr e = some b := by
      intro pr e b hb
      obtain ⟨x, hx, h2⟩ := Option.bind_eq_some_iff.1 hb
      obtain ⟨rfl, -⟩ := chk_true h2
      exact Option.bind_eq_some_iff.2 ⟨x, ih.get hx, chk_false _⟩
    exact ⟨h, exprDy_below h⟩
  | power o a ih =>
    have h : ∀ pr e b, (clean fl (.power o a)).flt pr e = some b → (code fl (.power o a)).flt pr e = some b := by
      intro pr e b hb
      cases pr
      · obtain ⟨x, hx, h2⟩ := Option.bind_eq_some_iff.1 hb
        obtain ⟨rfl, -⟩ := chk_true h2
        exact Option.bind_eq_some_iff.2 ⟨x, ih.get hx, chk_false _⟩
      · obtain ⟨x, hx, h2⟩ := Option.bind_eq_some_iff.1 hb
        obtain ⟨rfl, -⟩ := chk_true h2
        exact Option.bind_eq_some_iff.2 ⟨x, ih.1 _ _ _ hx, chk_false _⟩
    exact ⟨h, exprDy_below h⟩
  | bin o a b iha ihb =>
    have h : ∀ pr e c, (clean fl (.bin o a b)).flt pr e = some c → (code fl (.bin o a b)).flt pr e = some c := by
      intro pr e c hc
      cases pr
      · obtain ⟨x, hx, h2⟩ := Option.bind_eq_some_iff.1 hc
        obtain ⟨y, hy, h3⟩ := Option.bind_eq_some_iff.1 h2
        obtain ⟨rfl, -⟩ := chk_true h3
        exact Option.bind_eq_some_iff.2 ⟨x, iha.get hx, Option.bind_eq_some_iff.2 ⟨y, ihb.get hy, chk_false _⟩⟩
      · obtain ⟨x, hx, h2⟩ := Option.bind_eq_some_iff.1 hc
        obtain ⟨y, hy, h3⟩ := Option.bind_eq_some_iff.1 h2
        obtain ⟨rfl, -⟩ := chk_true h3
        exact Option.bind_eq_some_iff.2 ⟨x, iha.1 _ _ _ hx, Option.bind_eq_some_iff.2 ⟨y, ihb.1 _ _ _ hy, chk_false _⟩⟩
    exact ⟨h, exprDy_below h⟩
  | limR s ih =>
    constructor
    · intro pr e b hb
      obtain ⟨x, hx, h2⟩ := Option.bind_eq_some_iff.1 hb
      by_cases c : (xorTerm (e + 1) == 0) = true
      · simp [c] at h2
      · simp only [c, Bool.and_false, Bool.false_eq_true, if_false] at h2
        obtain ⟨rfl, -⟩ := chk_true h2
        exact Option.bind_eq_some_iff.2 ⟨x, (ih _).1 _ _ _ hx, by simp [chk_false]⟩
    · intro e b hb
      obtain ⟨x, hx, h2⟩ := Option.bind_eq_some_iff.1 hb
      obtain ⟨rfl, -⟩ := chk_true h2
      exact Option.bind_eq_some_iff.2 ⟨x, (ih _).2 _ _ hx, chk_false _⟩
  | limD s =>
    constructor
    · intro pr e b hb
      obtain ⟨rfl, -⟩ := chk_true hb
      exact chk_false _
    · intro e b hb; exact hb
  | limB s =>
    constructor
    · intro pr e b hb
      obtain ⟨rfl, -⟩ := chk_true hb
      exact chk_false _
    · intro e b hb
      obtain ⟨rfl, -⟩ := chk_true hb
      exact chk_false _
  | when_ p q a b iha ihb =>
    have h : ∀ e c, (clean fl (.when_ p q a b)).dy e = some c → (code fl (.when_ p q a b)).dy e = some c := by
      intro e c hc
      simp only [clean, code, Re.ev, whenDy] at hc ⊢
      by_cases c1 : (!((p.check e).possibly) && !((q.check e).possibly)) = true
      · rw [if_pos c1] at hc; simp at hc
      · rw [if_neg c1] at hc ⊢
        by_cases c2 : (!((p.check e).possibly)) = true
        · rw [if_pos c2] at hc ⊢; exact ihb.2 _ _ hc
        · rw [if_neg c2] at hc ⊢
          by_cases c3 : (!((q.check e).possibly)) = true
          · rw [if_pos c3] at hc ⊢; exact iha.2 _ _ hc
          · rw [if_neg c3] at hc ⊢
            obtain ⟨x, hx, h2⟩ := Option.bind_eq_some_iff.1 hc
            obtain ⟨y, hy, h3⟩ := Option.bind_eq_some_iff.1 h2
            obtain ⟨rfl, -⟩ := chk_true h3
            exact Option.bind_eq_some_iff.2 ⟨x, iha.2 _ _ hx, Option.bind_eq_some_iff.2 ⟨y, ihb.2 _ _ hy, chk_false _⟩⟩
    refine ⟨?_, h⟩
    intro pr e c hc
    cases pr
    · obtain ⟨x, hx, h2⟩ := Option.bind_eq_some_iff.1 hc
      obtain ⟨rfl, -⟩ := chk_true h2
      exact Option.bind_eq_some_iff.2 ⟨x, h _ _ hx, chk_false _⟩
    · obtain ⟨x, hx, h2⟩ := Option.bind_eq_some_iff.1 hc
      obtain ⟨rfl, -⟩ := chk_true h2
      exact Option.bind_eq_some_iff.2 ⟨x, h _ _ hx, chk_false _⟩

theorem roundB_contains (R : XRounding ℝ) {b : Bounds ℝ} {x : ℝ} (h : b.Contains x) : (roundB R b).Contains x := by
  obtain ⟨l, u⟩ := b
  obtain ⟨h1, h2⟩ := h
  constructor
  · show IsLower (roundExt R.down l) x
    cases l with
    | fin a => exact R.down_of_le h1
    | _ => exact h1
  · show IsUpper (roundExt R.up u) x
    cases u with
    | fin a => exact R.up_of_le h2
    | _ => exact h2

theorem twoNeg_pos (n : ℕ) : 0 < twoNeg n := by unfold twoNeg; positivity

theorem twoNeg_eq (n : ℕ) : twoNeg n = (1 / 2 : ℝ) ^ n := by
  unfold twoNeg; rw [zpow_neg, zpow_natCast]; simp

/-- A fast converging Cauchy sequence is within `2^{-n}` of its limit. -/
theorem FastCauchy.dist_le {y : ℕ → ℝ} {x : ℝ} (h : FastCauchy y) (hx : Tendsto y atTop (𝓝 x)) (n : ℕ) :
    |x - y n| ≤ twoNeg n := by
  rw [twoNeg_eq]
  have t : Tendsto (fun m => |y m - y n|) atTop (𝓝 |x - y n|) := (hx.sub_const _).abs
  refine le_of_tendsto t ?_
  filter_upwards [eventually_ge_atTop n] with m hm
  simpa [min_eq_right hm] using h m n

theorem xorTerm_ge {n : ℕ} (h : xorTerm n ≠ 0) (hn : 1 ≤ n) : twoNeg n ≤ (xorTerm n : ℝ) := by
  have h1 : twoNeg n ≤ 1 := by
    rw [twoNeg_eq]; exact pow_le_one₀ (by norm_num) (by norm_num)
  have h2 : (1 : ℝ) ≤ xorTerm n := by exact_mod_cast Nat.one_le_iff_ne_zero.2 h
  exact h1.trans h2

/-- A clean evaluation has no NaN. -/
theorem clean_noNaN (fl : Floats) (r : Re) : (∀ pr e b, (clean fl r).flt pr e = some b → b.NoNaN) ∧
    ∀ e b, (clean fl r).dy e = some b → b.NoNaN := by
  have ex : ∀ {f : Prec → ℕ → Option (Bounds ℝ)}, (∀ pr e b, f pr e = some b → b.NoNaN) →
      ∀ e b, exprDy f e = some b → b.NoNaN := fun h e b hb =>
    (exprDy_of (P := fun b => b.NoNaN) (fun pr e b hb => ⟨hb, h pr e b hb⟩) e b hb).2
  have ck : ∀ {b c : Bounds ℝ}, chk true b = some c → c.NoNaN := by
    intro b c h; obtain ⟨rfl, hn⟩ := chk_true h; exact hn
  have bk : ∀ {o : Option (Bounds ℝ)} {f : Bounds ℝ → Bounds ℝ} {c : Bounds ℝ},
      (o.bind fun x => chk true (f x)) = some c → c.NoNaN := by
    intro o f c h; obtain ⟨x, -, h2⟩ := Option.bind_eq_some_iff.1 h; exact ck h2
  have bk2 : ∀ {o o' : Option (Bounds ℝ)} {f : Bounds ℝ → Bounds ℝ → Bounds ℝ} {c : Bounds ℝ},
      (o.bind fun x => o'.bind fun y => chk true (f x y)) = some c → c.NoNaN := by
    intro o o' f c h; obtain ⟨x, -, h2⟩ := Option.bind_eq_some_iff.1 h; exact bk h2
  induction r with
  | cnst c =>
    have h : ∀ pr e b, (clean fl (.cnst c)).flt pr e = some b → b.NoNaN := fun pr e b hb => ck hb
    exact ⟨h, ex h⟩
  | un o a ih =>
    have h : ∀ pr e b, (clean fl (.un o a)).flt pr e = some b → b.NoNaN := fun pr e b hb => bk hb
    exact ⟨h, ex h⟩
  | power o a ih =>
    have h : ∀ pr e b, (clean fl (.power o a)).flt pr e = some b → b.NoNaN := by
      intro pr e b hb; cases pr <;> exact bk hb
    exact ⟨h, ex h⟩
  | bin o a b iha ihb =>
    have h : ∀ pr e c, (clean fl (.bin o a b)).flt pr e = some c → c.NoNaN := by
      intro pr e c hc; cases pr <;> exact bk2 hc
    exact ⟨h, ex h⟩
  | limR s ih =>
    refine ⟨?_, fun e b hb => bk hb⟩
    intro pr e b hb
    obtain ⟨X, hX, h2⟩ := Option.bind_eq_some_iff.1 hb
    by_cases c : (xorTerm (e + 1) == 0) = true
    · simp [c] at h2
    · simp only [c, Bool.and_false, Bool.false_eq_true, if_false] at h2
      exact ck h2
  | limD s =>
    refine ⟨fun pr e b hb => ck hb, fun e b hb => ?_⟩
    obtain rfl := Option.some.inj hb
    exact ⟨by simp, by simp⟩
  | limB s => exact ⟨fun pr e b hb => ck hb, fun e b hb => ck hb⟩
  | when_ p q a b iha ihb =>
    have h : ∀ e c, (clean fl (.when_ p q a b)).dy e = some c → c.NoNaN := by
      intro e c hc
      simp only [clean, Re.ev, whenDy] at hc
      by_cases c1 : (!((p.check e).possibly) && !((q.check e).possibly)) = true
      · rw [if_pos c1] at hc; simp at hc
      · rw [if_neg c1] at hc
        by_cases c2 : (!((p.check e).possibly)) = true
        · rw [if_pos c2] at hc; exact ihb.2 _ _ hc
        · rw [if_neg c2] at hc
          by_cases c3 : (!((q.check e).possibly)) = true
          · rw [if_pos c3] at hc; exact iha.2 _ _ hc
          · rw [if_neg c3] at hc; exact bk2 hc
    refine ⟨?_, h⟩
    intro pr e c hc
    cases pr <;> exact bk hc

theorem pmD_contains {X : Bounds ℝ} {y x e : ℝ} (h : X.Contains y) (h1 : -e ≤ x - y) (h2 : x - y ≤ e) :
    (pmD X e).Contains x := by
  obtain ⟨l, u⟩ := X
  obtain ⟨hl, hu⟩ := h
  constructor
  · show IsLower (Ext.sub fin l (fin e)) x
    rcases l with - | a | - | -
    · trivial
    · show a + -e ≤ x
      have : a ≤ y := hl
      linarith
    · exact hl
    · exact hl
  · show IsUpper (Ext.add fin u (fin e)) x
    rcases u with - | a | - | -
    · exact hu
    · show x ≤ a + e
      have : y ≤ a := hu
      linarith
    · trivial
    · exact hu

/-- C77: the bounds computed with any effort in any precision contain the number, as long as no NaN arises. -/
theorem C77_sound (fl : Floats) (r : Re) (x : ℝ) (hs : r.Sound fl) (hx : Denotes r x) :
    (∀ pr e b, (clean fl r).flt pr e = some b → (code fl r).flt pr e = some b ∧ b.Contains x) ∧
    ∀ e b, (clean fl r).dy e = some b → (code fl r).dy e = some b ∧ b.Contains x := by
  suffices H : (∀ pr e b, (clean fl r).flt pr e = some b → b.Contains x) ∧
      ∀ e b, (clean fl r).dy e = some b → b.Contains x from
    ⟨fun pr e b h => ⟨(clean_below fl r).1 _ _ _ h, H.1 _ _ _ h⟩, fun e b h => ⟨(clean_below fl r).2 _ _ h, H.2 _ _ h⟩⟩
  have ex : ∀ {f : Prec → ℕ → Option (Bounds ℝ)} {x : ℝ}, (∀ pr e b, f pr e = some b → b.Contains x) →
      ∀ e b, exprDy f e = some b → b.Contains x := fun h e b hb =>
    (exprDy_of (P := fun b => b.Contains _) (fun pr e b hb => ⟨hb, h pr e b hb⟩) e b hb).2
  have gt : ∀ {A : Ev} {x : ℝ}, (∀ pr e b, A.flt pr e = some b → b.Contains x) → ∀ pr b, A.get pr = some b → b.Contains x := by
    intro A x h pr b hb; cases pr <;> exact h _ _ _ hb
  induction r generalizing x with
  | cnst c =>
    have h : ∀ pr e b, (clean fl (.cnst c)).flt pr e = some b → b.Contains x := by
      intro pr e b hb
      obtain ⟨rfl, -⟩ := chk_true hb
      rw [show x = c from hx]
      exact Bounds.C05_ofExact _ _
    exact ⟨h, ex h⟩
  | un o a ih =>
    obtain ⟨y, hy, hv⟩ := hx
    have h : ∀ pr e b, (clean fl (.un o a)).flt pr e = some b → b.Contains x := by
      intro pr e b hb
      obtain ⟨X, hX, h2⟩ := Option.bind_eq_some_iff.1 hb
      obtain ⟨rfl, hn⟩ := chk_true h2
      have := gt (ih y hs.2 hy).1 _ _ hX
      exact hs.1 pr X y x (noNaN_of_contains this) this hv hn
    exact ⟨h, ex h⟩
  | power o a ih =>
    obtain ⟨y, hy, hv⟩ := hx
    have h : ∀ pr e b, (clean fl (.power o a)).flt pr e = some b → b.Contains x := by
      intro pr e b hb
      cases pr
      · obtain ⟨X, hX, h2⟩ := Option.bind_eq_some_iff.1 hb
        obtain ⟨rfl, hn⟩ := chk_true h2
        have := gt (ih y hs.2 hy).1 _ _ hX
        exact hs.1 _ X y x (noNaN_of_contains this) this hv hn
      · obtain ⟨X, hX, h2⟩ := Option.bind_eq_some_iff.1 hb
        obtain ⟨rfl, hn⟩ := chk_true h2
        have := (ih y hs.2 hy).1 _ _ _ hX
        exact hs.1 _ X y x (noNaN_of_contains this) this hv hn
    exact ⟨h, ex h⟩
  | bin o a b iha ihb =>
    obtain ⟨y, z, hy, hz, hv⟩ := hx
    have h : ∀ pr e c, (clean fl (.bin o a b)).flt pr e = some c → c.Contains x := by
      intro pr e c hc
      cases pr
      · obtain ⟨X, hX, h2⟩ := Option.bind_eq_some_iff.1 hc
        obtain ⟨Y, hY, h3⟩ := Option.bind_eq_some_iff.1 h2
        obtain ⟨rfl, hn⟩ := chk_true h3
        have h1 := gt (iha y hs.2.1 hy).1 _ _ hX
        have h2 := gt (ihb z hs.2.2 hz).1 _ _ hY
        exact hs.1 _ X Y y z x (noNaN_of_contains h1) (noNaN_of_contains h2) h1 h2 hv hn
      · obtain ⟨X, hX, h2⟩ := Option.bind_eq_some_iff.1 hc
        obtain ⟨Y, hY, h3⟩ := Option.bind_eq_some_iff.1 h2
        obtain ⟨rfl, hn⟩ := chk_true h3
        have h1 := (iha y hs.2.1 hy).1 _ _ _ hX
        have h2 := (ihb z hs.2.2 hz).1 _ _ _ hY
        exact hs.1 _ X Y y z x (noNaN_of_contains h1) (noNaN_of_contains h2) h1 h2 hv hn
    exact ⟨h, ex h⟩
  | limR s ih =>
    obtain ⟨y, hy, hc, ht⟩ := hx
    have hd := hc.dist_le ht
    constructor
    · intro pr e b hb
      obtain ⟨X, hX, h2⟩ := Option.bind_eq_some_iff.1 hb
      by_cases c : (xorTerm (e + 1) == 0) = true
      · simp [c] at h2
      · simp only [c, Bool.and_false, Bool.false_eq_true, if_false] at h2
        obtain ⟨rfl, hn⟩ := chk_true h2
        have h1 := (ih (e + 1) (y (e + 1)) (hs _) (hy _)).1 _ _ _ hX
        have h3 := abs_le.1 (hd (e + 1))
        have h4 := xorTerm_ge (n := e + 1) (by simpa using c) (by omega)
        have h5 : (ofEnds (fl pr) (-twoNeg (e + 1)) (xorTerm (e + 1))).Contains (x - y (e + 1)) :=
          ⟨(fl pr).down_of_le h3.1, (fl pr).up_of_le (h3.2.trans h4)⟩
        have := Bounds.C05_add (fl pr) h1 h5
        rwa [add_sub_cancel] at this
    · intro e b hb
      obtain ⟨X, hX, h2⟩ := Option.bind_eq_some_iff.1 hb
      obtain ⟨rfl, hn⟩ := chk_true h2
      have h1 := (ih (e + 1) (y (e + 1)) (hs _) (hy _)).2 _ _ hX
      have h3 := abs_le.1 (hd (e + 1))
      exact pmD_contains h1 h3.1 h3.2
  | limD s =>
    obtain ⟨hc, ht⟩ := hx
    have hd := hc.dist_le ht
    have h : ∀ e : ℕ, (⟨fin (s (e + 1) - twoNeg (e + 1)), fin (s (e + 1) + twoNeg (e + 1))⟩ : Bounds ℝ).Contains x := by
      intro e
      have h3 := abs_le.1 (hd (e + 1))
      constructor
      · show _ ≤ x; linarith
      · show x ≤ _; linarith
    constructor
    · intro pr e b hb
      obtain ⟨rfl, -⟩ := chk_true hb
      exact roundB_contains _ (h e)
    · intro e b hb
      obtain rfl := Option.some.inj hb
      exact h e
  | limB s =>
    constructor
    · intro pr e b hb
      obtain ⟨rfl, -⟩ := chk_true hb
      exact roundB_contains _ (hx e)
    · intro e b hb
      obtain ⟨rfl, -⟩ := chk_true hb
      exact hx e
  | when_ p q a b iha ihb =>
    obtain ⟨h0, hp, hq⟩ := hx
    obtain ⟨sp, sq, sa, sb⟩ := hs
    have h : ∀ e c, (clean fl (.when_ p q a b)).dy e = some c → c.Contains x := by
      intro e c hc
      simp only [clean, Re.ev, whenDy] at hc
      by_cases c1 : (!((p.check e).possibly) && !((q.check e).possibly)) = true
      · rw [if_pos c1] at hc; simp at hc
      · rw [if_neg c1] at hc
        by_cases c2 : (!((p.check e).possibly)) = true
        · rw [if_pos c2] at hc
          have np := sp e (by simpa using c2)
          exact (ihb x sb (hq (h0.resolve_left np))).2 _ _ hc
        · rw [if_neg c2] at hc
          by_cases c3 : (!((q.check e).possibly)) = true
          · rw [if_pos c3] at hc
            have nq := sq e (by simpa using c3)
            exact (iha x sa (hp (h0.resolve_right nq))).2 _ _ hc
          · rw [if_neg c3] at hc
            obtain ⟨X, hX, h2⟩ := Option.bind_eq_some_iff.1 hc
            obtain ⟨Y, hY, h3⟩ := Option.bind_eq_some_iff.1 h2
            obtain ⟨rfl, hn⟩ := chk_true h3
            rcases h0 with h0 | h0
            · have := (iha x sa (hp h0)).2 _ _ hX
              exact ⟨Ext.isLower_min_left this.1, Ext.isUpper_max_left this.2⟩
            · have := (ihb x sb (hq h0)).2 _ _ hY
              have hX' := (clean_noNaN fl a).2 _ _ hX
              exact ⟨Ext.isLower_min_right this.1 hX'.1, Ext.isUpper_max_right this.2 hX'.2⟩
    refine ⟨?_, h⟩
    intro pr e c hc
    cases pr
    · obtain ⟨X, hX, h2⟩ := Option.bind_eq_some_iff.1 hc
      obtain ⟨rfl, -⟩ := chk_true h2
      exact roundB_contains _ (h _ _ hX)
    · obtain ⟨X, hX, h2⟩ := Option.bind_eq_some_iff.1 hc
      obtain ⟨rfl, -⟩ := chk_true h2
      exact roundB_contains _ (h _ _ hX)

end Verif.RealNumber
