import Verif.Real.Effective

/-!
# C77: no exceptions, and no NaN without overflow
-/

namespace Verif.RealNumber

open Ariadne (Ext Bounds XRounding IsLower IsUpper)
open Ariadne.Logical (LV)
open Ariadne.Ext (fin)
open Filter Topology

/-! ## No exceptions -/

/-- In every `when` one of the two conditions holds. -/
def Re.Covered : Re → Prop
  | .cnst _ => True
  | .un _ a => a.Covered
  | .power _ a => a.Covered
  | .bin _ a b => a.Covered ∧ b.Covered
  | .limR s => ∀ n, (s n).Covered
  | .limD _ => True
  | .limB _ => True
  | .when_ p q a b => (p.truth ∨ q.truth) ∧ a.Covered ∧ b.Covered

/-- C77: if in every `when` one of the conditions holds, then no computation throws an exception. -/
theorem C77_no_exception (fl : Floats) (r : Re) (hs : r.Sound fl) (hc : r.Covered) :
    (∀ pr e, ((code fl r).flt pr e).isSome) ∧ ∀ e, ((code fl r).dy e).isSome := by
  have ex : ∀ {f : Prec → ℕ → Option (Bounds ℝ)}, (∀ pr e, (f pr e).isSome) → ∀ e, (exprDy f e).isSome := by
    intro f h e
    unfold exprDy
    by_cases c : e * 16 ≤ 52
    · rw [if_pos c]; exact h _ _
    · rw [if_neg c]; exact h _ _
  have gt : ∀ {A : Ev}, (∀ pr e, (A.flt pr e).isSome) → ∀ pr, (A.get pr).isSome := by
    intro A h pr; cases pr <;> exact h _ _
  have bk : ∀ {A : Option (Bounds ℝ)} {g : Bounds ℝ → Bounds ℝ}, A.isSome → (A.bind fun X => chk false (g X)).isSome := by
    intro A g h
    obtain ⟨b, rfl⟩ := Option.isSome_iff_exists.1 h
    rw [Option.bind_some, chk_false]; rfl
  have bk2 : ∀ {A B : Option (Bounds ℝ)} {g : Bounds ℝ → Bounds ℝ → Bounds ℝ}, A.isSome → B.isSome →
      (A.bind fun X => B.bind fun Y => chk false (g X Y)).isSome := by
    intro A B g h h'
    obtain ⟨b, rfl⟩ := Option.isSome_iff_exists.1 h
    rw [Option.bind_some]; exact bk h'
  induction r with
  | cnst c =>
    have h : ∀ pr e, ((code fl (.cnst c)).flt pr e).isSome := by
      intro pr e
      show (chk false _).isSome
      rw [chk_false]; rfl
    exact ⟨h, ex h⟩
  | un o a ih =>
    have h : ∀ pr e, ((code fl (.un o a)).flt pr e).isSome := fun pr e => bk (gt (ih hs.2 hc).1 pr)
    exact ⟨h, ex h⟩
  | power o a ih =>
    have h : ∀ pr e, ((code fl (.power o a)).flt pr e).isSome := by
      intro pr e
      cases pr
      · exact bk (gt (ih hs.2 hc).1 _)
      · exact bk ((ih hs.2 hc).1 _ _)
    exact ⟨h, ex h⟩
  | bin o a b iha ihb =>
    have h : ∀ pr e, ((code fl (.bin o a b)).flt pr e).isSome := by
      intro pr e
      cases pr
      · exact bk2 (gt (iha hs.2.1 hc.1).1 _) (gt (ihb hs.2.2 hc.2).1 _)
      · exact bk2 ((iha hs.2.1 hc.1).1 _ _) ((ihb hs.2.2 hc.2).1 _ _)
    exact ⟨h, ex h⟩
  | limR s ih =>
    refine ⟨fun pr e => ?_, fun e => bk ((ih (e + 1) (hs _) (hc _)).2 e)⟩
    obtain ⟨b, hb⟩ := Option.isSome_iff_exists.1 ((ih (e + 1) (hs _) (hc _)).1 pr e)
    have hb' : ((s (e + 1)).ev fl false).flt pr e = some b := hb
    simp [code, Re.ev, hb', chk_false]
  | limD s => exact ⟨fun pr e => by show (chk false _).isSome; rw [chk_false]; rfl, fun e => rfl⟩
  | limB s =>
    exact ⟨fun pr e => by show (chk false _).isSome; rw [chk_false]; rfl,
      fun e => by show (chk false _).isSome; rw [chk_false]; rfl⟩
  | when_ p q a b iha ihb =>
    obtain ⟨hp, hq, ha, hb⟩ := hs
    obtain ⟨ht, ca, cb⟩ := hc
    have hd : ∀ e, ((code fl (.when_ p q a b)).dy e).isSome := by
      intro e
      obtain ⟨x, hx⟩ := Option.isSome_iff_exists.1 ((iha ha ca).2 e)
      obtain ⟨y, hy⟩ := Option.isSome_iff_exists.1 ((ihb hb cb).2 e)
      have hx' : (a.ev fl false).dy e = some x := hx
      have hy' : (b.ev fl false).dy e = some y := hy
      have h1 := hp e
      have h2 := hq e
      show (whenDy false p q (a.ev fl false) (b.ev fl false) e).isSome
      unfold whenDy
      rw [hx', hy']
      cases c1 : (p.check e).possibly <;> cases c2 : (q.check e).possibly
      · exact absurd ht (by rintro (h | h); exacts [h1 c1 h, h2 c2 h])
      all_goals simp [chk_false]
    refine ⟨fun pr e => ?_, hd⟩
    cases pr
    · exact bk (hd 0)
    · exact bk (hd _)

/-! ## No NaN without overflow -/

/-- No number is rounded to infinity. -/
def NoOverflow (fl : Floats) : Prop := ∀ pr (x : ℝ), ∃ d u : ℝ, (fl pr).down x = fin d ∧ (fl pr).up x = fin u

/-- Finite bounds of arguments give finite bounds of the value. -/
def Op1.KeepsFinite (fl : Floats) (o : Op1) : Prop :=
  ∀ pr X x y, X.Finite → X.Contains x → o.val x y → (o.ev (fl pr) X).Finite ∧ (o.ev (fl pr) X).Contains y

/-- The same for two arguments. -/
def Op2.KeepsFinite (fl : Floats) (o : Op2) : Prop :=
  ∀ pr X Y x y z, X.Finite → Y.Finite → X.Contains x → Y.Contains y → o.val x y z →
    (o.ev (fl pr) X Y).Finite ∧ (o.ev (fl pr) X Y).Contains z

/-- Only operators which keep bounds finite; no limits of real numbers, no `when`. -/
def Re.KeepsFinite (fl : Floats) : Re → Prop
  | .cnst _ => True
  | .un o a => o.KeepsFinite fl ∧ a.KeepsFinite fl
  | .power o a => o.KeepsFinite fl ∧ a.KeepsFinite fl
  | .bin o a b => o.KeepsFinite fl ∧ a.KeepsFinite fl ∧ b.KeepsFinite fl
  | .limR _ => False
  | .limD _ => True
  | .limB s => ∀ e, (s e).Finite
  | .when_ _ _ _ _ => False

theorem roundB_finite {fl : Floats} (hf : NoOverflow fl) (pr : Prec) {b : Bounds ℝ} (h : b.Finite) :
    (roundB (fl pr) b).Finite := by
  obtain ⟨l, u⟩ := b
  obtain ⟨⟨a, ha⟩, c, hc⟩ := h
  simp only at ha hc
  subst ha hc
  obtain ⟨d, -, h1, -⟩ := hf pr a
  obtain ⟨-, d', -, h2⟩ := hf pr c
  exact ⟨⟨d, h1⟩, d', h2⟩

/-- C77: without overflow, products of finite numbers do not give NaN: every computation gives finite bounds of the number.  In
`C77_total` overflow is allowed, but not multiplication. -/
theorem C77_finite (fl : Floats) (hf : NoOverflow fl) (r : Re) (x : ℝ) (hr : r.KeepsFinite fl) (hx : Denotes r x) :
    (∀ pr e, ∃ b, (clean fl r).flt pr e = some b ∧ b.Finite ∧ b.Contains x) ∧
      ∀ e, ∃ b, (clean fl r).dy e = some b ∧ b.Finite ∧ b.Contains x := by
  have ex : ∀ {f : Prec → ℕ → Option (Bounds ℝ)} {x : ℝ}, (∀ pr e, ∃ b, f pr e = some b ∧ b.Finite ∧ b.Contains x) →
      ∀ e, ∃ b, exprDy f e = some b ∧ b.Finite ∧ b.Contains x := by
    intro f x h e
    unfold exprDy
    by_cases c : e * 16 ≤ 52
    · rw [if_pos c]; exact h _ _
    · rw [if_neg c]; exact h _ _
  have gt : ∀ {A : Ev} {x : ℝ}, (∀ pr e, ∃ b, A.flt pr e = some b ∧ b.Finite ∧ b.Contains x) →
      ∀ pr, ∃ b, A.get pr = some b ∧ b.Finite ∧ b.Contains x := by
    intro A x h pr; cases pr <;> exact h _ _
  have bk : ∀ {A : Option (Bounds ℝ)} {g : Bounds ℝ → Bounds ℝ} {x y : ℝ}, (∃ b, A = some b ∧ b.Finite ∧ b.Contains x) →
      (∀ b, b.Finite → b.Contains x → (g b).Finite ∧ (g b).Contains y) →
      ∃ b, (A.bind fun X => chk true (g X)) = some b ∧ b.Finite ∧ b.Contains y := by
    rintro A g x y ⟨b, rfl, h, hb⟩ hg
    exact ⟨g b, chk_of_contains (hg b h hb).2, hg b h hb⟩
  have bk2 : ∀ {A B : Option (Bounds ℝ)} {g : Bounds ℝ → Bounds ℝ → Bounds ℝ} {x y z : ℝ},
      (∃ b, A = some b ∧ b.Finite ∧ b.Contains x) → (∃ b, B = some b ∧ b.Finite ∧ b.Contains y) →
      (∀ b c, b.Finite → c.Finite → b.Contains x → c.Contains y → (g b c).Finite ∧ (g b c).Contains z) →
      ∃ b, (A.bind fun X => B.bind fun Y => chk true (g X Y)) = some b ∧ b.Finite ∧ b.Contains z := by
    rintro A B g x y z ⟨b, rfl, h, hb⟩ ⟨c, rfl, h', hc⟩ hg
    exact ⟨g b c, chk_of_contains (hg b c h h' hb hc).2, hg b c h h' hb hc⟩
  induction r generalizing x with
  | cnst c =>
    obtain rfl : x = c := hx
    have h : ∀ pr e, ∃ b, (clean fl (.cnst x)).flt pr e = some b ∧ b.Finite ∧ b.Contains x := fun pr e => by
      obtain ⟨d, u, h1, h2⟩ := hf pr x
      exact ⟨_, chk_of_contains (Bounds.C05_ofExact (fl pr) x), ⟨⟨d, h1⟩, u, h2⟩, Bounds.C05_ofExact (fl pr) x⟩
    exact ⟨h, ex h⟩
  | un o a ih =>
    obtain ⟨y, hy, hv⟩ := hx
    have h : ∀ pr e, ∃ b, (clean fl (.un o a)).flt pr e = some b ∧ b.Finite ∧ b.Contains x := fun pr e =>
      bk (gt (ih y hr.2 hy).1 pr) (fun b h hb => hr.1 pr b y x h hb hv)
    exact ⟨h, ex h⟩
  | power o a ih =>
    obtain ⟨y, hy, hv⟩ := hx
    have h : ∀ pr e, ∃ b, (clean fl (.power o a)).flt pr e = some b ∧ b.Finite ∧ b.Contains x := by
      intro pr e
      cases pr
      · exact bk (gt (ih y hr.2 hy).1 _) (fun b h hb => hr.1 _ b y x h hb hv)
      · exact bk ((ih y hr.2 hy).1 _ _) (fun b h hb => hr.1 _ b y x h hb hv)
    exact ⟨h, ex h⟩
  | bin o a b iha ihb =>
    obtain ⟨y, z, hy, hz, hv⟩ := hx
    have h : ∀ pr e, ∃ c, (clean fl (.bin o a b)).flt pr e = some c ∧ c.Finite ∧ c.Contains x := by
      intro pr e
      cases pr
      · exact bk2 (gt (iha y hr.2.1 hy).1 _) (gt (ihb z hr.2.2 hz).1 _)
          (fun b c h h' hb hc => hr.1 _ b c y z x h h' hb hc hv)
      · exact bk2 ((iha y hr.2.1 hy).1 _ _) ((ihb z hr.2.2 hz).1 _ _)
          (fun b c h h' hb hc => hr.1 _ b c y z x h h' hb hc hv)
    exact ⟨h, ex h⟩
  | limR s ih => exact hr.elim
  | limD s =>
    obtain ⟨hc, ht⟩ := hx
    have hd := hc.dist_le ht
    have h : ∀ e : ℕ, (⟨fin (s (e + 1) - twoNeg (e + 1)), fin (s (e + 1) + twoNeg (e + 1))⟩ : Bounds ℝ).Contains x := by
      intro e
      have h3 := abs_le.1 (hd (e + 1))
      constructor
      · show _ ≤ x; linarith
      · show x ≤ _; linarith
    exact ⟨fun pr e => ⟨_, chk_of_contains (roundB_contains (fl pr) (h e)), roundB_finite hf pr ⟨⟨_, rfl⟩, _, rfl⟩,
      roundB_contains (fl pr) (h e)⟩, fun e => ⟨_, rfl, ⟨⟨_, rfl⟩, _, rfl⟩, h e⟩⟩
  | limB s =>
    exact ⟨fun pr e => ⟨_, chk_of_contains (roundB_contains (fl pr) (hx e)), roundB_finite hf pr (hr e),
      roundB_contains (fl pr) (hx e)⟩, fun e => ⟨_, chk_of_contains (hx e), hr e, hx e⟩⟩
  | when_ p q a b iha ihb => exact hr.elim

/-- C77: without overflow, sums, differences, products, squares, maxima, minima, negation, halving and absolute values keep bounds
finite. -/
theorem C77_finite_operators (fl : Floats) (hf : NoOverflow fl) :
    (∀ o ∈ [opPos, opNeg, opHlf, opSqr, opAbs], o.KeepsFinite fl) ∧
      ∀ o ∈ [opAdd, opSub, opMul, opMax, opMin], o.KeepsFinite fl := by
  have key : ∀ pr (x : ℝ), (∃ d : ℝ, (fl pr).down x = fin d) ∧ ∃ u : ℝ, (fl pr).up x = fin u := fun pr x =>
    let ⟨d, u, h1, h2⟩ := hf pr x
    ⟨⟨d, h1⟩, u, h2⟩
  have kd : ∀ pr (a b : ℝ), ∃ d : ℝ, Ext.mul (fl pr).down (fin a) (fin b) = fin d := fun pr a b => (key pr (a * b)).1
  have ku : ∀ pr (a b : ℝ), ∃ d : ℝ, Ext.mul (fl pr).up (fin a) (fin b) = fin d := fun pr a b => (key pr (a * b)).2
  have km : ∀ {x y : Ext ℝ}, (∃ d : ℝ, x = fin d) → (∃ d : ℝ, y = fin d) → ∃ d : ℝ, Ext.max x y = fin d := by
    intro x y h h'; unfold Ext.max; split_ifs <;> assumption
  have kn : ∀ {x y : Ext ℝ}, (∃ d : ℝ, x = fin d) → (∃ d : ℝ, y = fin d) → ∃ d : ℝ, Ext.min x y = fin d := by
    intro x y h h'; unfold Ext.min; split_ifs <;> assumption
  constructor
  · intro o ho
    simp only [List.mem_cons, List.not_mem_nil, or_false] at ho
    rcases ho with rfl | rfl | rfl | rfl | rfl
    · rintro pr X x y ⟨⟨a, ha⟩, b, hb⟩ h rfl
      exact ⟨⟨⟨a, ha⟩, b, hb⟩, Bounds.C05_pos h⟩
    · rintro pr ⟨l, u⟩ x y ⟨⟨a, rfl⟩, b, rfl⟩ h rfl
      exact ⟨⟨⟨-b, rfl⟩, -a, rfl⟩, Bounds.C05_neg h⟩
    · rintro pr ⟨l, u⟩ x y ⟨⟨a, rfl⟩, b, rfl⟩ h rfl
      exact ⟨⟨⟨a / 2, rfl⟩, b / 2, rfl⟩, Bounds.C05_hlf h⟩
    · rintro pr ⟨l, u⟩ x y ⟨⟨a, rfl⟩, b, rfl⟩ h rfl
      refine ⟨?_, Bounds.C05_sqr _ h⟩
      show (Bounds.sqr (fl pr) ⟨fin a, fin b⟩).Finite
      unfold Bounds.sqr
      split_ifs
      · exact ⟨kd _ _ _, ku _ _ _⟩
      · exact ⟨kd _ _ _, ku _ _ _⟩
      · exact ⟨⟨0, rfl⟩, km (ku _ _ _) (ku _ _ _)⟩
    · rintro pr ⟨l, u⟩ x y ⟨⟨a, rfl⟩, b, rfl⟩ h rfl
      refine ⟨?_, Bounds.C05_abs h⟩
      show (Bounds.abs ⟨fin a, fin b⟩).Finite
      unfold Bounds.abs
      split_ifs
      · exact ⟨⟨a, rfl⟩, b, rfl⟩
      · exact ⟨⟨-b, rfl⟩, -a, rfl⟩
      · exact ⟨⟨0, rfl⟩, km ⟨-a, rfl⟩ ⟨b, rfl⟩⟩
  · intro o ho
    simp only [List.mem_cons, List.not_mem_nil, or_false] at ho
    rcases ho with rfl | rfl | rfl | rfl | rfl
    · rintro pr ⟨l, u⟩ ⟨l', u'⟩ x y z ⟨⟨a, rfl⟩, b, rfl⟩ ⟨⟨a', rfl⟩, b', rfl⟩ h h' rfl
      exact ⟨⟨(key pr _).1, (key pr _).2⟩, Bounds.C05_add _ h h'⟩
    · rintro pr ⟨l, u⟩ ⟨l', u'⟩ x y z ⟨⟨a, rfl⟩, b, rfl⟩ ⟨⟨a', rfl⟩, b', rfl⟩ h h' rfl
      exact ⟨⟨(key pr _).1, (key pr _).2⟩, Bounds.C05_sub _ h h'⟩
    · rintro pr ⟨l, u⟩ ⟨l', u'⟩ x y z ⟨⟨a, rfl⟩, b, rfl⟩ ⟨⟨a', rfl⟩, b', rfl⟩ h h' rfl
      refine ⟨?_, Bounds.C05_mul _ ⟨⟨a, rfl⟩, b, rfl⟩ ⟨⟨a', rfl⟩, b', rfl⟩ h h'⟩
      show (Bounds.mul (fl pr) ⟨fin a, fin b⟩ ⟨fin a', fin b'⟩).Finite
      unfold Bounds.mul
      split_ifs
      iterate 8 exact ⟨kd _ _ _, ku _ _ _⟩
      exact ⟨kn (kd _ _ _) (kd _ _ _), km (ku _ _ _) (ku _ _ _)⟩
    · rintro pr ⟨l, u⟩ ⟨l', u'⟩ x y z ⟨⟨a, rfl⟩, b, rfl⟩ ⟨⟨a', rfl⟩, b', rfl⟩ h h' rfl
      refine ⟨?_, Bounds.C05_max h h'⟩
      exact ⟨km ⟨_, rfl⟩ ⟨_, rfl⟩, km ⟨_, rfl⟩ ⟨_, rfl⟩⟩
    · rintro pr ⟨l, u⟩ ⟨l', u'⟩ x y z ⟨⟨a, rfl⟩, b, rfl⟩ ⟨⟨a', rfl⟩, b', rfl⟩ h h' rfl
      refine ⟨?_, Bounds.C05_min h h'⟩
      exact ⟨kn ⟨_, rfl⟩ ⟨_, rfl⟩, kn ⟨_, rfl⟩ ⟨_, rfl⟩⟩

end Verif.RealNumber
