import Verif.Graded.Ops

/-!
# The Taylor coefficients of a flow

The iteration of `graded_flow_iterate` encloses the Taylor coefficients in time of every solution of
the differential equation.
-/

namespace Verif.Graded

open Filter Topology
open Ariadne.Symbolic (UnOp BinOp)
open Verif.Procedure (Instr Proc Alg Computes Formula)

variable {Y X Q : Type*} {o : GOps Y X}

/-- spec: the operators on real functions of a parameter and time, pointwise. -/
noncomputable def realUn : UnOp → ℝ → ℝ
  | .nul, _ => 0
  | .pos, a => a
  | .neg, a => -a
  | .sqr, a => a * a
  | .hlf, a => a / 2
  | .recip, a => a⁻¹
  | .sqrt, a => Real.sqrt a
  | .exp, a => Real.exp a
  | .log, a => Real.log a
  | .sin, a => Real.sin a
  | .cos, a => Real.cos a
  | .tan, a => Real.sin a / Real.cos a
  | .asin, _ => 0
  | .acos, _ => 0
  | .atan, _ => 0
  | .abs, a => |a|

/-- spec: the binary operators on real numbers. -/
noncomputable def realBin : BinOp → ℝ → ℝ → ℝ
  | .add, a, b => a + b
  | .sub, a, b => a - b
  | .mul, a, b => a * b
  | .div, a, b => a / b
  | .max, a, b => max a b
  | .min, a, b => min a b

/-- spec: formulae over real functions of a parameter and time.  The inverse trigonometric functions,
which graded series do not have, are irrelevant. -/
noncomputable def funAlg (Q : Type*) {Y : Type*} (val : Y → ℝ) : Alg Y (Q → ℝ → ℝ) where
  cst y := fun _ _ => val y
  un op f := fun q t => realUn op (f q t)
  bin op f g := fun q t => realBin op (f q t) (g q t)
  pow f n := fun q t => f q t ^ n
  mix op y g := fun q t => realBin op (val y) (g q t)
  zero := fun _ _ => 0

/-- The first coefficient of the temporary `a`. -/
def head (o : GOps Y X) (tmp : List (Series X)) (a : ℕ) : X := co o (tmp.getD a []) 0

/-- spec: divisors are not zero, and arguments of logarithms and square roots are positive; this can
be checked on the first coefficients of the temporaries. -/
def Guard (o : GOps Y X) (nz ps : X → Prop) (P : Proc Y) (tmp : List (Series X)) : Prop :=
  ∀ (k : ℕ) (i : Instr), P.p[k]? = some i →
    match i with
    | .un .recip a => nz (head o tmp a)
    | .un .sqrt a => ps (head o tmp a) ∧ nz (o.smul 2 (head o tmp k))
    | .un .log a => ps (head o tmp a)
    | .bin .div _ b => nz (head o tmp b)
    | .graded a _ => nz (head o tmp a)
    | _ => True

variable {mem : X → (Q → ℝ) → Prop} {nz ps : X → Prop} {val : Y → ℝ}

theorem execFrom_length {c : List Y} {x : List (Series X)} (p : List Instr) (r : ℕ)
    {v v' : List (Series X)} (h : execFrom o c x p r v = some v') : v'.length = v.length := by
  induction p generalizing r v with
  | nil => simp only [execFrom, Option.some.injEq] at h; rw [h]
  | cons i p ih =>
    simp only [execFrom] at h
    obtain ⟨old, -, h⟩ := Option.bind_eq_some_iff.1 h
    obtain ⟨y, -, h⟩ := Option.bind_eq_some_iff.1 h
    simpa using ih _ h

theorem execFrom_stable {c : List Y} {x : List (Series X)} (p : List Instr) (r : ℕ)
    {v v' : List (Series X)} (h : execFrom o c x p r v = some v') {a : ℕ} (ha : a < r) :
    v'[a]? = v[a]? := by
  induction p generalizing r v with
  | nil => simp only [execFrom, Option.some.injEq] at h; rw [h]
  | cons i p ih =>
    simp only [execFrom] at h
    obtain ⟨old, -, h⟩ := Option.bind_eq_some_iff.1 h
    obtain ⟨y, -, h⟩ := Option.bind_eq_some_iff.1 h
    rw [ih _ h (by omega), List.getElem?_set_ne (by omega)]

theorem head_eq {tmp : List (Series X)} {a : ℕ} {l : Series X} (h : tmp[a]? = some l) :
    head o tmp a = co o l 0 := by
  simp [head, h]

/-- The enclosure of one instruction. -/
theorem enc_instr (S : GSound o mem nz ps val) {d k : ℕ} {c : List Y} {x : List (Series X)}
    {y : ℕ → Q → ℝ → ℝ} {w : List (Q → ℝ → ℝ)} {v : List (Series X)} {old l : Series X} {i : Instr}
    {f : Q → ℝ → ℝ} (P : Proc Y) (hP : P.p[k]? = some i)
    (hx : ∀ i l, x[i]? = some l → Enc o mem l (y i) (d + 1) ∧ Smooth d (y i))
    (hw : Verif.Procedure.execInstr (funAlg Q val) c y (w.take k) i = some f)
    (hv : ∀ (a : ℕ) l, a < k → v[a]? = some l → ∃ f, w[a]? = some f ∧ Enc o mem l f (d + 1) ∧ Smooth d f)
    (hold : Enc o mem old f d) (h : execInstr o c x v old i = some l)
    {tmp : List (Series X)} (ht : ∀ a < k, tmp[a]? = v[a]?) (hk : tmp[k]? = some l)
    (hG : Guard o nz ps P tmp) : Enc o mem l f (d + 1) ∧ Smooth d f := by
  have hw' : ∀ {a f}, (w.take k)[a]? = some f → a < k ∧ w[a]? = some f := by
    intro a f hf
    rw [List.getElem?_take] at hf
    split_ifs at hf with h1
    exact ⟨h1, hf⟩
  have g := hG k i hP
  cases i with
  | const j =>
    simp only [Verif.Procedure.execInstr, Option.map_eq_some_iff] at hw
    obtain ⟨u, hu, rfl⟩ := hw
    simp only [execInstr, hu, Option.bind_some] at h
    refine ⟨?_, fun q => contDiffAt_const⟩
    cases x with
    | nil => simp [makeConstant] at h
    | cons x0 xs =>
      cases x0 with
      | nil => simp [makeConstant] at h
      | cons z zs =>
        simp only [makeConstant, Option.some.injEq] at h
        have hl := (hx 0 _ rfl).1.1
        simp only [List.length_cons, Nat.add_right_cancel_iff] at hl
        subst h
        refine ⟨by simp [hl], fun j hj => ?_⟩
        cases j with
        | zero =>
          have := S.cst u
          simp only [tc_zero]
          exact this
        | succ j =>
          have h0 := S.zero
          have e : co o (o.cst u :: List.replicate zs.length o.zero) (j + 1) = o.zero := by
            simp only [co, List.getD_cons_succ]
            rw [List.getD_eq_getElem?_getD, List.getElem?_replicate]
            split_ifs <;> rfl
          rw [e]
          have e2 : (fun q : Q => tc ((funAlg Q val).cst u q) (j + 1)) = fun _ => 0 :=
            funext fun q => by
              have := tc_const (val u) (j + 1)
              simpa [funAlg] using this
          rw [e2]; exact h0
  | ind j =>
    simp only [Verif.Procedure.execInstr, Option.some.injEq] at hw
    subst hw
    exact hx j l h
  | un op a =>
    simp only [Verif.Procedure.execInstr, Option.map_eq_some_iff] at hw
    obtain ⟨u, hu, rfl⟩ := hw
    obtain ⟨hak, hu⟩ := hw' hu
    simp only [execInstr] at h
    obtain ⟨la, hla, h⟩ := Option.bind_eq_some_iff.1 h
    obtain ⟨u', hu', hE, hS⟩ := hv a la hak hla
    rw [hu, Option.some.injEq] at hu'
    subst hu'
    have hh : head o tmp a = co o la 0 := head_eq ((ht a hak).trans hla)
    cases op with
    | nul =>
      exact ⟨enc_nul S hold h, fun q => contDiffAt_const⟩
    | pos =>
      exact ⟨enc_pos hE hold h, fun q => hS q⟩
    | hlf =>
      exact ⟨enc_hlf S hE hold h, fun q => (hS q).div_const 2⟩
    | neg =>
      obtain ⟨r', h1, h2⟩ := enc_neg S hE hold
      exact ⟨by rw [← Option.some.inj (h1.symm.trans h)]; exact h2, fun q => (hS q).neg⟩
    | sqr =>
      obtain ⟨r', h1, h2⟩ := enc_sqr S hS hE hold
      exact ⟨by rw [← Option.some.inj (h1.symm.trans h)]; exact h2, fun q => (hS q).mul (hS q)⟩
    | recip =>
      simp only [hh] at g
      obtain ⟨r', h1, h2⟩ := enc_recip S hS hE g hold
      exact ⟨by rw [← Option.some.inj (h1.symm.trans h)]; exact h2, fun q => (hS q).inv (nz_head S hE g q)⟩
    | sqrt =>
      simp only [hh, head_eq hk] at g
      have hl : d ≠ 0 → co o l 0 = co o old 0 := by
        intro hd
        have hdl : 0 < old.length := by rw [hold.1]; omega
        simp only [unary, sqrt] at h
        split_ifs at h with h1 h2
        · omega
        · rw [← Option.some.inj h, co_append_left _ _ hdl]
      obtain ⟨r', h1, h2⟩ := enc_sqrt S hS hE g.1 (fun hd => hl hd ▸ g.2) hold
      exact ⟨by rw [← Option.some.inj (h1.symm.trans h)]; exact h2,
        fun q => (hS q).sqrt (ps_head S hE g.1 q).ne'⟩
    | exp =>
      obtain ⟨r', h1, h2⟩ := enc_exp S hS hE hold
      exact ⟨by rw [← Option.some.inj (h1.symm.trans h)]; exact h2, fun q => (hS q).exp⟩
    | log =>
      simp only [hh] at g
      obtain ⟨r', h1, h2⟩ := enc_log S hS hE g hold
      exact ⟨by rw [← Option.some.inj (h1.symm.trans h)]; exact h2,
        fun q => (hS q).log (ps_head S hE g q).ne'⟩
    | sin =>
      obtain ⟨r', h1, h2⟩ := enc_sin S hS hE hold.1
      exact ⟨by rw [← Option.some.inj (h1.symm.trans h)]; exact h2, fun q => (hS q).sin⟩
    | cos =>
      obtain ⟨r', h1, h2⟩ := enc_cos S hS hE hold.1
      exact ⟨by rw [← Option.some.inj (h1.symm.trans h)]; exact h2, fun q => (hS q).cos⟩
    | tan => simp [unary] at h
    | asin => simp [unary] at h
    | acos => simp [unary] at h
    | atan => simp [unary] at h
    | abs => simp [unary] at h
  | bin op a b =>
    simp only [Verif.Procedure.execInstr] at hw
    obtain ⟨u1, hu1, hw⟩ := Option.bind_eq_some_iff.1 hw
    obtain ⟨u2, hu2, rfl⟩ := Option.map_eq_some_iff.1 hw
    obtain ⟨hak, hu1⟩ := hw' hu1
    obtain ⟨hbk, hu2⟩ := hw' hu2
    simp only [execInstr] at h
    obtain ⟨la, hla, h⟩ := Option.bind_eq_some_iff.1 h
    obtain ⟨lb, hlb, h⟩ := Option.bind_eq_some_iff.1 h
    obtain ⟨u', hu', hE1, hS1⟩ := hv a la hak hla
    rw [hu1, Option.some.injEq] at hu'
    subst hu'
    obtain ⟨u', hu', hE2, hS2⟩ := hv b lb hbk hlb
    rw [hu2, Option.some.injEq] at hu'
    subst hu'
    have hh : head o tmp b = co o lb 0 := head_eq ((ht b hbk).trans hlb)
    cases op with
    | add =>
      obtain ⟨r', h1, h2⟩ := enc_add S hS1 hS2 hE1 hE2 hold
      exact ⟨by rw [← Option.some.inj (h1.symm.trans h)]; exact h2, fun q => (hS1 q).add (hS2 q)⟩
    | sub =>
      obtain ⟨r', h1, h2⟩ := enc_sub S hS1 hS2 hE1 hE2 hold
      exact ⟨by rw [← Option.some.inj (h1.symm.trans h)]; exact h2, fun q => (hS1 q).sub (hS2 q)⟩
    | mul =>
      obtain ⟨r', h1, h2⟩ := enc_mul S hS1 hS2 hE1 hE2 hold
      exact ⟨by rw [← Option.some.inj (h1.symm.trans h)]; exact h2, fun q => (hS1 q).mul (hS2 q)⟩
    | div =>
      simp only [hh] at g
      obtain ⟨r', h1, h2⟩ := enc_div S hS1 hS2 hE1 hE2 g hold
      exact ⟨by rw [← Option.some.inj (h1.symm.trans h)]; exact h2,
        fun q => (hS1 q).div (hS2 q) (nz_head S hE2 g q)⟩
    | max => simp [binary] at h
    | min => simp [binary] at h
  | graded a n =>
    simp only [Verif.Procedure.execInstr, Option.map_eq_some_iff] at hw
    obtain ⟨u, hu, rfl⟩ := hw
    obtain ⟨hak, hu⟩ := hw' hu
    simp only [execInstr] at h
    obtain ⟨la, hla, h⟩ := Option.bind_eq_some_iff.1 h
    obtain ⟨u', hu', hE, hS⟩ := hv a la hak hla
    rw [hu, Option.some.injEq] at hu'
    subst hu'
    have hh : head o tmp a = co o la 0 := head_eq ((ht a hak).trans hla)
    simp only [hh] at g
    obtain ⟨r', h1, h2⟩ := enc_pow S n hS hE g hold
    exact ⟨by rw [← Option.some.inj (h1.symm.trans h)]; exact h2,
      fun q => contDiffAt_zpow n (hS q) (nz_head S hE g q)⟩
  | scalar op j a => simp [execInstr] at h

/-- Executing a procedure appends the next Taylor coefficient to every temporary. -/
theorem enc_exec (S : GSound o mem nz ps val) {d : ℕ} (P : Proc Y) {x : List (Series X)}
    {y : ℕ → Q → ℝ → ℝ} {w : List (Q → ℝ → ℝ)}
    (hC : Computes (funAlg Q val) P.c y P.p w)
    (hx : ∀ i l, x[i]? = some l → Enc o mem l (y i) (d + 1) ∧ Smooth d (y i))
    (p q : List Instr) (hpq : P.p = q ++ p) {v v' : List (Series X)}
    (hv1 : ∀ (a : ℕ) l, a < q.length → v[a]? = some l →
      ∃ f, w[a]? = some f ∧ Enc o mem l f (d + 1) ∧ Smooth d f)
    (hv2 : ∀ (a : ℕ) l, q.length ≤ a → v[a]? = some l → ∃ f, w[a]? = some f ∧ Enc o mem l f d)
    (hlen : v.length = P.p.length)
    (h : execFrom o P.c x p q.length v = some v') (hG : Guard o nz ps P v') :
    ∀ (a : ℕ) l, v'[a]? = some l → ∃ f, w[a]? = some f ∧ Enc o mem l f (d + 1) ∧ Smooth d f := by
  induction p generalizing q v with
  | nil =>
    simp only [execFrom, Option.some.injEq] at h
    subst h
    intro a l hl
    refine hv1 a l ?_ hl
    have := (List.getElem?_eq_some_iff.1 hl).1
    rw [hlen, hpq] at this
    simpa using this
  | cons i p ih =>
    simp only [execFrom] at h
    obtain ⟨old, hold, h⟩ := Option.bind_eq_some_iff.1 h
    obtain ⟨l, hl, h⟩ := Option.bind_eq_some_iff.1 h
    have hi : P.p[q.length]? = some i := by rw [hpq]; simp
    obtain ⟨f, hf, hwf⟩ := hC.2 _ _ hi
    obtain ⟨f', hf', hold'⟩ := hv2 _ _ le_rfl hold
    rw [hf, Option.some.injEq] at hf'
    subst hf'
    have hql : q.length < v.length := (List.getElem?_eq_some_iff.1 hold).1
    have hset : (v.set q.length l)[q.length]? = some l := by
      rw [List.getElem?_set_self hql]
    have key := enc_instr S P hi hx hwf hv1 hold' hl (tmp := v')
      (fun a ha => by
        rw [execFrom_stable p _ h (by omega), List.getElem?_set_ne (by omega)])
      (by rw [execFrom_stable p _ h (by omega), hset]) hG
    refine ih (q ++ [i]) (by rw [hpq]; simp) (v := v.set q.length l) ?_ ?_ (by simpa using hlen) (by simpa using h)
    · intro a m ha hm
      simp only [List.length_append, List.length_cons, List.length_nil, zero_add] at ha
      rcases Nat.lt_succ_iff_lt_or_eq.1 ha with h1 | h1
      · rw [List.getElem?_set_ne (by omega)] at hm
        exact hv1 a m h1 hm
      · subst h1
        rw [hset, Option.some.injEq] at hm
        subst hm
        exact ⟨f, hf, key⟩
    · intro a m ha hm
      simp only [List.length_append, List.length_cons, List.length_nil, zero_add] at ha
      rw [List.getElem?_set_ne (by omega)] at hm
      exact hv2 a m (by omega) hm

/-- spec: the arguments solve the differential equation given by the procedure: the states have the
results as derivatives, then (unless the equation is autonomous) comes time, and the remaining
arguments are constant parameters. -/
structure Solves (aut : Bool) (res : List ℕ) (w : List (Q → ℝ → ℝ)) (y : ℕ → Q → ℝ → ℝ) : Prop where
  state : ∀ i k, res[i]? = some k → ∃ f, w[k]? = some f ∧
    ∀ q, ∀ᶠ t in 𝓝 0, HasDerivAt (y i q) (f q t) t
  time : aut = false → ∀ q, ∀ᶠ t in 𝓝 0, y res.length q t = y res.length q 0 + t
  param : ∀ i, res.length + (if aut then 0 else 1) ≤ i → ∀ q, ∀ᶠ t in 𝓝 0, y i q t = y i q 0

theorem enc_param (S : GSound o mem nz ps val) {l : Series X} {f : Q → ℝ → ℝ} {d : ℕ}
    (h : Enc o mem l f (d + 1)) (hf : ∀ q, ∀ᶠ t in 𝓝 0, f q t = f q 0) :
    Enc o mem (l ++ [o.zero]) f (d + 2) := by
  refine enc_append h ?_
  have := S.zero
  rwa [show (fun _ : Q => (0 : ℝ)) = fun q => tc (f q) (d + 1) from funext fun q => by
    rw [tc_congr (h := fun _ => f q 0) (hf q), tc_const, if_neg (by omega)]] at this

theorem tc_time (c : ℝ) (k : ℕ) : tc (fun t => c + t) (k + 1) = if k = 0 then 1 else 0 := by
  have h : ∀ᶠ t in 𝓝 (0 : ℝ), HasDerivAt (fun t => c + t) ((fun _ => (1 : ℝ)) t) t :=
    Eventually.of_forall fun t => (hasDerivAt_id t).const_add c
  rw [tc_of_hasDerivAt h, tc_const]
  split_ifs with h0 <;> simp [h0]

theorem enc_time (S : GSound o mem nz ps val) {l : Series X} {f : Q → ℝ → ℝ} {d : ℕ}
    (h : Enc o mem l f (d + 1)) (hf : ∀ q, ∀ᶠ t in 𝓝 0, f q t = f q 0 + t) :
    Enc o mem (l ++ [if l.length = 1 then o.plusOne o.zero else o.zero]) f (d + 2) := by
  refine enc_append h ?_
  have e : ∀ q, tc (f q) (d + 1) = if d = 0 then 1 else 0 := fun q => by
    rw [tc_congr (h := fun t => f q 0 + t) (hf q), tc_time]
  simp only [e, h.1]
  by_cases hd : d = 0
  · subst hd
    simpa using S.plusOne S.zero
  · simpa [hd] using S.zero

/-- The end of one iteration. -/
theorem enc_advance (S : GSound o mem nz ps val) (aut : Bool) {d : ℕ}
    (fy ys : List (Series X)) {y g : ℕ → Q → ℝ → ℝ}
    (hfy : ∀ i l, fy[i]? = some l → Enc o mem l (g i) (d + 1) ∧
      ∀ q, ∀ᶠ t in 𝓝 0, HasDerivAt (y i q) (g i q t) t)
    (hys : ∀ i l, ys[i]? = some l → Enc o mem l (y i) (d + 1))
    (ht : aut = false → ∀ q, ∀ᶠ t in 𝓝 0, y fy.length q t = y fy.length q 0 + t)
    (hp : ∀ i, fy.length + (if aut then 0 else 1) ≤ i → ∀ q, ∀ᶠ t in 𝓝 0, y i q t = y i q 0)
    {ys' : List (Series X)} (h : advance o aut fy ys = some ys') :
    ys'.length = ys.length ∧ ∀ i l, ys'[i]? = some l → Enc o mem l (y i) (d + 2) := by
  induction fy generalizing ys y g ys' with
  | nil =>
    cases aut with
    | true =>
      simp only [advance, if_true, Option.some.injEq] at h
      subst h
      refine ⟨by simp, fun i l hl => ?_⟩
      simp only [List.getElem?_map, Option.map_eq_some_iff] at hl
      obtain ⟨m, hm, rfl⟩ := hl
      exact enc_param S (hys i m hm) (hp i (by simp))
    | false =>
      cases ys with
      | nil => simp [advance] at h
      | cons t as =>
        simp only [advance, Bool.false_eq_true, if_false, Option.some.injEq] at h
        subst h
        refine ⟨by simp, fun i l hl => ?_⟩
        cases i with
        | zero =>
          simp only [List.getElem?_cons_zero, Option.some.injEq] at hl
          subst hl
          exact enc_time S (hys 0 t rfl) (ht rfl)
        | succ i =>
          simp only [List.getElem?_cons_succ, List.getElem?_map, Option.map_eq_some_iff] at hl
          obtain ⟨m, hm, rfl⟩ := hl
          exact enc_param S (hys (i + 1) m hm) (hp (i + 1) (by simp))
  | cons f fs ih =>
    cases ys with
    | nil => simp [advance] at h
    | cons z zs =>
      simp only [advance] at h
      obtain ⟨z', hz', h⟩ := Option.bind_eq_some_iff.1 h
      obtain ⟨zs', hzs', rfl⟩ := Option.map_eq_some_iff.1 h
      have h0 := hfy 0 f rfl
      obtain ⟨r', h1, h2⟩ := enc_antidifferentiate S h0.2 h0.1 (hys 0 z rfl)
      have hr : r' = z' := Option.some.inj (h1.symm.trans hz')
      subst hr
      have := ih zs (y := fun i => y (i + 1)) (g := fun i => g (i + 1))
        (fun i l hl => hfy (i + 1) l hl) (fun i l hl => hys (i + 1) l hl)
        (fun ha => ht ha)
        (fun i hi => hp (i + 1) (by
          simp only [List.length_cons] at hi ⊢; omega)) hzs'
      refine ⟨by simp [this.1], fun i l hl => ?_⟩
      cases i with
      | zero => simp only [List.getElem?_cons_zero, Option.some.injEq] at hl; subst hl; exact h2
      | succ i => exact this.2 i l hl

theorem mapM_getElem? {α β : Type*} {f : α → Option β} (l : List α) {m : List β} (h : l.mapM f = some m) :
    m.length = l.length ∧ ∀ (i : ℕ) b, m[i]? = some b → ∃ a, l[i]? = some a ∧ f a = some b := by
  induction l generalizing m with
  | nil =>
    simp at h
    subst h; simp
  | cons a l ih =>
    rw [List.mapM_cons] at h
    obtain ⟨b, hb, h⟩ := Option.bind_eq_some_iff.1 h
    obtain ⟨bs, hbs, h⟩ := Option.bind_eq_some_iff.1 h
    simp only [pure, Option.some.injEq] at h
    subst h
    obtain ⟨h1, h2⟩ := ih hbs
    refine ⟨by simp [h1], fun i c hc => ?_⟩
    cases i with
    | zero => simp only [List.getElem?_cons_zero, Option.some.injEq] at hc; subst hc; exact ⟨a, rfl, hb⟩
    | succ i => exact h2 i c hc

/-- The invariant of the iteration. -/
structure Inv (o : GOps Y X) (mem : X → (Q → ℝ) → Prop) (y : ℕ → Q → ℝ → ℝ) (w : List (Q → ℝ → ℝ))
    (N d : ℕ) (s : State X) : Prop where
  len : s.tmp.length = w.length
  args : s.yta.length = N
  tmp : ∀ (a : ℕ) l, s.tmp[a]? = some l → ∃ f, w[a]? = some f ∧ Enc o mem l f d
  yta : ∀ i l, s.yta[i]? = some l → Enc o mem l (y i) (d + 1) ∧ Smooth d (y i)

theorem smooth_of_solves {aut : Bool} {res : List ℕ} {w : List (Q → ℝ → ℝ)} {y : ℕ → Q → ℝ → ℝ}
    (hS : Solves aut res w y) {d : ℕ} (hw : ∀ (k : ℕ) f, w[k]? = some f → Smooth d f) (i : ℕ) :
    Smooth (d + 1) (y i) := by
  intro q
  by_cases hi : i < res.length
  · obtain ⟨f, hf, hd⟩ := hS.state i res[i] (by simp [hi])
    exact contDiffAt_of_hasDerivAt (hd q) (hw _ f hf q)
  · by_cases ht : aut = false ∧ i = res.length
    · obtain ⟨ha, rfl⟩ := ht
      have hc : ContDiffAt ℝ (d + 1 : ℕ) (fun t => y res.length q 0 + t) 0 :=
        contDiffAt_const.add contDiffAt_id
      exact hc.congr_of_eventuallyEq (hS.time ha q)
    · have hp := hS.param i (by
        cases aut with
        | true => simp; omega
        | false =>
          have : i ≠ res.length := fun h => ht ⟨rfl, h⟩
          simp; omega) q
      exact (contDiffAt_const (c := y i q 0)).congr_of_eventuallyEq hp

theorem inv_iterate (S : GSound o mem nz ps val) {aut : Bool} {P : Proc Y} {res : List ℕ}
    {y : ℕ → Q → ℝ → ℝ} {w : List (Q → ℝ → ℝ)} (hC : Computes (funAlg Q val) P.c y P.p w)
    (hS : Solves aut res w y) {N d : ℕ} {s s' : State X} (hI : Inv o mem y w N d s)
    (h : flowIterate o aut P res s = some s') (hG : Guard o nz ps P s'.tmp) :
    Inv o mem y w N (d + 1) s' := by
  simp only [flowIterate] at h
  obtain ⟨tmp, htmp, h⟩ := Option.bind_eq_some_iff.1 h
  obtain ⟨fy, hfy, h⟩ := Option.bind_eq_some_iff.1 h
  obtain ⟨yta, hyta, rfl⟩ := Option.map_eq_some_iff.1 h
  have hE := enc_exec S P hC hI.yta P.p [] rfl (v := s.tmp) (v' := tmp) (by simp)
    (fun a l _ hl => hI.tmp a l hl) (by rw [hI.len, hC.1]) htmp hG
  have hlen : tmp.length = w.length := by rw [execFrom_length _ _ htmp, hI.len]
  have hw : ∀ (k : ℕ) f, w[k]? = some f → Smooth d f := by
    intro k f hf
    have hk : k < tmp.length := by rw [hlen]; exact (List.getElem?_eq_some_iff.1 hf).1
    obtain ⟨f', h1, -, h2⟩ := hE k tmp[k] (by simp [hk])
    rw [hf, Option.some.injEq] at h1
    subst h1; exact h2
  obtain ⟨hl, hm⟩ := mapM_getElem? res hfy
  let g : ℕ → Q → ℝ → ℝ := fun i => ((res[i]?).bind fun k => w[k]?).getD fun _ _ => 0
  have hadv := enc_advance S aut fy s.yta (y := y) (g := g)
    (fun i l hl' => by
      obtain ⟨k, hk, hkl⟩ := hm i l hl'
      obtain ⟨f, hf, hE', -⟩ := hE k l hkl
      obtain ⟨f', hf', hd⟩ := hS.state i k hk
      rw [hf, Option.some.injEq] at hf'
      subst hf'
      have : g i = f := by simp [g, hk, hf]
      rw [this]; exact ⟨hE', hd⟩)
    (fun i l hl => (hI.yta i l hl).1)
    (by rw [hl]; exact hS.time) (by rw [hl]; exact hS.param) hyta
  refine ⟨hlen, by rw [← hI.args]; exact hadv.1, fun a l hl => ?_, fun i l hl => ?_⟩
  · obtain ⟨f, h1, h2, -⟩ := hE a l hl
    exact ⟨f, h1, h2⟩
  · exact ⟨hadv.2 i l hl, smooth_of_solves hS hw i⟩

theorem smooth_zero {aut : Bool} {res : List ℕ} {w : List (Q → ℝ → ℝ)} {y : ℕ → Q → ℝ → ℝ}
    (hS : Solves aut res w y) (i : ℕ) : Smooth 0 (y i) := by
  intro q
  by_cases hi : i < res.length
  · obtain ⟨f, hf, hd⟩ := hS.state i res[i] (by simp [hi])
    have : ContDiffAt ℝ 0 (y i q) 0 :=
      contDiffAt_zero.2 ⟨_, hd q, fun t ht => (HasDerivAt.continuousAt ht).continuousWithinAt⟩
    exact_mod_cast this
  · by_cases ht : aut = false ∧ i = res.length
    · obtain ⟨ha, rfl⟩ := ht
      have hc : ContDiffAt ℝ (0 : ℕ) (fun t => y res.length q 0 + t) 0 :=
        contDiffAt_const.add contDiffAt_id
      exact hc.congr_of_eventuallyEq (hS.time ha q)
    · have hp := hS.param i (by
        cases aut with
        | true => simp; omega
        | false =>
          have : i ≠ res.length := fun h => ht ⟨rfl, h⟩
          simp; omega) q
      exact (contDiffAt_const (c := y i q 0)).congr_of_eventuallyEq hp

theorem inv_init {aut : Bool} {P : Proc Y} {res : List ℕ} {y : ℕ → Q → ℝ → ℝ} {w : List (Q → ℝ → ℝ)}
    (hS : Solves aut res w y) (hlen : w.length = P.p.length) {init : List X}
    (hinit : ∀ (i : ℕ) a, init[i]? = some a → mem a fun q => y i q 0) :
    Inv o mem y w init.length 0 (flowInit P init) where
  len := by simp [flowInit, hlen]
  args := by simp [flowInit]
  tmp := by
    intro a l hl
    simp only [flowInit, List.getElem?_replicate] at hl
    split_ifs at hl with h
    simp only [Option.some.injEq] at hl
    subst hl
    exact ⟨w[a]'(by omega), by simp [hlen, h], rfl, by simp⟩
  yta := by
    intro i l hl
    simp only [flowInit, List.getElem?_map, Option.map_eq_some_iff] at hl
    obtain ⟨a, ha, rfl⟩ := hl
    refine ⟨⟨rfl, fun k hk => ?_⟩, smooth_zero hS i⟩
    obtain rfl : k = 0 := by omega
    simp only [tc_zero]
    exact hinit i a ha

theorem inv_run (S : GSound o mem nz ps val) {aut : Bool} {P : Proc Y} {res : List ℕ}
    {y : ℕ → Q → ℝ → ℝ} {w : List (Q → ℝ → ℝ)} (hC : Computes (funAlg Q val) P.c y P.p w)
    (hS : Solves aut res w y) {init : List X}
    (hinit : ∀ (i : ℕ) a, init[i]? = some a → mem a fun q => y i q 0) (n : ℕ) {s : State X}
    (h : flowRun o aut P res init n = some s)
    (hG : ∀ m ≤ n, 0 < m → ∀ s', flowRun o aut P res init m = some s' → Guard o nz ps P s'.tmp) :
    Inv o mem y w init.length n s := by
  induction n generalizing s with
  | zero =>
    simp only [flowRun, Option.some.injEq] at h
    subst h
    exact inv_init hS hC.1 hinit
  | succ n ih =>
    have h' := h
    simp only [flowRun] at h'
    obtain ⟨s0, h0, h1⟩ := Option.bind_eq_some_iff.1 h'
    exact inv_iterate S hC hS (ih h0 fun m hm hp => hG m (by omega) hp) h1
      (hG (n + 1) le_rfl (by omega) s h)

end Verif.Graded
