import Verif.Graded.Flow

/-!
# C96: the Taylor coefficients computed by graded series
-/

namespace Verif.Graded

open Filter Topology
open Ariadne.Symbolic (UnOp BinOp)
open Verif.Procedure (Instr Proc Alg Computes Formula Coherent compileList convertList_spec cinv_empty
  self_mem_nodes)

variable {Y X Q : Type*} {o : GOps Y X} {mem : X → (Q → ℝ) → Prop} {nz ps : X → Prop} {val : Y → ℝ}

/-- spec: the operators on real numbers. -/
noncomputable def realAlg {Y : Type*} (val : Y → ℝ) : Alg Y ℝ where
  cst y := val y
  un op a := realUn op a
  bin op a b := realBin op a b
  pow a n := a ^ n
  mix op y b := realBin op (val y) b
  zero := 0

theorem eval_funAlg (f : Formula Y) (y : ℕ → Q → ℝ → ℝ) (q : Q) (t : ℝ) :
    f.eval (funAlg Q val) y q t = f.eval (realAlg val) fun i => y i q t := by
  induction f with
  | const p c => rfl
  | ind p i => rfl
  | un p op a ih => simp only [Formula.eval, funAlg, realAlg] at ih ⊢; rw [ih]
  | bin p op a b ih1 ih2 => simp only [Formula.eval, funAlg, realAlg] at ih1 ih2 ⊢; rw [ih1, ih2]
  | graded p a n ih => simp only [Formula.eval, funAlg, realAlg] at ih ⊢; rw [ih]
  | scalar p op c a ih => simp only [Formula.eval, funAlg, realAlg] at ih ⊢; rw [ih]

/-! ## Single operations -/

/-- **C96** Products, quotients, sums and differences: given the coefficients of the arguments up to
order `d` and of the result up to order `d-1`, the operation appends an enclosure of the next Taylor
coefficient of the result. -/
theorem C96_binary (S : GSound o mem nz ps val) {r a b : Series X} {f g : Q → ℝ → ℝ} {d : ℕ}
    (hf : Smooth d f) (hg : Smooth d g) (ha : Enc o mem a f (d + 1)) (hb : Enc o mem b g (d + 1)) :
    (Enc o mem r (fun q t => f q t + g q t) d →
      ∃ r', add o r a b = some r' ∧ Enc o mem r' (fun q t => f q t + g q t) (d + 1)) ∧
    (Enc o mem r (fun q t => f q t - g q t) d →
      ∃ r', sub o r a b = some r' ∧ Enc o mem r' (fun q t => f q t - g q t) (d + 1)) ∧
    (Enc o mem r (fun q t => f q t * g q t) d →
      ∃ r', mul o r a b = some r' ∧ Enc o mem r' (fun q t => f q t * g q t) (d + 1)) ∧
    (nz (co o b 0) → Enc o mem r (fun q t => f q t / g q t) d →
      ∃ r', div o r a b = some r' ∧ Enc o mem r' (fun q t => f q t / g q t) (d + 1)) :=
  ⟨enc_add S hf hg ha hb, enc_sub S hf hg ha hb, enc_mul S hf hg ha hb,
    fun h0 => enc_div S hf hg ha hb h0⟩

/-- **C96** Negation, squares, reciprocals, integer powers, square roots, exponentials, logarithms,
sines and cosines. -/
theorem C96_unary (S : GSound o mem nz ps val) {r a : Series X} {f : Q → ℝ → ℝ} {d : ℕ}
    (hf : Smooth d f) (ha : Enc o mem a f (d + 1)) :
    (Enc o mem r (fun q t => -f q t) d →
      ∃ r', neg o r a = some r' ∧ Enc o mem r' (fun q t => -f q t) (d + 1)) ∧
    (Enc o mem r (fun q t => f q t * f q t) d →
      ∃ r', sqr o r a = some r' ∧ Enc o mem r' (fun q t => f q t * f q t) (d + 1)) ∧
    (nz (co o a 0) → Enc o mem r (fun q t => (f q t)⁻¹) d →
      ∃ r', recip o r a = some r' ∧ Enc o mem r' (fun q t => (f q t)⁻¹) (d + 1)) ∧
    (∀ n : ℤ, nz (co o a 0) → Enc o mem r (fun q t => f q t ^ n) d →
      ∃ r', pow o r a n = some r' ∧ Enc o mem r' (fun q t => f q t ^ n) (d + 1)) ∧
    (ps (co o a 0) → nz (o.smul 2 (co o r 0)) ∨ d = 0 → Enc o mem r (fun q t => Real.sqrt (f q t)) d →
      ∃ r', sqrt o r a = some r' ∧ Enc o mem r' (fun q t => Real.sqrt (f q t)) (d + 1)) ∧
    (Enc o mem r (fun q t => Real.exp (f q t)) d →
      ∃ r', exp o r a = some r' ∧ Enc o mem r' (fun q t => Real.exp (f q t)) (d + 1)) ∧
    (ps (co o a 0) → Enc o mem r (fun q t => Real.log (f q t)) d →
      ∃ r', log o r a = some r' ∧ Enc o mem r' (fun q t => Real.log (f q t)) (d + 1)) ∧
    (r.length = d → ∃ r', sin o r a = some r' ∧ Enc o mem r' (fun q t => Real.sin (f q t)) (d + 1)) ∧
    (r.length = d → ∃ r', cos o r a = some r' ∧ Enc o mem r' (fun q t => Real.cos (f q t)) (d + 1)) :=
  ⟨enc_neg S ha, enc_sqr S hf ha, enc_recip S hf ha, fun n => enc_pow S n hf ha,
    fun h0 h2 => enc_sqrt S hf ha h0 fun hd => h2.resolve_right hd, enc_exp S hf ha, enc_log S hf ha,
    enc_sin S hf ha, enc_cos S hf ha⟩

/-- **C96** Integration. -/
theorem C96_antidifferentiate (S : GSound o mem nz ps val) {r a : Series X} {f g : Q → ℝ → ℝ} {d : ℕ}
    (hfg : ∀ q, ∀ᶠ t in 𝓝 0, HasDerivAt (f q) (g q t) t) (ha : Enc o mem a g (d + 1))
    (hr : Enc o mem r f (d + 1)) :
    ∃ r', antidifferentiate o r a = some r' ∧ Enc o mem r' f (d + 2) :=
  enc_antidifferentiate S hfg ha hr

/-! ## Flows -/

/-- **C96** After `n` iterations, the series of every argument has `n+1` coefficients, which enclose
the Taylor coefficients in time of every solution of the differential equation, provided that
divisors, and arguments of logarithms and square roots, have first coefficients which are not zero or
are positive.  No smoothness of the solution is assumed. -/
theorem C96_flow_partial (S : GSound o mem nz ps val) {aut : Bool} {P : Proc Y} {res : List ℕ}
    {y : ℕ → Q → ℝ → ℝ} {w : List (Q → ℝ → ℝ)} (hC : Computes (funAlg Q val) P.c y P.p w)
    (hS : Solves aut res w y) {init : List X}
    (hinit : ∀ (i : ℕ) a, init[i]? = some a → mem a fun q => y i q 0) (n : ℕ) {s : State X}
    (h : flowRun o aut P res init n = some s)
    (hG : ∀ m ≤ n, 0 < m → ∀ s', flowRun o aut P res init m = some s' → Guard o nz ps P s'.tmp) :
    s.yta.length = init.length ∧
      ∀ i l, s.yta[i]? = some l → l.length = n + 1 ∧
        ∀ k ≤ n, ∃ a, l[k]? = some a ∧
          mem a fun q => iteratedDeriv k (y i q) 0 / (k.factorial : ℝ) := by
  have hI := inv_run S hC hS hinit n h hG
  refine ⟨hI.args, fun i l hl => ?_⟩
  obtain ⟨h1, h2⟩ := (hI.yta i l hl).1
  refine ⟨h1, fun k hk => ⟨co o l k, ?_, h2 k (by omega)⟩⟩
  have : k < l.length := by omega
  simp [co, this]

/-- **C96** The same for a system of differential equations `y_i' = f_i(y,t,a)` given by formulae, and
the procedure compiled from them. -/
theorem C96_formulae_partial (S : GSound o mem nz ps val) (rf aut : Bool) (fs : List (Formula Y))
    (hc : Coherent {g | ∃ f ∈ fs, g ∈ f.nodes}) (hn : ∀ f ∈ fs, f.NoScalar)
    {y : ℕ → Q → ℝ → ℝ}
    (hy : ∀ i f, fs[i]? = some f → ∀ q, ∀ᶠ t in 𝓝 0,
      HasDerivAt (y i q) (f.eval (realAlg val) fun j => y j q t) t)
    (ht : aut = false → ∀ q, ∀ᶠ t in 𝓝 0, y fs.length q t = y fs.length q 0 + t)
    (hp : ∀ i, fs.length + (if aut then 0 else 1) ≤ i → ∀ q, ∀ᶠ t in 𝓝 0, y i q t = y i q 0)
    {init : List X} (hinit : ∀ (i : ℕ) a, init[i]? = some a → mem a fun q => y i q 0) (n : ℕ)
    {s : State X}
    (h : flowRun o aut (compileList rf fs).1 (compileList rf fs).2 init n = some s)
    (hG : ∀ m ≤ n, 0 < m → ∀ s', flowRun o aut (compileList rf fs).1 (compileList rf fs).2 init m = some s' →
      Guard o nz ps (compileList rf fs).1 s'.tmp) :
    s.yta.length = init.length ∧
      ∀ i l, s.yta[i]? = some l → l.length = n + 1 ∧
        ∀ k ≤ n, ∃ a, l[k]? = some a ∧
          mem a fun q => iteratedDeriv k (y i q) 0 / (k.factorial : ℝ) := by
  obtain ⟨⟨w, h1⟩, -, h2⟩ := convertList_spec (A := funAlg Q val) (x := y) hc rf fs
    (fun f hf g hg => ⟨f, hf, hg⟩) hn ⟨[], [], []⟩ [] (cinv_empty _ y _)
  have hC : Computes (funAlg Q val) (compileList rf fs).1.c y (compileList rf fs).1.p ([] ++ w) := h1.comp
  have hlen : (compileList rf fs).2.length = fs.length := by simp [compileList]
  refine C96_flow_partial S hC ⟨fun i k hk => ?_, by rw [hlen]; exact ht, by rw [hlen]; exact hp⟩
    hinit n h hG
  simp only [compileList, List.getElem?_map, Option.map_eq_some_iff] at hk
  obtain ⟨f, hf, rfl⟩ := hk
  have hf' : f ∈ fs := List.mem_of_getElem? hf
  obtain ⟨k, hk⟩ := h2 f hf'
  obtain ⟨g, ⟨f', hf'', hg⟩, h3, h4⟩ := h1.cache _ _ hk
  have := hc g ⟨f', hf'', hg⟩ f ⟨f, hf', self_mem_nodes f⟩ h3
  subst this
  refine ⟨_, by rw [hk]; exact h4, fun q => (hy i g hf q).mono fun t h => ?_⟩
  rw [eval_funAlg]; exact h

/-! ## When the iteration succeeds -/

/-- spec: the instructions which graded series can execute. -/
def Supported : Instr → Prop
  | .const _ => True
  | .ind _ => True
  | .un op _ => op ∈ [UnOp.neg, .sqr, .recip, .sqrt, .exp, .log, .sin, .cos]
  | .bin op _ _ => op ∈ [BinOp.add, .sub, .mul, .div]
  | .graded _ _ => True
  | .scalar _ _ _ => False

theorem sincos_length (a : Series X) (ha : a ≠ []) :
    (sincos o a).1.length = a.length ∧ (sincos o a).2.length = a.length := by
  have key : ∀ m, ((sincosStep o a)^[m] ([o.sin (co o a 0)], [o.cos (co o a 0)])).1.length = m + 1 ∧
      ((sincosStep o a)^[m] ([o.sin (co o a 0)], [o.cos (co o a 0)])).2.length = m + 1 := by
    intro m
    induction m with
    | zero => simp
    | succ m ih =>
      rw [Function.iterate_succ_apply']
      simp only [sincosStep, List.length_append, ih.1, ih.2]
      simp
  have : 0 < a.length := List.length_pos_iff.2 ha
  have h := key (a.length - 1)
  unfold sincos
  rw [h.1, h.2]
  omega

theorem unary_total {op : UnOp} (h : op ∈ [UnOp.neg, .sqr, .recip, .sqrt, .exp, .log, .sin, .cos])
    {r a : Series X} (ha : a.length = r.length + 1) :
    ∃ r', unary o op r a = some r' ∧ r'.length = r.length + 1 := by
  have hne : a ≠ [] := by intro h; simp [h] at ha
  have hs := sincos_length (o := o) a hne
  have hle : r.length + 1 ≤ a.length := ha.ge
  fin_cases h <;> simp only [unary, neg, sqr, recip, sqrt, exp, log, sin, cos, if_pos hle]
  · exact ⟨_, rfl, by simp⟩
  · exact ⟨_, rfl, by simp⟩
  · split_ifs <;> exact ⟨_, rfl, by simp⟩
  · split_ifs <;> exact ⟨_, rfl, by simp⟩
  · split_ifs <;> exact ⟨_, rfl, by simp⟩
  · split_ifs <;> exact ⟨_, rfl, by simp⟩
  · exact ⟨_, rfl, by rw [hs.1, ha]⟩
  · exact ⟨_, rfl, by rw [hs.2, ha]⟩

theorem binary_total {op : BinOp} (h : op ∈ [BinOp.add, .sub, .mul, .div])
    {r a b : Series X} (ha : a.length = r.length + 1) (hb : b.length = r.length + 1) :
    ∃ r', binary o op r a b = some r' ∧ r'.length = r.length + 1 := by
  have hle : r.length + 1 = a.length ∧ r.length + 1 = b.length := ⟨ha.symm, hb.symm⟩
  fin_cases h <;> simp only [binary, add, sub, mul, div, if_pos hle] <;> exact ⟨_, rfl, by simp⟩

theorem pow_total {r a : Series X} (n : ℤ) (ha : a.length = r.length + 1) :
    ∃ r', pow o r a n = some r' ∧ r'.length = r.length + 1 := by
  have hle : r.length + 1 ≤ a.length := ha.ge
  simp only [pow, if_pos hle]
  split_ifs <;> exact ⟨_, rfl, by simp⟩

theorem exec_total {P : Proc Y} (hV : P.Valid) (hP : ∀ i ∈ P.p, Supported i) {x : List (Series X)}
    (hi : ∀ j, Instr.ind j ∈ P.p → j < x.length) (hx0 : x ≠ []) {d : ℕ}
    (hx : ∀ l ∈ x, l.length = d + 1) (p q : List Instr) (hpq : P.p = q ++ p) {v : List (Series X)}
    (hlen : v.length = P.p.length)
    (hv1 : ∀ (a : ℕ) l, a < q.length → v[a]? = some l → l.length = d + 1)
    (hv2 : ∀ (a : ℕ) l, q.length ≤ a → v[a]? = some l → l.length = d) :
    ∃ v', execFrom o P.c x p q.length v = some v' ∧ v'.length = P.p.length ∧
      ∀ l ∈ v', l.length = d + 1 := by
  induction p generalizing q v with
  | nil =>
    refine ⟨v, rfl, hlen, fun l hl => ?_⟩
    obtain ⟨a, ha, rfl⟩ := List.getElem_of_mem hl
    refine hv1 a _ ?_ (by simp [ha])
    rw [hlen, hpq] at ha
    simpa using ha
  | cons i p ih =>
    have hq : q.length < v.length := by rw [hlen, hpq]; simp
    have hold := hv2 q.length v[q.length] le_rfl (by simp [hq])
    have hmem : i ∈ P.p := by rw [hpq]; simp
    have hget : P.p[q.length]? = some i := by rw [hpq]; simp
    obtain ⟨hr, hk⟩ := hV _ _ hget
    have arg : ∀ a, a < q.length → ∃ l, v[a]? = some l ∧ l.length = d + 1 := fun a ha =>
      ⟨v[a]'(by omega), by simp [show a < v.length by omega],
        hv1 a _ ha (by simp [show a < v.length by omega])⟩
    have key : ∃ l, execInstr o P.c x v v[q.length] i = some l ∧ l.length = d + 1 := by
      have hsup := hP i hmem
      cases i with
      | const k =>
        have hk' : k < P.c.length := hk k (by simp [Instr.constants])
        cases x with
        | nil => exact absurd rfl hx0
        | cons x0 xs =>
          have h0 := hx x0 (by simp)
          cases x0 with
          | nil => simp at h0
          | cons z zs =>
            refine ⟨o.cst P.c[k] :: List.replicate zs.length o.zero, by simp only [execInstr, List.getElem?_eq_getElem hk', Option.bind_some,
              makeConstant], ?_⟩
            simpa using h0
      | ind j =>
        have hj := hi j hmem
        exact ⟨x[j], by simp [execInstr, hj], hx _ (List.getElem_mem hj)⟩
      | un op a =>
        obtain ⟨l, h1, h2⟩ := arg a (hr a (by simp [Instr.reads]))
        obtain ⟨r', h3, h4⟩ := unary_total (o := o) hsup (r := v[q.length]) (a := l) (by rw [h2, hold])
        exact ⟨r', by simp [execInstr, h1, h3], by rw [h4, hold]⟩
      | bin op a b =>
        obtain ⟨l, h1, h2⟩ := arg a (hr a (by simp [Instr.reads]))
        obtain ⟨m, h1', h2'⟩ := arg b (hr b (by simp [Instr.reads]))
        obtain ⟨r', h3, h4⟩ := binary_total (o := o) hsup (r := v[q.length]) (a := l) (b := m)
          (by rw [h2, hold]) (by rw [h2', hold])
        exact ⟨r', by simp [execInstr, h1, h1', h3], by rw [h4, hold]⟩
      | graded a n =>
        obtain ⟨l, h1, h2⟩ := arg a (hr a (by simp [Instr.reads]))
        obtain ⟨r', h3, h4⟩ := pow_total (o := o) n (r := v[q.length]) (a := l) (by rw [h2, hold])
        exact ⟨r', by simp [execInstr, h1, h3], by rw [h4, hold]⟩
      | scalar op j a => exact absurd hsup (by simp [Supported])
    obtain ⟨l, hl1, hl2⟩ := key
    obtain ⟨v', h1, h2⟩ := ih (q ++ [i]) (by rw [hpq]; simp) (v := v.set q.length l) (by simpa using hlen)
      (by
        intro a m ha hm
        simp only [List.length_append, List.length_cons, List.length_nil, zero_add] at ha
        rcases Nat.lt_succ_iff_lt_or_eq.1 ha with h1 | h1
        · rw [List.getElem?_set_ne (by omega)] at hm
          exact hv1 a m h1 hm
        · subst h1
          rw [List.getElem?_set_self hq, Option.some.injEq] at hm
          rw [← hm]; exact hl2)
      (by
        intro a m ha hm
        simp only [List.length_append, List.length_cons, List.length_nil, zero_add] at ha
        rw [List.getElem?_set_ne (by omega)] at hm
        exact hv2 a m (by omega) hm)
    refine ⟨v', ?_, h2⟩
    simp only [execFrom, List.getElem?_eq_getElem hq, Option.bind_some, hl1]
    simpa using h1

theorem advance_total (aut : Bool) {d : ℕ} (fy ys : List (Series X))
    (hf : ∀ l ∈ fy, l.length = d + 1) (hy : ∀ l ∈ ys, l.length = d + 1)
    (hlen : fy.length + (if aut then 0 else 1) ≤ ys.length) :
    ∃ ys', advance o aut fy ys = some ys' ∧ ys'.length = ys.length ∧ ∀ l ∈ ys', l.length = d + 2 := by
  induction fy generalizing ys with
  | nil =>
    cases aut with
    | true =>
      refine ⟨_, by simp [advance]; rfl, by simp, ?_⟩
      intro l hl
      obtain ⟨m, hm, rfl⟩ := List.mem_map.1 hl
      simp [hy m hm]
    | false =>
      cases ys with
      | nil => simp at hlen
      | cons t as =>
        refine ⟨_, by simp [advance]; rfl, by simp, ?_⟩
        intro l hl
        rcases List.mem_cons.1 hl with rfl | hl
        · simp [hy t (by simp)]
        · obtain ⟨m, hm, rfl⟩ := List.mem_map.1 hl
          simp [hy m (by simp [hm])]
  | cons f fs ih =>
    cases ys with
    | nil => simp at hlen
    | cons z zs =>
      obtain ⟨zs', h1, h2, h3⟩ := ih zs (fun l hl => hf l (by simp [hl])) (fun l hl => hy l (by simp [hl]))
        (by simp only [List.length_cons] at hlen; omega)
      have hz := hy z (by simp)
      have hf0 := hf f (by simp)
      refine ⟨_, by
        simp only [advance, antidifferentiate]
        rw [if_pos ⟨by rw [hz, hf0], by intro h; simp [h] at hf0⟩, Option.bind_some, h1,
          Option.map_some], by simp [h2], ?_⟩
      intro l hl
      rcases List.mem_cons.1 hl with rfl | hl
      · simp [hz]
      · exact h3 l hl

theorem mapM_total {α β : Type*} {f : α → Option β} (l : List α) (h : ∀ a ∈ l, ∃ b, f a = some b) :
    ∃ m, l.mapM f = some m := by
  induction l with
  | nil => exact ⟨[], by simp⟩
  | cons a l ih =>
    obtain ⟨b, hb⟩ := h a (by simp)
    obtain ⟨m, hm⟩ := ih fun a ha => h a (by simp [ha])
    exact ⟨b :: m, by simp [List.mapM_cons, hb, hm]⟩

/-- **C96** For a valid procedure using constants, arguments, `+`, `-`, `*`, `/`, negation, squares,
reciprocals, integer powers, square roots, exponentials, logarithms, sines and cosines, every number
of iterations succeeds. -/
theorem C96_total {aut : Bool} {P : Proc Y} (hV : P.Valid) (hP : ∀ i ∈ P.p, Supported i)
    {res : List ℕ} (hres : ∀ k ∈ res, k < P.p.length) {init : List X}
    (hi : ∀ j, Instr.ind j ∈ P.p → j < init.length)
    (hlen : res.length + (if aut then 0 else 1) ≤ init.length) (h0 : init ≠ []) (n : ℕ) :
    ∃ s, flowRun o aut P res init n = some s ∧ s.tmp.length = P.p.length ∧
      s.yta.length = init.length ∧ (∀ l ∈ s.tmp, l.length = n) ∧ ∀ l ∈ s.yta, l.length = n + 1 := by
  induction n with
  | zero =>
    refine ⟨_, rfl, by simp [flowInit], by simp [flowInit], ?_, ?_⟩
    · intro l hl
      simp only [flowInit, List.mem_replicate] at hl
      simp [hl.2]
    · intro l hl
      simp only [flowInit, List.mem_map] at hl
      obtain ⟨a, -, rfl⟩ := hl
      simp
  | succ n ih =>
    obtain ⟨s, h1, h2, h3, h4, h5⟩ := ih
    obtain ⟨tmp, t1, t2, t3⟩ := exec_total (o := o) hV hP (x := s.yta) (by rw [h3]; exact hi)
      (by intro h; rw [h] at h3; exact h0 (List.length_eq_zero_iff.1 h3.symm)) h5 P.p [] rfl
      (v := s.tmp) h2 (by simp)
      (fun a l _ hl => h4 l (List.mem_of_getElem? hl))
    obtain ⟨fy, f1⟩ := mapM_total (f := fun k => tmp[k]?) res fun k hk => by
      have : k < tmp.length := by rw [t2]; exact hres k hk
      exact ⟨tmp[k], by simp [this]⟩
    obtain ⟨hl, hm⟩ := mapM_getElem? res f1
    obtain ⟨yta, y1, y2, y3⟩ := advance_total (o := o) aut (d := n) fy s.yta
      (fun l hl => by
        obtain ⟨i, hi, rfl⟩ := List.getElem_of_mem hl
        obtain ⟨k, -, hk⟩ := hm i fy[i] (by simp [hi])
        exact t3 _ (List.mem_of_getElem? hk)) h5 (by rw [hl, h3]; exact hlen)
    refine ⟨⟨tmp, yta⟩, ?_, t2, by rw [y2, h3], t3, y3⟩
    simp only [List.length_nil] at t1
    simp only [flowRun, h1, Option.bind_some, flowIterate, t1, f1, y1, Option.map_some]

theorem exec_unsupported {P : Proc Y} {x : List (Series X)} (hx : ∀ l ∈ x, l.length = 1)
    (p q : List Instr) (hpq : P.p = q ++ p) {v : List (Series X)}
    (hv1 : ∀ (a : ℕ) l, v[a]? = some l → l.length ≤ 1)
    (hv2 : ∀ (a : ℕ) l, q.length ≤ a → v[a]? = some l → l = [])
    {i : Instr} (hi : i ∈ p) (hU : ¬ Supported i) : execFrom o P.c x p q.length v = none := by
  induction p generalizing q v with
  | nil => simp at hi
  | cons j p ih =>
    cases hold : v[q.length]? with
    | none => simp [execFrom, hold]
    | some old =>
      have hold' := hv2 _ _ le_rfl hold
      subst hold'
      cases hl : execInstr o P.c x v [] j with
      | none => simp [execFrom, hold, hl]
      | some l =>
        simp only [execFrom, hold, hl, Option.bind_some]
        have deg : ∀ a : Series X, a.length ≤ 1 → ¬ (degree16 ([] : Series X) + 1 = degree16 a) := by
          intro a ha h
          simp only [degree16, List.length_nil] at h
          omega
        have hun : ∀ op a, Instr.un op a = j → op ∈ [UnOp.neg, .sqr, .recip, .sqrt, .exp, .log, .sin, .cos] := by
          rintro op a rfl
          simp only [execInstr] at hl
          obtain ⟨m, hm, hl⟩ := Option.bind_eq_some_iff.1 hl
          have := hv1 a m hm
          cases op <;> simp [unary, nul, pos, hlf, deg m this] at hl ⊢
        have hbin : ∀ op a b, Instr.bin op a b = j → op ∈ [BinOp.add, .sub, .mul, .div] := by
          rintro op a b rfl
          simp only [execInstr] at hl
          obtain ⟨m, hm, hl⟩ := Option.bind_eq_some_iff.1 hl
          obtain ⟨m', hm', hl⟩ := Option.bind_eq_some_iff.1 hl
          cases op <;> simp [binary] at hl ⊢
        have hj : Supported j := by
          cases j with
          | const k => trivial
          | ind k => trivial
          | un op a => exact hun op a rfl
          | bin op a b => exact hbin op a b rfl
          | graded a n => trivial
          | scalar op k a => simp [execInstr] at hl
        have hne : i ≠ j := fun h => hU (h ▸ hj)
        have hlen : l.length ≤ 1 := by
          cases j with
          | const k =>
            simp only [execInstr] at hl
            obtain ⟨m, hm, hl⟩ := Option.bind_eq_some_iff.1 hl
            match x, hx with
            | [], _ => simp [makeConstant] at hl
            | [] :: _, _ => simp [makeConstant] at hl
            | (z :: zs) :: _, hx =>
              have := hx (z :: zs) (by simp)
              simp only [makeConstant, Option.some.injEq] at hl
              subst hl
              simpa using this.le
          | ind k => exact (hx l (List.mem_of_getElem? hl)).le
          | un op a =>
            simp only [execInstr] at hl
            obtain ⟨m, hm, hl⟩ := Option.bind_eq_some_iff.1 hl
            have hml := hv1 a m hm
            by_cases hm1 : m.length = 1
            · obtain ⟨r', h1, h2⟩ := unary_total (o := o) (hun op a rfl) (r := []) (a := m) (by simpa using hm1)
              rw [h1, Option.some.injEq] at hl
              subst hl; simpa using h2.le
            · have hm0 : m = [] := List.length_eq_zero_iff.1 (by omega)
              subst hm0
              have := hun op a rfl
              fin_cases this <;> simp [unary, neg, sqr, recip, sqrt, exp, log, sin, cos] at hl
          | bin op a b =>
            simp only [execInstr] at hl
            obtain ⟨m, hm, hl⟩ := Option.bind_eq_some_iff.1 hl
            obtain ⟨m', hm', hl⟩ := Option.bind_eq_some_iff.1 hl
            have := hbin op a b rfl
            fin_cases this <;> simp only [binary, add, sub, mul, div] at hl <;> split_ifs at hl <;>
              rw [← Option.some.inj hl] <;> simp
          | graded a n =>
            simp only [execInstr] at hl
            obtain ⟨m, hm, hl⟩ := Option.bind_eq_some_iff.1 hl
            simp only [pow] at hl
            split_ifs at hl <;> rw [← Option.some.inj hl] <;> simp
          | scalar op k a => simp [execInstr] at hl
        have := ih (q ++ [j]) (by rw [hpq]; simp) (v := v.set q.length l)
          (by
            intro a m hm
            rw [List.getElem?_set] at hm
            split_ifs at hm with h1 h2
            · rw [← Option.some.inj hm]; exact hlen
            · exact hv1 a m hm)
          (by
            intro a m ha hm
            simp only [List.length_append, List.length_cons, List.length_nil, zero_add] at ha
            rw [List.getElem?_set_ne (by omega)] at hm
            exact hv2 a m (by omega) hm)
          (by simpa [hne] using hi)
        simpa using this

/-- **C96** If the procedure contains any other operator, the very first iteration fails: the
assertions of `nul`, `pos` and `hlf` compare the degree of the empty series, which is `65535`; tangents
and inverse trigonometric functions are not implemented; absolute values, maxima and minima throw. -/
theorem C96_unsupported {aut : Bool} {P : Proc Y} {res : List ℕ} {init : List X} {i : Instr}
    (hi : i ∈ P.p) (hU : ¬ Supported i) (n : ℕ) : flowRun o aut P res init (n + 1) = none := by
  have h1 : flowRun o aut P res init 1 = none := by
    simp only [flowRun, Option.bind_some, flowIterate]
    have := exec_unsupported (o := o) (P := P) (x := (flowInit P init).yta)
      (by
        intro l hl
        simp only [flowInit, List.mem_map] at hl
        obtain ⟨a, -, rfl⟩ := hl
        rfl) P.p [] rfl (v := (flowInit P init).tmp)
      (by
        intro a l hl
        have := List.mem_of_getElem? hl
        simp only [flowInit, List.mem_replicate] at this
        simp [this.2])
      (by
        intro a l _ hl
        have := List.mem_of_getElem? hl
        simp only [flowInit, List.mem_replicate] at this
        exact this.2) hi hU
    simp only [List.length_nil] at this
    rw [this, Option.bind_none]
  induction n with
  | zero => exact h1
  | succ n ih => rw [flowRun, ih, Option.bind_none]

end Verif.Graded
