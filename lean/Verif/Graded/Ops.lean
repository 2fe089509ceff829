import Verif.Graded.Model
import Verif.Graded.Taylor
import Verif.Procedure.Compile

/-!
# Each graded operation appends the next Taylor coefficient
-/

namespace Verif.Graded

open Filter Topology
open Ariadne.Symbolic (UnOp BinOp)
open Verif.Procedure (Instr Proc Alg Computes)

variable {Y X Q : Type*} {o : GOps Y X}

/-- spec: the operations on coefficients enclose the operations on real functions of a parameter.
`mem a f` says that `a` encloses the values of `f`; division, logarithms and square roots are only
required to be sound for coefficients with the property `nz` or `ps`, which must ensure that the
values are not zero or are positive. -/
structure GSound (o : GOps Y X) (mem : X → (Q → ℝ) → Prop) (nz ps : X → Prop) (val : Y → ℝ) : Prop where
  zero : mem o.zero fun _ => 0
  plusOne : ∀ {a f}, mem a f → mem (o.plusOne a) fun q => f q + 1
  add : ∀ {a b f g}, mem a f → mem b g → mem (o.add a b) fun q => f q + g q
  sub : ∀ {a b f g}, mem a f → mem b g → mem (o.sub a b) fun q => f q - g q
  mul : ∀ {a b f g}, mem a f → mem b g → mem (o.mul a b) fun q => f q * g q
  div : ∀ {a b f g}, mem a f → mem b g → nz b → mem (o.div a b) fun q => f q / g q
  neg : ∀ {a f}, mem a f → mem (o.neg a) fun q => -f q
  hlf : ∀ {a f}, mem a f → mem (o.hlf a) fun q => f q / 2
  smul : ∀ {a f} (k : ℤ), mem a f → mem (o.smul k a) fun q => (k : ℝ) * f q
  divInt : ∀ {a f} (k : ℤ), k ≠ 0 → mem a f → mem (o.divInt a k) fun q => f q / (k : ℝ)
  recip : ∀ {a f}, mem a f → nz a → mem (o.recip a) fun q => (f q)⁻¹
  sqrt : ∀ {a f}, mem a f → ps a → mem (o.sqrt a) fun q => Real.sqrt (f q)
  exp : ∀ {a f}, mem a f → mem (o.exp a) fun q => Real.exp (f q)
  log : ∀ {a f}, mem a f → ps a → mem (o.log a) fun q => Real.log (f q)
  sin : ∀ {a f}, mem a f → mem (o.sin a) fun q => Real.sin (f q)
  cos : ∀ {a f}, mem a f → mem (o.cos a) fun q => Real.cos (f q)
  pow : ∀ {a f} (n : ℤ), mem a f → nz a → mem (o.pow a n) fun q => f q ^ n
  cst : ∀ y, mem (o.cst y) fun _ => val y
  nz_ne : ∀ {a f}, mem a f → nz a → ∀ q, f q ≠ 0
  ps_pos : ∀ {a f}, mem a f → ps a → ∀ q, 0 < f q
  ps_nz : ∀ {a}, ps a → nz a

/-- spec: a series encloses the first `n` Taylor coefficients at `0` of a function of time, for every
value of the parameter. -/
def Enc (o : GOps Y X) (mem : X → (Q → ℝ) → Prop) (l : Series X) (f : Q → ℝ → ℝ) (n : ℕ) : Prop :=
  l.length = n ∧ ∀ k < n, mem (co o l k) fun q => tc (f q) k

/-- spec: continuously differentiable `n` times at time `0`. -/
def Smooth (n : ℕ) (f : Q → ℝ → ℝ) : Prop := ∀ q, ContDiffAt ℝ n (f q) 0

variable {mem : X → (Q → ℝ) → Prop} {nz ps : X → Prop} {val : Y → ℝ}

theorem mem_addLoop (S : GSound o mem nz ps val) {r : X} {f : Q → ℝ} (hr : mem r f) (t : ℕ → X)
    (g : ℕ → Q → ℝ) (n : ℕ) (ht : ∀ i < n, mem (t i) (g i)) :
    mem (addLoop o r t n) fun q => f q + ∑ i ∈ Finset.range n, g i q := by
  induction n with
  | zero => simpa [addLoop] using hr
  | succ n ih =>
    have h1 := S.add (ih fun i hi => ht i (by omega)) (ht n (by omega))
    simp only [addLoop, List.range_succ, List.foldl_append, List.foldl_cons, List.foldl_nil] at h1 ⊢
    simpa only [Finset.sum_range_succ, add_assoc] using h1

theorem mem_subLoop (S : GSound o mem nz ps val) {r : X} {f : Q → ℝ} (hr : mem r f) (t : ℕ → X)
    (g : ℕ → Q → ℝ) (n : ℕ) (ht : ∀ i < n, mem (t i) (g i)) :
    mem (subLoop o r t n) fun q => f q - ∑ i ∈ Finset.range n, g i q := by
  induction n with
  | zero => simpa [subLoop] using hr
  | succ n ih =>
    have h1 := S.sub (ih fun i hi => ht i (by omega)) (ht n (by omega))
    simp only [subLoop, List.range_succ, List.foldl_append, List.foldl_cons, List.foldl_nil] at h1 ⊢
    simpa only [Finset.sum_range_succ, sub_sub] using h1

theorem co_append_left (l : Series X) (x : X) {k : ℕ} (h : k < l.length) :
    co o (l ++ [x]) k = co o l k := by
  simp [co, List.getElem?_append_left h]

theorem co_append_last (l : Series X) (x : X) : co o (l ++ [x]) l.length = x := by
  simp [co]

theorem enc_append {l : Series X} {f : Q → ℝ → ℝ} {d : ℕ} (h : Enc o mem l f d) {x : X}
    (hx : mem x fun q => tc (f q) d) : Enc o mem (l ++ [x]) f (d + 1) := by
  refine ⟨by simp [h.1], fun k hk => ?_⟩
  rcases Nat.lt_succ_iff_lt_or_eq.1 hk with h1 | h1
  · rw [co_append_left _ _ (by rw [h.1]; exact h1)]; exact h.2 k h1
  · subst h1
    have := co_append_last (o := o) l x
    rw [h.1] at this
    rw [this]; exact hx

theorem getLastD_eq {l : Series X} {d : ℕ} (h : l.length = d + 1) : l.getLastD o.zero = co o l d := by
  rw [List.getLastD_eq_getLast?, List.getLast?_eq_getElem?, h]
  simp [co]

theorem enc_last {l : Series X} {f : Q → ℝ → ℝ} {d : ℕ} (h : Enc o mem l f (d + 1)) :
    mem (l.getLastD o.zero) fun q => tc (f q) d := by
  rw [getLastD_eq h.1]; exact h.2 d (by omega)

theorem enc_congr {l : Series X} {f g : Q → ℝ → ℝ} {d : ℕ} (h : Enc o mem l f d)
    (e : ∀ q, f q =ᶠ[𝓝 0] g q) : Enc o mem l g d := by
  refine ⟨h.1, fun k hk => ?_⟩
  have := h.2 k hk
  rwa [show (fun q => tc (f q) k) = fun q => tc (g q) k from funext fun q => tc_congr (e q) k] at this

section

variable (S : GSound o mem nz ps val) {r a b : Series X} {f g : Q → ℝ → ℝ} {d : ℕ}
include S

theorem enc_neg (ha : Enc o mem a f (d + 1)) (hr : Enc o mem r (fun q t => -f q t) d) :
    ∃ r', neg o r a = some r' ∧ Enc o mem r' (fun q t => -f q t) (d + 1) := by
  refine ⟨_, if_pos (by rw [hr.1, ha.1]), enc_append hr ?_⟩
  simpa only [tc_neg] using S.neg (enc_last ha)

theorem enc_hlf (ha : Enc o mem a f (d + 1)) (hr : Enc o mem r (fun q t => f q t / 2) d)
    {r' : Series X} (h : hlf o r a = some r') : Enc o mem r' (fun q t => f q t / 2) (d + 1) := by
  simp only [hlf] at h
  split_ifs at h
  rw [← Option.some.inj h]
  refine enc_append hr ?_
  simpa only [tc_half] using S.hlf (enc_last ha)

omit S in
theorem enc_pos (ha : Enc o mem a f (d + 1)) (hr : Enc o mem r f d)
    {r' : Series X} (h : pos o r a = some r') : Enc o mem r' f (d + 1) := by
  simp only [pos] at h
  split_ifs at h
  rw [← Option.some.inj h]
  exact enc_append hr (enc_last ha)

theorem enc_nul (hr : Enc o mem r (fun _ _ => 0) d)
    {r' : Series X} (h : nul o r a = some r') : Enc o mem r' (fun _ _ => 0) (d + 1) := by
  simp only [nul] at h
  split_ifs at h
  rw [← Option.some.inj h]
  refine enc_append hr ?_
  have h0 := S.zero
  rwa [show (fun _ : Q => (0 : ℝ)) = fun _ => tc (fun _ => 0) d from
    funext fun _ => by rw [tc_const]; simp] at h0

theorem enc_add (hf : Smooth d f) (hg : Smooth d g) (ha : Enc o mem a f (d + 1))
    (hb : Enc o mem b g (d + 1)) (hr : Enc o mem r (fun q t => f q t + g q t) d) :
    ∃ r', add o r a b = some r' ∧ Enc o mem r' (fun q t => f q t + g q t) (d + 1) := by
  refine ⟨_, if_pos ⟨by rw [hr.1, ha.1], by rw [hr.1, hb.1]⟩, enc_append hr ?_⟩
  have := S.add (enc_last ha) (enc_last hb)
  rwa [show (fun q => tc (f q) d + tc (g q) d) = fun q => tc (fun t => f q t + g q t) d from
    funext fun q => (tc_add (hf q) (hg q) le_rfl).symm] at this

theorem enc_sub (hf : Smooth d f) (hg : Smooth d g) (ha : Enc o mem a f (d + 1))
    (hb : Enc o mem b g (d + 1)) (hr : Enc o mem r (fun q t => f q t - g q t) d) :
    ∃ r', sub o r a b = some r' ∧ Enc o mem r' (fun q t => f q t - g q t) (d + 1) := by
  refine ⟨_, if_pos ⟨by rw [hr.1, ha.1], by rw [hr.1, hb.1]⟩, enc_append hr ?_⟩
  have := S.sub (enc_last ha) (enc_last hb)
  rwa [show (fun q => tc (f q) d - tc (g q) d) = fun q => tc (fun t => f q t - g q t) d from
    funext fun q => (tc_sub (hf q) (hg q) le_rfl).symm] at this

theorem enc_mul (hf : Smooth d f) (hg : Smooth d g) (ha : Enc o mem a f (d + 1))
    (hb : Enc o mem b g (d + 1)) (hr : Enc o mem r (fun q t => f q t * g q t) d) :
    ∃ r', mul o r a b = some r' ∧ Enc o mem r' (fun q t => f q t * g q t) (d + 1) := by
  refine ⟨_, if_pos ⟨by rw [hr.1, ha.1], by rw [hr.1, hb.1]⟩, enc_append hr ?_⟩
  rw [hr.1]
  have := mem_addLoop S S.zero (fun i => o.mul (co o a i) (co o b (d - i)))
    (fun i q => tc (f q) i * tc (g q) (d - i)) (d + 1)
    (fun i hi => S.mul (ha.2 i hi) (hb.2 (d - i) (by omega)))
  rwa [show (fun q => 0 + ∑ i ∈ Finset.range (d + 1), tc (f q) i * tc (g q) (d - i)) =
      fun q => tc (fun t => f q t * g q t) d from
    funext fun q => by rw [tc_mul (hf q) (hg q) le_rfl, zero_add]] at this

theorem enc_sqr (hf : Smooth d f) (ha : Enc o mem a f (d + 1))
    (hr : Enc o mem r (fun q t => f q t * f q t) d) :
    ∃ r', sqr o r a = some r' ∧ Enc o mem r' (fun q t => f q t * f q t) (d + 1) := by
  refine ⟨_, if_pos (by rw [hr.1, ha.1]), enc_append hr ?_⟩
  rw [hr.1]
  have := mem_addLoop S S.zero (fun i => o.mul (co o a i) (co o a (d - i)))
    (fun i q => tc (f q) i * tc (f q) (d - i)) (d + 1)
    (fun i hi => S.mul (ha.2 i hi) (ha.2 (d - i) (by omega)))
  rwa [show (fun q => 0 + ∑ i ∈ Finset.range (d + 1), tc (f q) i * tc (f q) (d - i)) =
      fun q => tc (fun t => f q t * f q t) d from
    funext fun q => by rw [tc_mul (hf q) (hf q) le_rfl, zero_add]] at this

theorem nz_head (ha : Enc o mem a f (d + 1)) (h : nz (co o a 0)) (q : Q) : f q 0 ≠ 0 := by
  have := S.nz_ne (ha.2 0 (by omega)) h q
  rwa [tc_zero] at this

theorem ps_head (ha : Enc o mem a f (d + 1)) (h : ps (co o a 0)) (q : Q) : 0 < f q 0 := by
  have := S.ps_pos (ha.2 0 (by omega)) h q
  rwa [tc_zero] at this

theorem enc_div (hf : Smooth d f) (hg : Smooth d g) (ha : Enc o mem a f (d + 1))
    (hb : Enc o mem b g (d + 1)) (h0 : nz (co o b 0)) (hr : Enc o mem r (fun q t => f q t / g q t) d) :
    ∃ r', div o r a b = some r' ∧ Enc o mem r' (fun q t => f q t / g q t) (d + 1) := by
  refine ⟨_, if_pos ⟨by rw [hr.1, ha.1], by rw [hr.1, hb.1]⟩, enc_append hr ?_⟩
  rw [hr.1]
  have := mem_subLoop S (S.add S.zero (ha.2 d (by omega)))
    (fun i => o.mul (co o b (d - i)) (co o r i))
    (fun i q => tc (g q) (d - i) * tc (fun t => f q t / g q t) i) d
    (fun i hi => S.mul (hb.2 (d - i) (by omega)) (hr.2 i hi))
  have := S.div this (hb.2 0 (by omega)) h0
  rwa [show (fun q => (0 + tc (f q) d - ∑ i ∈ Finset.range d,
        tc (g q) (d - i) * tc (fun t => f q t / g q t) i) / tc (g q) 0) =
      fun q => tc (fun t => f q t / g q t) d from
    funext fun q => by rw [tc_div (hf q) (hg q) (nz_head S hb h0 q) le_rfl, zero_add]] at this

theorem enc_recip (hf : Smooth d f) (ha : Enc o mem a f (d + 1)) (h0 : nz (co o a 0))
    (hr : Enc o mem r (fun q t => (f q t)⁻¹) d) :
    ∃ r', recip o r a = some r' ∧ Enc o mem r' (fun q t => (f q t)⁻¹) (d + 1) := by
  unfold recip
  rw [if_pos (by rw [hr.1, ha.1]), hr.1]
  cases d with
  | zero =>
    refine ⟨_, if_pos rfl, enc_append hr ?_⟩
    simpa only [tc_zero] using S.recip (ha.2 0 (by omega)) h0
  | succ d =>
    refine ⟨_, if_neg (by omega), enc_append hr ?_⟩
    have := mem_subLoop S S.zero (fun i => o.mul (co o a (d + 1 - i)) (co o r i))
      (fun i q => tc (f q) (d + 1 - i) * tc (fun t => (f q t)⁻¹) i) (d + 1)
      (fun i hi => S.mul (ha.2 (d + 1 - i) (by omega)) (hr.2 i hi))
    have := S.mul this (hr.2 0 (by omega))
    rwa [show (fun q => (0 - ∑ i ∈ Finset.range (d + 1),
          tc (f q) (d + 1 - i) * tc (fun t => (f q t)⁻¹) i) * tc (fun t => (f q t)⁻¹) 0) =
        fun q => tc (fun t => (f q t)⁻¹) (d + 1) from
      funext fun q => (tc_inv (hf q) (nz_head S ha h0 q) le_rfl).symm] at this

theorem enc_pow (n : ℤ) (hf : Smooth d f) (ha : Enc o mem a f (d + 1)) (h0 : nz (co o a 0))
    (hr : Enc o mem r (fun q t => f q t ^ n) d) :
    ∃ r', pow o r a n = some r' ∧ Enc o mem r' (fun q t => f q t ^ n) (d + 1) := by
  unfold pow
  rw [if_pos (by rw [hr.1, ha.1]), hr.1]
  cases d with
  | zero =>
    refine ⟨_, if_pos rfl, enc_append hr ?_⟩
    simpa only [tc_zero] using S.pow n (ha.2 0 (by omega)) h0
  | succ d =>
    refine ⟨_, if_neg (by omega), enc_append hr ?_⟩
    have := mem_addLoop S S.zero
      (fun i => o.mul (o.smul (((d + 1 - i : ℕ) : ℤ) * n - i) (co o a (d + 1 - i))) (co o r i))
      (fun i q => ((((d + 1 - i : ℕ) : ℤ) * n - i : ℤ) : ℝ) * tc (f q) (d + 1 - i) *
        tc (fun t => f q t ^ n) i) (d + 1)
      (fun i hi => S.mul (S.smul _ (ha.2 (d + 1 - i) (by omega))) (hr.2 i hi))
    have := S.div (S.divInt ((d + 1 : ℕ) : ℤ) (by omega) this) (ha.2 0 (by omega)) h0
    rwa [show (fun q => (0 + ∑ i ∈ Finset.range (d + 1),
          ((((d + 1 - i : ℕ) : ℤ) * n - i : ℤ) : ℝ) * tc (f q) (d + 1 - i) *
            tc (fun t => f q t ^ n) i) / (((d + 1 : ℕ) : ℤ) : ℝ) / tc (f q) 0) =
        fun q => tc (fun t => f q t ^ n) (d + 1) from
      funext fun q => by
        rw [tc_zpow n (hf q) (nz_head S ha h0 q), zero_add, Int.cast_natCast]] at this

theorem enc_sqrt (hf : Smooth d f) (ha : Enc o mem a f (d + 1)) (h0 : ps (co o a 0))
    (h2 : d ≠ 0 → nz (o.smul 2 (co o r 0))) (hr : Enc o mem r (fun q t => Real.sqrt (f q t)) d) :
    ∃ r', sqrt o r a = some r' ∧ Enc o mem r' (fun q t => Real.sqrt (f q t)) (d + 1) := by
  unfold sqrt
  rw [if_pos (by rw [hr.1, ha.1]), hr.1]
  cases d with
  | zero =>
    refine ⟨_, if_pos rfl, enc_append hr ?_⟩
    simpa only [tc_zero] using S.sqrt (ha.2 0 (by omega)) h0
  | succ d =>
    refine ⟨_, if_neg (by omega), enc_append hr ?_⟩
    have := mem_subLoop S (ha.2 (d + 1) (by omega))
      (fun i => o.mul (co o r (d + 1 - (i + 1))) (co o r (i + 1)))
      (fun i q => tc (fun t => Real.sqrt (f q t)) (d + 1 - (i + 1)) *
        tc (fun t => Real.sqrt (f q t)) (i + 1)) d
      (fun i hi => S.mul (hr.2 (d + 1 - (i + 1)) (by omega)) (hr.2 (i + 1) (by omega)))
    have := S.div this (S.smul 2 (hr.2 0 (by omega))) (h2 (by omega))
    rwa [show (fun q => (tc (f q) (d + 1) - ∑ i ∈ Finset.range d,
          tc (fun t => Real.sqrt (f q t)) (d + 1 - (i + 1)) *
            tc (fun t => Real.sqrt (f q t)) (i + 1)) /
            (((2 : ℤ) : ℝ) * tc (fun t => Real.sqrt (f q t)) 0)) =
        fun q => tc (fun t => Real.sqrt (f q t)) (d + 1) from
      funext fun q => by
        rw [tc_sqrt (hf q) (ps_head S ha h0 q) le_rfl]; norm_num] at this

theorem enc_exp (hf : Smooth d f) (ha : Enc o mem a f (d + 1))
    (hr : Enc o mem r (fun q t => Real.exp (f q t)) d) :
    ∃ r', exp o r a = some r' ∧ Enc o mem r' (fun q t => Real.exp (f q t)) (d + 1) := by
  unfold exp
  rw [if_pos (by rw [hr.1, ha.1]), hr.1]
  cases d with
  | zero =>
    refine ⟨_, if_pos rfl, enc_append hr ?_⟩
    simpa only [tc_zero, zero_add] using S.add S.zero (S.exp (ha.2 0 (by omega)))
  | succ d =>
    refine ⟨_, if_neg (by omega), enc_append hr ?_⟩
    have := mem_addLoop S S.zero
      (fun i => o.mul (o.smul ((d + 1 - i : ℕ) : ℤ) (co o a (d + 1 - i))) (co o r i))
      (fun i q => (((d + 1 - i : ℕ) : ℤ) : ℝ) * tc (f q) (d + 1 - i) *
        tc (fun t => Real.exp (f q t)) i) (d + 1)
      (fun i hi => S.mul (S.smul _ (ha.2 (d + 1 - i) (by omega))) (hr.2 i hi))
    have := S.divInt ((d + 1 : ℕ) : ℤ) (by omega) this
    rwa [show (fun q => (0 + ∑ i ∈ Finset.range (d + 1), (((d + 1 - i : ℕ) : ℤ) : ℝ) *
          tc (f q) (d + 1 - i) * tc (fun t => Real.exp (f q t)) i) / (((d + 1 : ℕ) : ℤ) : ℝ)) =
        fun q => tc (fun t => Real.exp (f q t)) (d + 1) from
      funext fun q => by
        rw [tc_exp (hf q), zero_add]; simp only [Int.cast_natCast]] at this

theorem enc_log (hf : Smooth d f) (ha : Enc o mem a f (d + 1)) (h0 : ps (co o a 0))
    (hr : Enc o mem r (fun q t => Real.log (f q t)) d) :
    ∃ r', log o r a = some r' ∧ Enc o mem r' (fun q t => Real.log (f q t)) (d + 1) := by
  unfold log
  rw [if_pos (by rw [hr.1, ha.1]), hr.1]
  cases d with
  | zero =>
    refine ⟨_, if_pos rfl, enc_append hr ?_⟩
    simpa only [tc_zero] using S.log (ha.2 0 (by omega)) h0
  | succ d =>
    rw [if_neg (by omega)]
    have hne := fun q => nz_head S ha (S.ps_nz h0) q
    by_cases hd : d = 0
    · subst hd
      refine ⟨_, if_pos rfl, enc_append hr ?_⟩
      have := S.div (ha.2 1 (by omega)) (ha.2 0 (by omega)) (S.ps_nz h0)
      rwa [show (fun q => tc (f q) 1 / tc (f q) 0) = fun q => tc (fun t => Real.log (f q t)) (0 + 1) from
        funext fun q => by rw [tc_log (hf q) (hne q)]; simp] at this
    · refine ⟨_, if_neg (by omega), enc_append hr ?_⟩
      have := mem_subLoop S (S.add S.zero (S.smul ((d + 1 : ℕ) : ℤ) (ha.2 (d + 1) (by omega))))
        (fun i => o.smul ((i + 1 : ℕ) : ℤ) (o.mul (co o a (d + 1 - (i + 1))) (co o r (i + 1))))
        (fun i q => (((i + 1 : ℕ) : ℤ) : ℝ) * (tc (f q) (d + 1 - (i + 1)) *
          tc (fun t => Real.log (f q t)) (i + 1))) d
        (fun i hi => S.smul _ (S.mul (ha.2 (d + 1 - (i + 1)) (by omega)) (hr.2 (i + 1) (by omega))))
      have := S.divInt ((d + 1 : ℕ) : ℤ) (by omega) (S.div this (ha.2 0 (by omega)) (S.ps_nz h0))
      rwa [show (fun q => (0 + (((d + 1 : ℕ) : ℤ) : ℝ) * tc (f q) (d + 1) - ∑ i ∈ Finset.range d,
            (((i + 1 : ℕ) : ℤ) : ℝ) * (tc (f q) (d + 1 - (i + 1)) *
              tc (fun t => Real.log (f q t)) (i + 1))) / tc (f q) 0 / (((d + 1 : ℕ) : ℤ) : ℝ)) =
          fun q => tc (fun t => Real.log (f q t)) (d + 1) from
        funext fun q => by
          rw [tc_log (hf q) (hne q), zero_add]
          simp only [Int.cast_natCast]
          congr 4
          exact funext fun i => by ring] at this

/-- The invariant of the loop of `sincos`. -/
theorem enc_sincosStep {e : ℕ} (hf : Smooth e f) (ha : Enc o mem a f (e + 1)) {sc : Series X × Series X}
    (hd : d + 1 ≤ e) (hs : Enc o mem sc.1 (fun q t => Real.sin (f q t)) (d + 1))
    (hc : Enc o mem sc.2 (fun q t => Real.cos (f q t)) (d + 1)) :
    Enc o mem (sincosStep o a sc).1 (fun q t => Real.sin (f q t)) (d + 2) ∧
      Enc o mem (sincosStep o a sc).2 (fun q t => Real.cos (f q t)) (d + 2) := by
  have hf' : Smooth (d + 1) f := fun q => lift (hf q) hd
  have refl : ∀ (u v : ℕ → ℝ), ∑ i ∈ Finset.range (d + 1), ((i + 1 : ℕ) : ℝ) * u (i + 1) * v (d + 1 - (i + 1)) =
      ∑ i ∈ Finset.range (d + 1), ((d + 1 - i : ℕ) : ℝ) * u (d + 1 - i) * v i := by
    intro u v
    rw [← Finset.sum_range_reflect]
    refine Finset.sum_congr rfl fun i hi => ?_
    have hi' : i ≤ d := by simpa [Nat.lt_succ_iff] using hi
    rw [show d + 1 - 1 - i + 1 = d + 1 - i by omega, show d + 1 - (d + 1 - i) = i by omega]
  constructor
  · refine enc_append hs ?_
    simp only [hs.1]
    have := mem_addLoop S S.zero
      (fun j => o.mul (o.smul ((j + 1 : ℕ) : ℤ) (co o a (j + 1))) (co o sc.2 (d + 1 - (j + 1))))
      (fun j q => (((j + 1 : ℕ) : ℤ) : ℝ) * tc (f q) (j + 1) *
        tc (fun t => Real.cos (f q t)) (d + 1 - (j + 1))) (d + 1)
      (fun j hj => S.mul (S.smul _ (ha.2 (j + 1) (by omega))) (hc.2 _ (by omega)))
    have := S.divInt ((d + 1 : ℕ) : ℤ) (by omega) this
    rwa [show (fun q => (0 + ∑ j ∈ Finset.range (d + 1), (((j + 1 : ℕ) : ℤ) : ℝ) *
          tc (f q) (j + 1) * tc (fun t => Real.cos (f q t)) (d + 1 - (j + 1))) /
          (((d + 1 : ℕ) : ℤ) : ℝ)) = fun q => tc (fun t => Real.sin (f q t)) (d + 1) from
      funext fun q => by
        rw [tc_sin (hf' q), zero_add]
        simp only [Int.cast_natCast]
        rw [refl (tc (f q)) (tc fun t => Real.cos (f q t))]] at this
  · refine enc_append hc ?_
    simp only [hs.1]
    have := mem_addLoop S S.zero
      (fun j => o.mul (o.smul ((j + 1 : ℕ) : ℤ) (co o a (j + 1))) (co o sc.1 (d + 1 - (j + 1))))
      (fun j q => (((j + 1 : ℕ) : ℤ) : ℝ) * tc (f q) (j + 1) *
        tc (fun t => Real.sin (f q t)) (d + 1 - (j + 1))) (d + 1)
      (fun j hj => S.mul (S.smul _ (ha.2 (j + 1) (by omega))) (hs.2 _ (by omega)))
    have := S.divInt (-((d + 1 : ℕ) : ℤ)) (by omega) this
    rwa [show (fun q => (0 + ∑ j ∈ Finset.range (d + 1), (((j + 1 : ℕ) : ℤ) : ℝ) *
          tc (f q) (j + 1) * tc (fun t => Real.sin (f q t)) (d + 1 - (j + 1))) /
          ((-((d + 1 : ℕ) : ℤ) : ℤ) : ℝ)) = fun q => tc (fun t => Real.cos (f q t)) (d + 1) from
      funext fun q => by
        rw [tc_cos (hf' q), zero_add]
        simp only [Int.cast_natCast, Int.cast_neg]
        rw [refl (tc (f q)) (tc fun t => Real.sin (f q t))]] at this

theorem enc_sincos (hf : Smooth d f) (ha : Enc o mem a f (d + 1)) :
    Enc o mem (sincos o a).1 (fun q t => Real.sin (f q t)) (d + 1) ∧
      Enc o mem (sincos o a).2 (fun q t => Real.cos (f q t)) (d + 1) := by
  have key : ∀ m ≤ d,
      Enc o mem ((sincosStep o a)^[m] ([o.sin (co o a 0)], [o.cos (co o a 0)])).1
        (fun q t => Real.sin (f q t)) (m + 1) ∧
      Enc o mem ((sincosStep o a)^[m] ([o.sin (co o a 0)], [o.cos (co o a 0)])).2
        (fun q t => Real.cos (f q t)) (m + 1) := by
    intro m
    induction m with
    | zero =>
      intro _
      refine ⟨⟨rfl, fun k hk => ?_⟩, ⟨rfl, fun k hk => ?_⟩⟩
      · obtain rfl : k = 0 := by omega
        have h := S.sin (ha.2 0 (by omega))
        simp only [tc_zero] at h ⊢
        exact h
      · obtain rfl : k = 0 := by omega
        have h := S.cos (ha.2 0 (by omega))
        simp only [tc_zero] at h ⊢
        exact h
    | succ m ih =>
      intro hm
      rw [Function.iterate_succ_apply']
      obtain ⟨h1, h2⟩ := ih (by omega)
      exact enc_sincosStep S hf ha (by omega) h1 h2
  have := key d le_rfl
  unfold sincos
  rw [ha.1, Nat.add_sub_cancel]
  exact this

theorem enc_sin (hf : Smooth d f) (ha : Enc o mem a f (d + 1)) (hr : r.length = d) :
    ∃ r', sin o r a = some r' ∧ Enc o mem r' (fun q t => Real.sin (f q t)) (d + 1) :=
  ⟨_, if_pos (by rw [hr, ha.1]), (enc_sincos S hf ha).1⟩

theorem enc_cos (hf : Smooth d f) (ha : Enc o mem a f (d + 1)) (hr : r.length = d) :
    ∃ r', cos o r a = some r' ∧ Enc o mem r' (fun q t => Real.cos (f q t)) (d + 1) :=
  ⟨_, if_pos (by rw [hr, ha.1]), (enc_sincos S hf ha).2⟩

/-- Integration: the function whose derivative is enclosed. -/
theorem enc_antidifferentiate (hfg : ∀ q, ∀ᶠ t in 𝓝 0, HasDerivAt (f q) (g q t) t)
    (ha : Enc o mem a g (d + 1)) (hr : Enc o mem r f (d + 1)) :
    ∃ r', antidifferentiate o r a = some r' ∧ Enc o mem r' f (d + 2) := by
  refine ⟨_, if_pos ⟨by rw [hr.1, ha.1], by intro h; simpa [h] using ha.1⟩, enc_append hr ?_⟩
  rw [hr.1]
  have := S.divInt ((d + 1 : ℕ) : ℤ) (by omega) (enc_last ha)
  rwa [show (fun q => tc (g q) d / (((d + 1 : ℕ) : ℤ) : ℝ)) = fun q => tc (f q) (d + 1) from
    funext fun q => by rw [tc_of_hasDerivAt (hfg q), Int.cast_natCast]] at this

end

end Verif.Graded
