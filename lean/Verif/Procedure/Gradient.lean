import Verif.Procedure.Compile
import Mathlib.Analysis.SpecialFunctions.Trigonometric.Deriv
import Mathlib.Analysis.SpecialFunctions.Trigonometric.ArctanDeriv
import Mathlib.Analysis.SpecialFunctions.Trigonometric.InverseDeriv
import Mathlib.Analysis.SpecialFunctions.Trigonometric.ComplexDeriv
import Mathlib.Analysis.SpecialFunctions.Log.Deriv
import Mathlib.Analysis.SpecialFunctions.ExpDeriv
import Mathlib.Analysis.SpecialFunctions.Sqrt
import Mathlib.Analysis.Calculus.Deriv.ZPow
import Mathlib.Analysis.Calculus.Deriv.Inv

/-!
# Property C33: the reverse sweep over a procedure computes the gradient
-/

namespace Verif.Procedure

open Ariadne.Symbolic (UnOp BinOp)

variable {Y X : Type*}

/-! ## Specification: operators on real numbers -/

/-- spec: the real functions named by the unary operators (arbitrary outside the domain). -/
noncomputable def realUn : UnOp → ℝ → ℝ
  | .nul, _ => 0
  | .pos, a => a
  | .neg, a => -a
  | .sqr, a => a ^ 2
  | .hlf, a => a / 2
  | .recip, a => a⁻¹
  | .sqrt, a => Real.sqrt a
  | .exp, a => Real.exp a
  | .log, a => Real.log a
  | .sin, a => Real.sin a
  | .cos, a => Real.cos a
  | .tan, a => Real.tan a
  | .asin, a => Real.arcsin a
  | .acos, a => Real.arccos a
  | .atan, a => Real.arctan a
  | .abs, a => |a|

/-- spec: the real functions named by the binary operators. -/
noncomputable def realBin : BinOp → ℝ → ℝ → ℝ
  | .add, a, b => a + b
  | .sub, a, b => a - b
  | .mul, a, b => a * b
  | .div, a, b => a / b
  | .max, a, b => Max.max a b
  | .min, a, b => Min.min a b

/-- spec: real numbers with constants valued by `val`. -/
noncomputable def realAlg (val : Y → ℝ) : GAlg Y ℝ where
  cst := val
  un := realUn
  bin := realBin
  pow := fun a n => a ^ n
  mix := fun op c a => realBin op (val c) a
  zero := 0
  ofInt := fun n => (n : ℝ)

/-- spec: points at which an operator is differentiable and its derivative is computed correctly
(`asin` and `acos` are excluded, see `C33_asin_wrong`; `abs` stops the program). -/
def UnReg : UnOp → ℝ → Prop
  | .recip, a => a ≠ 0
  | .sqrt, a => 0 < a
  | .log, a => 0 < a
  | .tan, a => Real.cos a ≠ 0
  | .asin, _ => False
  | .acos, _ => False
  | .abs, _ => False
  | _, _ => True

/-- spec: likewise for binary operators; `max` and `min` stop the program. -/
def BinReg : BinOp → ℝ → ℝ → Prop
  | .div, _, b => b ≠ 0
  | .max, _, _ => False
  | .min, _, _ => False
  | _, _, _ => True

/-- spec: likewise for powers; the exponent `0` at `0` is excluded since its derivative is computed as
`0` times the reciprocal. -/
def PowReg (a : ℝ) (n : ℤ) : Prop := 0 < n ∨ a ≠ 0

/-- spec: domains of the operators. -/
def UnDom : UnOp → ℝ → Prop
  | .recip, a => a ≠ 0
  | .sqrt, a => 0 ≤ a
  | .log, a => 0 < a
  | .tan, a => Real.cos a ≠ 0
  | .asin, a => -1 ≤ a ∧ a ≤ 1
  | .acos, a => -1 ≤ a ∧ a ≤ 1
  | _, _ => True

/-- spec: an algebra whose operations preserve the relation `mem` with real numbers, such as interval
arithmetic, on the domains of the operators. -/
structure Encloses (A : GAlg Y X) (val : Y → ℝ) (mem : X → ℝ → Prop) : Prop where
  cst : ∀ c, mem (A.cst c) (val c)
  un : ∀ op x a, mem x a → UnDom op a → mem (A.un op x) (realUn op a)
  bin : ∀ op x a y b, mem x a → mem y b → (op = .div → b ≠ 0) → mem (A.bin op x y) (realBin op a b)
  pow : ∀ x a n, mem x a → (0 ≤ n ∨ a ≠ 0) → mem (A.pow x n) (a ^ n)
  mix : ∀ op c y b, mem y b → (op = .div → b ≠ 0) → mem (A.mix op c y) (realBin op (val c) b)
  zero : mem A.zero 0
  ofInt : ∀ n : ℤ, mem (A.ofInt n) n

/-- spec: the value of a constant (`0` beyond the end of the list). -/
def constVal (val : Y → ℝ) (c : List Y) (k : ℕ) : ℝ := ((c[k]?).map val).getD 0

/-- spec: the instruction is regular for the values `v` of the temporaries. -/
def Instr.Regular (val : Y → ℝ) (c : List Y) (v : ℕ → ℝ) : Instr → Prop
  | .const _ => True
  | .ind _ => True
  | .un op a => UnReg op (v a)
  | .bin op a b => BinReg op (v a) (v b)
  | .graded a n => PowReg (v a) n
  | .scalar op k a => BinReg op (constVal val c k) (v a)

/-- spec: the value of temporary `r` for arguments `x`. -/
noncomputable def Proc.value (val : Y → ℝ) (P : Proc Y) (x : ℕ → ℝ) (r : ℕ) : ℝ :=
  ((exec (realAlg val).toAlg P x).getD []).getD r 0

/-- spec: the formula is regular at `x`. -/
def Formula.Regular (val : Y → ℝ) (x : ℕ → ℝ) : Formula Y → Prop
  | .const _ _ => True
  | .ind _ _ => True
  | .un _ op a => a.Regular val x ∧ UnReg op (a.eval (realAlg val).toAlg x)
  | .bin _ op a b => a.Regular val x ∧ b.Regular val x ∧
      BinReg op (a.eval (realAlg val).toAlg x) (b.eval (realAlg val).toAlg x)
  | .graded _ a n => a.Regular val x ∧ PowReg (a.eval (realAlg val).toAlg x) n
  | .scalar _ op c a => a.Regular val x ∧ BinReg op (val c) (a.eval (realAlg val).toAlg x)

theorem UnReg.dom {op : UnOp} {a : ℝ} (h : UnReg op a) : UnDom op a := by
  cases op <;> simp_all [UnReg, UnDom] <;> exact h.le

/-! ## Local derivatives -/

/-- Derivatives of the operators. -/
theorem unDerivative_hasDerivAt (val : Y → ℝ) {op : UnOp} {F : ℝ → ℝ} {d t : ℝ} (hF : HasDerivAt F d t)
    (hr : UnReg op (F t)) :
    HasDerivAt (fun s => realUn op (F s)) (unDerivative (realAlg val) op (F t) d) t := by
  cases op <;> simp only [UnReg] at hr
  case nul => simpa [realUn, unDerivative, realAlg] using hasDerivAt_const t (0 : ℝ)
  case pos => simpa [realUn, unDerivative, realAlg] using hF
  case neg => simpa [realUn, unDerivative, realAlg] using hF.fun_neg
  case hlf => simpa [realUn, unDerivative, realAlg] using hF.div_const 2
  case sqr =>
    have := hF.fun_pow 2
    simpa [realUn, unDerivative, realAlg, realBin] using this
  case recip =>
    have := hF.fun_inv hr
    refine this.congr_deriv ?_
    simp [realUn, unDerivative, realAlg, realBin, div_neg, neg_div]
  case sqrt =>
    have := hF.sqrt hr.ne'
    simpa [realUn, unDerivative, realAlg, realBin] using this
  case exp => simpa [realUn, unDerivative, realAlg, realBin] using hF.exp
  case log =>
    have := hF.log hr.ne'
    simpa [realUn, unDerivative, realAlg, realBin] using this
  case sin => simpa [realUn, unDerivative, realAlg, realBin] using hF.sin
  case cos => simpa [realUn, unDerivative, realAlg, realBin] using hF.cos
  case tan =>
    have := (Real.hasDerivAt_tan hr).comp t hF
    simpa [realUn, unDerivative, realAlg, realBin, Function.comp_def] using this
  case atan =>
    have := hF.arctan
    simpa [realUn, unDerivative, realAlg, realBin] using this

theorem unDerivative_linear (val : Y → ℝ) (op : UnOp) (a d e : ℝ) :
    unDerivative (realAlg val) op a (e * d) = e * unDerivative (realAlg val) op a d := by
  cases op <;> simp [unDerivative, realAlg, realUn, realBin] <;> ring

/-! ## Values -/

/-- The value of an instruction given the earlier values. -/
noncomputable def Instr.val (val : Y → ℝ) (c : List Y) (x : ℕ → ℝ) (v : ℕ → ℝ) : Instr → ℝ
  | .const k => constVal val c k
  | .ind i => x i
  | .un op a => realUn op (v a)
  | .bin op a b => realBin op (v a) (v b)
  | .graded a n => v a ^ n
  | .scalar op k a => realBin op (constVal val c k) (v a)

theorem exists_computes (A : Alg Y X) {P : Proc Y} (hP : P.Valid) (x : ℕ → X) :
    ∃ w, Computes A P.c x P.p w := by
  suffices h : ∀ k ≤ P.p.length, ∃ w, Computes A P.c x (P.p.take k) w by
    simpa using h P.p.length le_rfl
  intro k
  induction k with
  | zero => intro _; exact ⟨[], rfl, by simp⟩
  | succ k ih =>
    intro hk
    obtain ⟨w, hw⟩ := ih (by omega)
    have hlen : w.length = k := by rw [hw.1, List.length_take]; omega
    have hi : P.p[k]? = some P.p[k] := List.getElem?_eq_getElem (by omega)
    obtain ⟨h1, h2⟩ := hP k _ hi
    have : ∃ y, execInstr A P.c x w P.p[k] = some y := by
      generalize P.p[k] = i at h1 h2
      have g1 : ∀ a < k, ∃ y, w[a]? = some y := fun a ha => ⟨_, List.getElem?_eq_getElem (by omega)⟩
      cases i with
      | const k =>
        have := h2 k (by simp [Instr.constants])
        exact ⟨_, by rw [execInstr, List.getElem?_eq_getElem this, Option.map_some]⟩
      | ind i => exact ⟨_, rfl⟩
      | un op a =>
        have := h1 a (by simp [Instr.reads])
        obtain ⟨y, hy⟩ := g1 a this
        rw [execInstr, hy]
        exact ⟨_, rfl⟩
      | bin op a b =>
        have ha := h1 a (by simp [Instr.reads])
        have hb := h1 b (by simp [Instr.reads])
        obtain ⟨y, hy⟩ := g1 a ha
        obtain ⟨z, hz⟩ := g1 b hb
        rw [execInstr, hy, hz]
        exact ⟨_, rfl⟩
      | graded a n =>
        have := h1 a (by simp [Instr.reads])
        obtain ⟨y, hy⟩ := g1 a this
        rw [execInstr, hy]
        exact ⟨_, rfl⟩
      | scalar op j a =>
        have ha := h1 a (by simp [Instr.reads])
        have hb := h2 j (by simp [Instr.constants])
        obtain ⟨y, hy⟩ := g1 a ha
        rw [execInstr, hy, List.getElem?_eq_getElem hb]
        exact ⟨_, rfl⟩
    obtain ⟨y, hy⟩ := this
    refine ⟨w ++ [y], ?_⟩
    have := hw.push [] (i := P.p[k]) (y := y) (by simpa using hy)
    rw [List.append_nil] at this
    rwa [List.take_succ, hi]

theorem execInstr_real (val : Y → ℝ) {c : List Y} {x : ℕ → ℝ} {w : List ℝ} {i : Instr} {y : ℝ}
    (h : execInstr (realAlg val).toAlg c x w i = some y) :
    y = i.val val c x (fun k => w.getD k 0) := by
  cases i <;> simp only [execInstr, Option.map_eq_some_iff, Option.bind_eq_some_iff, Option.some.injEq] at h
  case const k =>
    obtain ⟨a, h1, rfl⟩ := h
    simp [Instr.val, constVal, h1, realAlg]
  case ind => exact h.symm
  case un op a =>
    obtain ⟨b, h1, rfl⟩ := h
    simp [Instr.val, h1, realAlg, List.getD_eq_getElem?_getD]
  case bin op a b =>
    obtain ⟨_, h1, _, h2, rfl⟩ := h
    simp [Instr.val, h1, h2, realAlg, List.getD_eq_getElem?_getD]
  case graded a n =>
    obtain ⟨b, h1, rfl⟩ := h
    simp [Instr.val, h1, realAlg, List.getD_eq_getElem?_getD]
  case scalar op k a =>
    obtain ⟨_, h1, _, h2, rfl⟩ := h
    simp [Instr.val, constVal, h1, h2, realAlg, List.getD_eq_getElem?_getD]

theorem exec_value (val : Y → ℝ) {P : Proc Y} (hP : P.Valid) (x : ℕ → ℝ) :
    ∃ w, exec (realAlg val).toAlg P x = some w ∧ w.length = P.p.length ∧
      (∀ k, w.getD k 0 = P.value val x k) ∧
      ∀ r i, P.p[r]? = some i → P.value val x r = i.val val P.c x (P.value val x) := by
  obtain ⟨w, hw⟩ := exists_computes (realAlg val).toAlg hP x
  have he := exec_eq hw
  have hval : ∀ k, w.getD k 0 = P.value val x k := fun k => by rw [Proc.value, he]; rfl
  refine ⟨w, he, hw.1, hval, fun r i hi => ?_⟩
  obtain ⟨y, h1, h2⟩ := hw.2 r i hi
  have h3 := execInstr_real val (execInstr_mono (fun _ _ h => h) (v' := w) (fun k z hk => by
    rw [List.getElem?_take] at hk
    split_ifs at hk
    exact hk) h2)
  rw [← hval r, List.getD_eq_getElem?_getD, h1, Option.getD_some, h3]
  congr 1
  funext k
  exact hval k

/-! ## Forward tangents -/

/-- The derivative of an instruction in the direction of coordinate `j`, given those of the earlier
temporaries. -/
noncomputable def Instr.tangent (val : Y → ℝ) (c : List Y) (v : ℕ → ℝ) (j : ℕ) (D : ℕ → ℝ) : Instr → ℝ
  | .const _ => 0
  | .ind i => if i = j then 1 else 0
  | .un op a => unDerivative (realAlg val) op (v a) (D a)
  | .bin .add a b => D a + D b
  | .bin .sub a b => D a - D b
  | .bin .mul a b => D a * v b + v a * D b
  | .bin .div a b => D a / v b - D b / v b * (v a / v b)
  | .bin .max _ _ => 0
  | .bin .min _ _ => 0
  | .graded a n => n * v a ^ (n - 1) * D a
  | .scalar .add _ a => D a
  | .scalar .sub _ a => - D a
  | .scalar .mul k a => constVal val c k * D a
  | .scalar .div k a => - (D a / v a * (constVal val c k / v a))
  | .scalar .max _ _ => 0
  | .scalar .min _ _ => 0

theorem tangent_hasDerivAt (val : Y → ℝ) (c : List Y) (x : ℕ → ℝ) (j : ℕ) (V : ℝ → ℕ → ℝ) (D : ℕ → ℝ)
    (i : Instr) (hD : ∀ a ∈ i.reads, HasDerivAt (fun s => V s a) (D a) (x j))
    (hr : i.Regular val c (V (x j))) :
    HasDerivAt (fun s => i.val val c (Function.update x j s) (V s)) (i.tangent val c (V (x j)) j D) (x j) := by
  cases i with
  | const k => exact hasDerivAt_const _ _
  | ind i =>
    by_cases hi : i = j
    · subst hi; simpa [Instr.val, Instr.tangent] using hasDerivAt_id' (x i)
    · simpa [Instr.val, Instr.tangent, hi] using hasDerivAt_const (x j) (x i)
  | un op a => exact unDerivative_hasDerivAt val (hD a (by simp [Instr.reads])) hr
  | bin op a b =>
    have ha := hD a (by simp [Instr.reads])
    have hb := hD b (by simp [Instr.reads])
    cases op <;> simp only [Instr.val, Instr.tangent, realBin] <;> simp only [Instr.Regular, BinReg] at hr
    · exact ha.fun_add hb
    · exact ha.fun_sub hb
    · exact ha.fun_mul hb
    · have := ha.fun_div hb hr
      refine this.congr_deriv ?_
      field_simp
  | graded a n =>
    have ha := hD a (by simp [Instr.reads])
    have := (hasDerivAt_zpow n (V (x j) a) (hr.symm.imp id le_of_lt)).comp (x j) ha
    simpa [Instr.val, Instr.tangent, Function.comp_def] using this
  | scalar op k a =>
    have ha := hD a (by simp [Instr.reads])
    cases op <;> simp only [Instr.val, Instr.tangent, realBin] <;> simp only [Instr.Regular, BinReg] at hr
    · simpa using ha.const_add (constVal val c k)
    · simpa using ha.const_sub (constVal val c k)
    · simpa using ha.const_mul (constVal val c k)
    · have := (hasDerivAt_const (x j) (constVal val c k)).fun_div ha hr
      refine this.congr_deriv ?_
      field_simp
      ring

theorem exists_tangents (val : Y → ℝ) {P : Proc Y} (hP : P.Valid) (x : ℕ → ℝ)
    (hr : ∀ (r : ℕ) (i : Instr), P.p[r]? = some i → i.Regular val P.c (P.value val x)) (j : ℕ) :
    ∃ D : ℕ → ℝ, ∀ r i, P.p[r]? = some i →
      HasDerivAt (fun s => P.value val (Function.update x j s) r) (D r) (x j) ∧
      D r = i.tangent val P.c (P.value val x) j D := by
  let D : ℕ → ℝ := fun r => deriv (fun s => P.value val (Function.update x j s) r) (x j)
  have hup : Function.update x j (x j) = x := Function.update_eq_self j x
  have key : ∀ r i, P.p[r]? = some i →
      HasDerivAt (fun s => P.value val (Function.update x j s) r)
        (i.tangent val P.c (P.value val x) j D) (x j) := by
    intro r
    induction r using Nat.strong_induction_on with
    | _ r ih =>
    intro i hi
    have h1 : (fun s => P.value val (Function.update x j s) r) =
        fun s => i.val val P.c (Function.update x j s) (P.value val (Function.update x j s)) := by
      funext s
      obtain ⟨w, -, -, -, h⟩ := exec_value val hP (Function.update x j s)
      exact h r i hi
    rw [h1]
    have := tangent_hasDerivAt val P.c x j (fun s => P.value val (Function.update x j s)) D i
    simp only [hup] at this
    refine this (fun a ha => ?_) (hr r i hi)
    have har := (hP r i hi).1 a ha
    have hlen : r < P.p.length := by
      by_contra hk
      rw [List.getElem?_eq_none (by omega)] at hi
      simp at hi
    have := ih a har _ (List.getElem?_eq_getElem (by omega))
    exact this.differentiableAt.hasDerivAt
  refine ⟨D, fun r i hi => ⟨(key r i hi).differentiableAt.hasDerivAt, (key r i hi).deriv⟩⟩

/-! ## The reverse sweep -/

/-- The list `l` encloses the numbers `f`. -/
def LRel (mem : X → ℝ → Prop) (l : List X) (f : ℕ → ℝ) : Prop := ∀ (k : ℕ) y, l[k]? = some y → mem y (f k)

theorem LRel.modify {mem : X → ℝ → Prop} {l : List X} {f : ℕ → ℝ} (h : LRel mem l f) (a : ℕ) (u : X → X)
    (d : ℝ) (hu : ∀ y, mem y (f a) → mem (u y) (f a + d)) :
    LRel mem (l.modify a u) (Function.update f a (f a + d)) := by
  intro k y hk
  rw [List.getElem?_modify] at hk
  by_cases hka : a = k
  · subst hka
    cases hl : l[a]? with
    | none => simp [hl] at hk
    | some z =>
    simp only [hl, if_true, Option.map_eq_map, Option.map_some, Option.some.injEq] at hk
    subst hk
    rw [Function.update_self]
    exact hu z (h a z hl)
  · cases hl : l[k]? with
    | none => simp [hl] at hk
    | some z =>
    simp only [hl, hka, if_false, Option.map_eq_map, Option.map_some, Option.some.injEq] at hk
    subst hk
    rw [Function.update_of_ne (Ne.symm hka)]
    exact h k z hl

theorem sum_update (f D : ℕ → ℝ) (a r : ℕ) (d : ℝ) (ha : a < r) :
    ∑ k ∈ Finset.range r, Function.update f a (f a + d) k * D k =
      ∑ k ∈ Finset.range r, f k * D k + d * D a := by
  have h1 : ∀ k ∈ Finset.range r, Function.update f a (f a + d) k * D k =
      f k * D k + if k = a then d * D a else 0 := by
    intro k _
    by_cases hk : k = a
    · subst hk; simp; ring
    · simp [hk]
  rw [Finset.sum_congr rfl h1, Finset.sum_add_distrib]
  simp [ha]

variable {A : GAlg Y X} {val : Y → ℝ} {mem : X → ℝ → Prop}

theorem addAt_add (hE : Encloses A val mem) {dv' : List X} {dv : ℕ → ℝ} (h : LRel mem dv' dv) (a : ℕ)
    {d' : X} {d : ℝ} (hd : mem d' d) :
    LRel mem (addAt A .add a d' dv') (Function.update dv a (dv a + d)) :=
  h.modify a _ d fun y hy => by simpa [realBin] using hE.bin .add y _ d' d hy hd (by simp)

theorem addAt_sub (hE : Encloses A val mem) {dv' : List X} {dv : ℕ → ℝ} (h : LRel mem dv' dv) (a : ℕ)
    {d' : X} {d : ℝ} (hd : mem d' d) :
    LRel mem (addAt A .sub a d' dv') (Function.update dv a (dv a + -d)) :=
  h.modify a _ (-d) fun y hy => by
    have := hE.bin .sub y _ d' d hy hd (by simp)
    rwa [realBin, sub_eq_add_neg] at this

theorem addAt_length (op : BinOp) (a : ℕ) (d : X) (dv : List X) : (addAt A op a d dv).length = dv.length := by
  simp [addAt]

theorem unDerivative_mem (hE : Encloses A val mem) {op : UnOp} {y d' : X} {a d : ℝ} (hy : mem y a)
    (hd : mem d' d) (hr : UnReg op a) :
    mem (unDerivative A op y d') (unDerivative (realAlg val) op a d) := by
  have h1 := hE.ofInt 1
  have h2 := hE.ofInt 2
  cases op <;> simp only [UnReg] at hr <;> simp only [unDerivative]
  case nul => exact hE.un .nul _ _ hd trivial
  case pos => exact hd
  case neg => exact hE.un .neg _ _ hd trivial
  case hlf => exact hE.un .hlf _ _ hd trivial
  case sqr => exact hE.bin .mul _ _ _ _ (hE.bin .mul _ _ _ _ h2 hy (by simp)) hd (by simp)
  case recip =>
    refine hE.bin .div _ _ _ _ hd (hE.un .neg _ _ (hE.un .sqr _ _ hy trivial) trivial) fun _ => ?_
    simpa [realUn, realAlg] using hr
  case sqrt =>
    refine hE.bin .div _ _ _ _ hd
      (hE.bin .mul _ _ _ _ h2 (hE.un .sqrt _ _ hy (show 0 ≤ a from hr.le)) (by simp)) fun _ => ?_
    simpa [realUn, realBin, realAlg] using (Real.sqrt_pos.2 hr).ne'
  case exp => exact hE.bin .mul _ _ _ _ (hE.un .exp _ _ hy trivial) hd (by simp)
  case log => exact hE.bin .div _ _ _ _ hd hy fun _ => hr.ne'
  case sin => exact hE.bin .mul _ _ _ _ (hE.un .cos _ _ hy trivial) hd (by simp)
  case cos =>
    exact hE.bin .mul _ _ _ _ (hE.un .neg _ _ (hE.un .sin _ _ hy trivial) trivial) hd (by simp)
  case tan =>
    refine hE.bin .mul _ _ _ _ (hE.un .recip _ _ (hE.un .sqr _ _ (hE.un .cos _ _ hy trivial) trivial) ?_)
      hd (by simp)
    simpa [realUn, UnDom, realAlg] using hr
  case atan =>
    refine hE.bin .mul _ _ _ _ (hE.un .recip _ _ (hE.bin .add _ _ _ _ h1
      (hE.un .sqr _ _ hy trivial) (by simp)) ?_) hd (by simp)
    have : (0 : ℝ) < 1 + a ^ 2 := by positivity
    simpa [realUn, realBin, UnDom, realAlg] using this.ne'

theorem backInstr_spec (hE : Encloses A val mem) {c : List Y} {v' : List X} {v : ℕ → ℝ}
    (hv : LRel mem v' v) {n r : ℕ} (hrn : r < n) (hvn : v'.length = n) {dv' : List X} {dv : ℕ → ℝ}
    (hdv : LRel mem dv' dv) (hdn : dv'.length = n) {g' : ℕ → X} {g : ℕ → ℝ} (hg : ∀ k, mem (g' k) (g k))
    {i : Instr} (hi : (∀ a ∈ i.reads, a < r) ∧ ∀ k ∈ i.constants, k < c.length)
    (hreg : i.Regular val c v) :
    ∃ dv1' g1', backInstr A c v' r (dv', g') i = some (dv1', g1') ∧ dv1'.length = n ∧
      ∃ dv1 g1 : ℕ → ℝ, LRel mem dv1' dv1 ∧ (∀ k, mem (g1' k) (g1 k)) ∧ ∀ (j : ℕ) (D : ℕ → ℝ),
        g1 j + ∑ k ∈ Finset.range r, dv1 k * D k =
          g j + ∑ k ∈ Finset.range r, dv k * D k + dv r * i.tangent val c v j D := by
  obtain ⟨dr, hdr⟩ : ∃ y, dv'[r]? = some y := ⟨_, List.getElem?_eq_getElem (by omega)⟩
  have mdr := hdv r dr hdr
  have hv1 : ∀ a < r, ∃ y, v'[a]? = some y ∧ mem y (v a) := fun a ha => by
    obtain ⟨y, hy⟩ : ∃ y, v'[a]? = some y := ⟨_, List.getElem?_eq_getElem (by omega)⟩
    exact ⟨y, hy, hv a y hy⟩
  cases i with
  | const k => exact ⟨dv', g', rfl, hdn, dv, g, hdv, hg, fun j D => by simp [Instr.tangent]⟩
  | ind i =>
    refine ⟨dv', Function.update g' i (A.bin .add (g' i) dr), by simp [backInstr, hdr], hdn, dv,
      Function.update g i (g i + dv r), hdv, fun k => ?_, fun j D => ?_⟩
    · by_cases hk : k = i
      · subst hk; simpa [realBin] using hE.bin .add _ _ _ _ (hg k) mdr (by simp)
      · simpa [hk] using hg k
    · by_cases hk : i = j
      · subst hk; simp [Instr.tangent]; ring
      · simp [Instr.tangent, hk, Ne.symm hk]
  | un op a =>
    have ha := hi.1 a (by simp [Instr.reads])
    obtain ⟨y, hy, my⟩ := hv1 a ha
    have hop : op ≠ .abs := by rintro rfl; exact hreg
    refine ⟨addAt A .add a (unDerivative A op y dr) dv', g', ?_, by rw [addAt_length, hdn],
      _, g, addAt_add hE hdv a (unDerivative_mem hE my mdr hreg), hg, fun j D => ?_⟩
    · cases op <;> simp_all [backInstr]
    · rw [sum_update _ _ _ _ _ ha]
      have h1 := unDerivative_linear val op (v a) (D a) (dv r)
      have h2 := unDerivative_linear val op (v a) 1 (D a)
      have h3 := unDerivative_linear val op (v a) 1 (dv r)
      rw [mul_one] at h2 h3
      simp only [Instr.tangent]
      rw [h2, h3]; ring
  | bin op a b =>
    have ha := hi.1 a (by simp [Instr.reads])
    have hb := hi.1 b (by simp [Instr.reads])
    obtain ⟨y, hy, my⟩ := hv1 a ha
    obtain ⟨z, hz, mz⟩ := hv1 b hb
    cases op <;> simp only [Instr.Regular, BinReg] at hreg
    · refine ⟨_, g', by simp [backInstr, hdr, hy, hz], by simp [addAt_length, hdn], _, g,
        addAt_add hE (addAt_add hE hdv a mdr) b mdr, hg, fun j D => ?_⟩
      rw [sum_update _ _ _ _ _ hb, sum_update _ _ _ _ _ ha]
      simp only [Instr.tangent]; ring
    · refine ⟨_, g', by simp [backInstr, hdr, hy, hz], by simp [addAt_length, hdn], _, g,
        addAt_sub hE (addAt_add hE hdv a mdr) b mdr, hg, fun j D => ?_⟩
      rw [sum_update _ _ _ _ _ hb, sum_update _ _ _ _ _ ha]
      simp only [Instr.tangent]; ring
    · refine ⟨_, g', by simp [backInstr, hdr, hy, hz], by simp [addAt_length, hdn], _, g,
        addAt_add hE (addAt_add hE hdv a (hE.bin .mul _ _ _ _ mdr mz (by simp))) b
          (hE.bin .mul _ _ _ _ my mdr (by simp)), hg, fun j D => ?_⟩
      rw [sum_update _ _ _ _ _ hb, sum_update _ _ _ _ _ ha]
      simp only [Instr.tangent, realBin]; ring
    · have h1 := hE.bin .div _ _ _ _ mdr mz fun _ => hreg
      refine ⟨_, g', by simp [backInstr, hdr, hy, hz], by simp [addAt_length, hdn], _, g,
        addAt_sub hE (addAt_add hE hdv a h1) b
          (hE.bin .mul _ _ _ _ h1 (hE.bin .div _ _ _ _ my mz fun _ => hreg) (by simp)), hg, fun j D => ?_⟩
      rw [sum_update _ _ _ _ _ hb, sum_update _ _ _ _ _ ha]
      simp only [Instr.tangent, realBin]; ring
  | graded a n' =>
    have ha := hi.1 a (by simp [Instr.reads])
    obtain ⟨y, hy, my⟩ := hv1 a ha
    have h1 := hE.pow _ _ (n' - 1) my (hreg.imp (fun h => by omega) id)
    refine ⟨_, g', by simp [backInstr, hdr, hy], by simp [addAt_length, hdn], _, g,
      addAt_add hE hdv a (hE.bin .mul _ _ _ _ (hE.bin .mul _ _ _ _ (hE.ofInt n') h1 (by simp)) mdr
        (by simp)), hg, fun j D => ?_⟩
    rw [sum_update _ _ _ _ _ ha]
    simp only [Instr.tangent, realBin]; ring
  | scalar op k a =>
    have ha := hi.1 a (by simp [Instr.reads])
    have hk := hi.2 k (by simp [Instr.constants])
    obtain ⟨z, hz, mz⟩ := hv1 a ha
    obtain ⟨y, hy⟩ : ∃ y, c[k]? = some y := ⟨_, List.getElem?_eq_getElem hk⟩
    have hc : constVal val c k = val y := by simp [constVal, hy]
    cases op <;> simp only [Instr.Regular, BinReg] at hreg
    · refine ⟨_, g', by simp [backInstr, hdr, hy, hz], by simp [addAt_length, hdn], _, g,
        addAt_add hE hdv a mdr, hg, fun j D => ?_⟩
      rw [sum_update _ _ _ _ _ ha]
      simp only [Instr.tangent]; ring
    · refine ⟨_, g', by simp [backInstr, hdr, hy, hz], by simp [addAt_length, hdn], _, g,
        addAt_sub hE hdv a mdr, hg, fun j D => ?_⟩
      rw [sum_update _ _ _ _ _ ha]
      simp only [Instr.tangent]; ring
    · refine ⟨_, g', by simp [backInstr, hdr, hy, hz], by simp [addAt_length, hdn], _, g,
        addAt_add hE hdv a (hE.mix .mul y _ _ mdr (by simp)), hg, fun j D => ?_⟩
      rw [sum_update _ _ _ _ _ ha]
      simp only [Instr.tangent, realBin, hc]; ring
    · refine ⟨_, g', by simp [backInstr, hdr, hy, hz], by simp [addAt_length, hdn], _, g,
        addAt_sub hE hdv a (hE.bin .mul _ _ _ _ (hE.bin .div _ _ _ _ mdr mz fun _ => hreg)
          (hE.mix .div y _ _ mz fun _ => hreg) (by simp)), hg, fun j D => ?_⟩
      rw [sum_update _ _ _ _ _ ha]
      simp only [Instr.tangent, realBin, hc]; ring

theorem backLoop_spec (hE : Encloses A val mem) {P : Proc Y} (hP : P.Valid) {v' : List X} {v : ℕ → ℝ}
    (hv : LRel mem v' v) (hvn : v'.length = P.p.length)
    (hreg : ∀ (r : ℕ) (i : Instr), P.p[r]? = some i → i.Regular val P.c v) (r : ℕ) (hr : r ≤ P.p.length)
    (dv' : List X) (dv : ℕ → ℝ) (hdv : LRel mem dv' dv) (hdn : dv'.length = P.p.length) (g' : ℕ → X)
    (g : ℕ → ℝ) (hg : ∀ k, mem (g' k) (g k)) :
    ∃ st, backLoop A P.c P.p v' r (dv', g') = some st ∧ ∃ g1 : ℕ → ℝ, (∀ k, mem (st.2 k) (g1 k)) ∧
      ∀ (j : ℕ) (D : ℕ → ℝ), (∀ (r : ℕ) (i : Instr), P.p[r]? = some i → D r = i.tangent val P.c v j D) →
        g1 j = g j + ∑ k ∈ Finset.range r, dv k * D k := by
  induction r generalizing dv' dv g' g with
  | zero => exact ⟨_, rfl, g, hg, fun j D _ => by simp⟩
  | succ r ih =>
    have hi : P.p[r]? = some P.p[r] := List.getElem?_eq_getElem (by omega)
    obtain ⟨dv1', g1', h1, h2, dv1, g1, h3, h4, h5⟩ := backInstr_spec hE hv (by omega : r < P.p.length) hvn
      hdv hdn hg (hP r _ hi) (hreg r _ hi)
    obtain ⟨st, h6, g2, h7, h8⟩ := ih (by omega) dv1' dv1 h3 h2 g1' g1 h4
    refine ⟨st, by rw [backLoop, hi, Option.bind_some, h1, Option.bind_some, h6], g2, h7, fun j D hD => ?_⟩
    rw [h8 j D hD, h5 j D, ← hD r _ hi, Finset.sum_range_succ]
    ring

/-- Execution encloses the real values. -/
theorem exec_encloses (hE : Encloses A val mem) {P : Proc Y} (hP : P.Valid) {x' : ℕ → X} {x : ℕ → ℝ}
    (hx : ∀ k, mem (x' k) (x k))
    (hreg : ∀ (r : ℕ) (i : Instr), P.p[r]? = some i → i.Regular val P.c (P.value val x)) :
    ∃ w, exec A.toAlg P x' = some w ∧ w.length = P.p.length ∧ LRel mem w (P.value val x) := by
  obtain ⟨w, hw⟩ := exists_computes A.toAlg hP x'
  obtain ⟨-, -, -, -, hval⟩ := exec_value val hP x
  refine ⟨w, exec_eq hw, hw.1, fun r => ?_⟩
  induction r using Nat.strong_induction_on with
  | _ r ih =>
  intro y hy
  have hr : r < P.p.length := by
    rw [← hw.1]
    by_contra hk
    rw [List.getElem?_eq_none (by omega)] at hy
    simp at hy
  have hi : P.p[r]? = some P.p[r] := List.getElem?_eq_getElem hr
  obtain ⟨z, h1, h2⟩ := hw.2 r _ hi
  rw [hy, Option.some.injEq] at h1
  subst h1
  rw [hval r _ hi]
  have hread := (take_reads h2).1
  have hrg := hreg r _ hi
  have ih' : ∀ a < r, ∀ y, (w.take r)[a]? = some y → mem y (P.value val x a) := by
    intro a ha y hya
    rw [List.getElem?_take, if_pos ha] at hya
    exact ih a ha y hya
  revert h2 hread hrg
  generalize P.p[r] = i
  intro h2 hread hrg
  cases i with
  | const k =>
    simp only [execInstr, Option.map_eq_some_iff] at h2
    obtain ⟨a, h3, rfl⟩ := h2
    simpa [Instr.val, constVal, h3] using hE.cst a
  | ind i =>
    simp only [execInstr, Option.some.injEq] at h2
    subst h2
    exact hx i
  | un op a =>
    simp only [execInstr, Option.map_eq_some_iff] at h2
    obtain ⟨b, h3, rfl⟩ := h2
    exact hE.un _ _ _ (ih' a (hread a (by simp [Instr.reads])) b h3) (UnReg.dom hrg)
  | bin op a b =>
    simp only [execInstr, Option.map_eq_some_iff, Option.bind_eq_some_iff] at h2
    obtain ⟨y1, h3, y2, h4, rfl⟩ := h2
    refine hE.bin _ _ _ _ _ (ih' a (hread a (by simp [Instr.reads])) y1 h3)
      (ih' b (hread b (by simp [Instr.reads])) y2 h4) ?_
    rintro rfl; exact hrg
  | graded a n =>
    simp only [execInstr, Option.map_eq_some_iff] at h2
    obtain ⟨b, h3, rfl⟩ := h2
    exact hE.pow _ _ _ (ih' a (hread a (by simp [Instr.reads])) b h3) (hrg.imp le_of_lt id)
  | scalar op k a =>
    simp only [execInstr, Option.map_eq_some_iff, Option.bind_eq_some_iff] at h2
    obtain ⟨y1, h3, y2, h4, rfl⟩ := h2
    have := hE.mix op y1 y2 _ (ih' a (hread a (by simp [Instr.reads])) y2 h4) (by
      rintro rfl; exact hrg)
    simpa [Instr.val, constVal, h3] using this

/-! ## Theorems -/

/-- **C33**: the gradient of a procedure encloses the partial derivatives of the function it computes,
at every point enclosed by the argument at which the instructions are regular. -/
theorem C33_gradient_partial (hE : Encloses A val mem) (P : Proc Y) (hP : P.Valid)
    (hne : P.p.length ≠ 0) (x' : ℕ → X) (x : ℕ → ℝ) (hx : ∀ k, mem (x' k) (x k))
    (hreg : ∀ (r : ℕ) (i : Instr), P.p[r]? = some i → i.Regular val P.c (P.value val x)) :
    ∃ g, gradient A P x' = some g ∧ ∃ F : (ℕ → ℝ) → ℝ,
      (∀ y, evaluate (realAlg val).toAlg P y = some (F y)) ∧
      ∀ j, ∃ d, HasDerivAt (fun s => F (Function.update x j s)) d (x j) ∧ mem (g j) d := by
  obtain ⟨w, h1, h2, h3⟩ := exec_encloses hE hP hx hreg
  have hdv : LRel mem ((List.replicate P.p.length A.zero).set (P.p.length - 1) (A.ofInt 1))
      (fun k => if k = P.p.length - 1 then 1 else 0) := by
    intro k y hk
    by_cases hkl : P.p.length - 1 = k
    · subst hkl
      rw [List.getElem?_set_self (by simp; omega), Option.some.injEq] at hk
      subst hk
      simpa using hE.ofInt 1
    · rw [List.getElem?_set_ne hkl, List.getElem?_replicate] at hk
      split_ifs at hk
      simp only [Option.some.injEq] at hk
      subst hk
      simpa [Ne.symm hkl] using hE.zero
  obtain ⟨st, h4, g1, h5, h6⟩ := backLoop_spec hE hP h3 h2 hreg P.p.length le_rfl _ _ hdv (by simp)
    (fun _ => A.zero) (fun _ => 0) (fun _ => hE.zero)
  refine ⟨st.2, by rw [gradient, if_neg hne, h1, Option.bind_some, h4, Option.map_some],
    fun y => P.value val y (P.p.length - 1), fun y => ?_, fun j => ⟨g1 j, ?_, h5 j⟩⟩
  · obtain ⟨v, e1, e2, e3, -⟩ := exec_value val hP y
    have hlast : v[P.p.length - 1]? = some (v[P.p.length - 1]'(by omega)) :=
      List.getElem?_eq_getElem (by omega)
    beta_reduce
    rw [evaluate, e1, Option.bind_some, List.getLast?_eq_getElem?, e2, ← e3, List.getD_eq_getElem?_getD,
      hlast, Option.getD_some]
  · obtain ⟨D, hD⟩ := exists_tangents val hP x hreg j
    have e : g1 j = D (P.p.length - 1) := by
      rw [h6 j D fun r i hi => (hD r i hi).2]
      have : P.p.length - 1 < P.p.length := by omega
      simp [this]
    rw [e]
    exact (hD _ _ (List.getElem?_eq_getElem (by omega : P.p.length - 1 < P.p.length))).1

/-- Values together with the regularity of all the operations used. -/
noncomputable def regAlg (val : Y → ℝ) : Alg Y (ℝ × Prop) where
  cst := fun c => (val c, True)
  un := fun op a => (realUn op a.1, a.2 ∧ UnReg op a.1)
  bin := fun op a b => (realBin op a.1 b.1, a.2 ∧ b.2 ∧ BinReg op a.1 b.1)
  pow := fun a n => (a.1 ^ n, a.2 ∧ PowReg a.1 n)
  mix := fun op c b => (realBin op (val c) b.1, b.2 ∧ BinReg op (val c) b.1)
  zero := (0, True)

theorem eval_regAlg (x : ℕ → ℝ) (f : Formula Y) (hn : f.NoScalar) :
    f.eval (regAlg val) (fun i => (x i, True)) = (f.eval (realAlg val).toAlg x, f.Regular val x) := by
  induction f with
  | const p c => rfl
  | ind p i => rfl
  | un p op a ih => rw [Formula.eval, ih hn]; rfl
  | bin p op a b iha ihb => rw [Formula.eval, iha hn.1, ihb hn.2]; rfl
  | graded p a n ih => rw [Formula.eval, ih hn]; rfl
  | scalar p op c a ih => exact hn.elim

theorem noScalar_nodes {f g : Formula Y} (hg : g ∈ f.nodes) (hn : f.NoScalar) : g.NoScalar := by
  induction f with
  | const p c => simp only [Formula.nodes, Set.mem_singleton_iff] at hg; subst hg; exact hn
  | ind p i => simp only [Formula.nodes, Set.mem_singleton_iff] at hg; subst hg; exact hn
  | un p op a ih =>
    rcases hg with rfl | hg
    · exact hn
    · exact ih hg hn
  | bin p op a b iha ihb =>
    rcases hg with rfl | hg | hg
    · exact hn
    · exact iha hg hn.1
    · exact ihb hg hn.2
  | graded p a n ih =>
    rcases hg with rfl | hg
    · exact hn
    · exact ih hg hn
  | scalar p op c a ih => exact hn.elim

theorem regular_nodes {f g : Formula Y} {x : ℕ → ℝ} (hg : g ∈ f.nodes) (hn : f.Regular val x) :
    g.Regular val x := by
  induction f with
  | const p c => simp only [Formula.nodes, Set.mem_singleton_iff] at hg; subst hg; exact hn
  | ind p i => simp only [Formula.nodes, Set.mem_singleton_iff] at hg; subst hg; exact hn
  | un p op a ih =>
    rcases hg with rfl | hg
    · exact hn
    · exact ih hg hn.1
  | bin p op a b iha ihb =>
    rcases hg with rfl | hg | hg
    · exact hn
    · exact iha hg hn.1
    · exact ihb hg hn.2.1
  | graded p a n ih =>
    rcases hg with rfl | hg
    · exact hn
    · exact ih hg hn.1
  | scalar p op c a ih =>
    rcases hg with rfl | hg
    · exact hn
    · exact ih hg hn.1

theorem lookup_some_of_mem {l : List (ℕ × ℕ)} {k : ℕ} (hd : (l.map Prod.snd).Nodup)
    (hf : (l.map Prod.fst).Nodup) (hk : k ∈ l.map Prod.snd) : ∃ a, l.lookup a = some k := by
  obtain ⟨⟨a, k'⟩, h1, rfl⟩ := List.mem_map.1 hk
  refine ⟨a, ?_⟩
  clear hd hk
  induction l with
  | nil => simp at h1
  | cons b l ih =>
    obtain ⟨b, j⟩ := b
    simp only [List.map_cons, List.nodup_cons] at hf
    rw [List.lookup_cons]
    rcases List.mem_cons.1 h1 with h | h
    · simp only [Prod.mk.injEq] at h
      obtain ⟨rfl, rfl⟩ := h
      simp
    · have : a ≠ b := by
        rintro rfl
        exact hf.1 (List.mem_map.2 ⟨_, h, rfl⟩)
      have : (a == b) = false := by simpa using this
      rw [this]
      exact ih hf.2 h

theorem compile_regular (rf : Bool) (f : Formula Y) (hc : Coherent f.nodes) (hn : f.NoScalar)
    (x : ℕ → ℝ) (hreg : f.Regular val x) (r : ℕ) (i : Instr) (hi : (compile rf f).p[r]? = some i) :
    i.Regular val (compile rf f).c ((compile rf f).value val x) := by
  -- run the procedure on values with regularity
  have q := convert_spec (A := regAlg val) (x := fun i => (x i, True)) hc rf f (fun _ h => h) hn
    ⟨[], [], []⟩ [] (cinv_empty _ _ _)
  obtain ⟨w, h1, -⟩ := q.inv
  rw [List.nil_append] at h1
  have hN := convert_numbered rf f ⟨[], [], []⟩ (by simp [Code.Numbered])
  have hlen : w.length = (compile rf f).p.length := h1.comp.1
  have hr : ∀ {r : ℕ} {i : Instr}, (compile rf f).p[r]? = some i → r < (compile rf f).p.length := by
    intro r i hi
    by_contra hk
    rw [List.getElem?_eq_none (by omega)] at hi
    simp at hi
  -- every value is regular
  have hok : ∀ (k : ℕ) y, w[k]? = some y → y.2 := by
    intro k y hy
    have hk : k < (compile rf f).p.length := by
      rw [← hlen]
      by_contra hk
      rw [List.getElem?_eq_none (by omega)] at hy
      simp at hy
    obtain ⟨a, ha⟩ := lookup_some_of_mem (l := (convert rf f ⟨[], [], []⟩).2.cache) (k := k)
      (by rw [hN, List.nodup_reverse]; exact List.nodup_range) (q.nodup (by simp))
      (by rw [hN, List.mem_reverse, List.mem_range]; exact hk)
    obtain ⟨g, g1, -, g3⟩ := h1.cache a k ha
    rw [hy, eval_regAlg x g (noScalar_nodes g1 hn), Option.some.injEq] at g3
    rw [g3]
    exact regular_nodes g1 hreg
  -- the values agree with the real values
  obtain ⟨-, -, -, -, hval⟩ := exec_value val (C32_valid rf f hc hn).1 x
  have hv : ∀ (k : ℕ) y, w[k]? = some y → y.1 = (compile rf f).value val x k := by
    intro k
    induction k using Nat.strong_induction_on with
    | _ k ih =>
    intro y hy
    have hk : k < (compile rf f).p.length := by
      rw [← hlen]
      by_contra hk
      rw [List.getElem?_eq_none (by omega)] at hy
      simp at hy
    have hik : (compile rf f).p[k]? = some (compile rf f).p[k] := List.getElem?_eq_getElem hk
    rw [hval k _ hik]
    obtain ⟨z, e1, e2⟩ := h1.comp.2 k _ hik
    rw [hy, Option.some.injEq] at e1
    subst e1
    have hread := (take_reads e2).1
    have ih' : ∀ a < k, ∀ y, (w.take k)[a]? = some y → y.1 = (compile rf f).value val x a := by
      intro a ha y hya
      rw [List.getElem?_take, if_pos ha] at hya
      exact ih a ha y hya
    revert e2 hread
    generalize (compile rf f).p[k] = i
    intro e2 hread
    cases i with
    | const k =>
      simp only [execInstr, Option.map_eq_some_iff] at e2
      obtain ⟨a, h3, rfl⟩ := e2
      have h3 : (compile rf f).c[k]? = some a := h3
      simp [Instr.val, constVal, h3, regAlg]
    | ind i =>
      simp only [execInstr, Option.some.injEq] at e2
      subst e2
      rfl
    | un op a =>
      simp only [execInstr, Option.map_eq_some_iff] at e2
      obtain ⟨b, h3, rfl⟩ := e2
      simp [Instr.val, regAlg, ← ih' a (hread a (by simp [Instr.reads])) b h3]
    | bin op a b =>
      simp only [execInstr, Option.map_eq_some_iff, Option.bind_eq_some_iff] at e2
      obtain ⟨y1, h3, y2, h4, rfl⟩ := e2
      simp [Instr.val, regAlg, ← ih' a (hread a (by simp [Instr.reads])) y1 h3,
        ← ih' b (hread b (by simp [Instr.reads])) y2 h4]
    | graded a n =>
      simp only [execInstr, Option.map_eq_some_iff] at e2
      obtain ⟨b, h3, rfl⟩ := e2
      simp [Instr.val, regAlg, ← ih' a (hread a (by simp [Instr.reads])) b h3]
    | scalar op j a =>
      simp only [execInstr, Option.map_eq_some_iff, Option.bind_eq_some_iff] at e2
      obtain ⟨y1, h3, y2, h4, rfl⟩ := e2
      have h3 : (compile rf f).c[j]? = some y1 := h3
      simp [Instr.val, constVal, h3, regAlg, ← ih' a (hread a (by simp [Instr.reads])) y2 h4]
  obtain ⟨z, e1, e2⟩ := h1.comp.2 r i hi
  have hz := hok r z e1
  have hw : ∀ (k : ℕ) y, (w.take r)[k]? = some y → y.1 = (compile rf f).value val x k := by
    intro k y hy
    rw [List.getElem?_take] at hy
    split_ifs at hy
    exact hv k y hy
  cases i with
  | const k => trivial
  | ind i => trivial
  | un op a =>
    simp only [execInstr, Option.map_eq_some_iff] at e2
    obtain ⟨b, h3, rfl⟩ := e2
    simp only [Instr.Regular, ← hw a b h3]
    exact hz.2
  | bin op a b =>
    simp only [execInstr, Option.map_eq_some_iff, Option.bind_eq_some_iff] at e2
    obtain ⟨y1, h3, y2, h4, rfl⟩ := e2
    simp only [Instr.Regular, ← hw a y1 h3, ← hw b y2 h4]
    exact hz.2.2
  | graded a n =>
    simp only [execInstr, Option.map_eq_some_iff] at e2
    obtain ⟨b, h3, rfl⟩ := e2
    simp only [Instr.Regular, ← hw a b h3]
    exact hz.2
  | scalar op k a =>
    simp only [execInstr, Option.map_eq_some_iff, Option.bind_eq_some_iff] at e2
    obtain ⟨y1, h3, y2, h4, rfl⟩ := e2
    have h3 : (compile rf f).c[k]? = some y1 := h3
    simp only [Instr.Regular, ← hw a y2 h4, constVal, h3, Option.map_some, Option.getD_some]
    exact hz.2

/-- **C33**: the gradient of the procedure compiled from a formula encloses the partial derivatives of
the formula. -/
theorem C33_gradient_formula_partial (hE : Encloses A val mem) (rf : Bool) (f : Formula Y)
    (hc : Coherent f.nodes) (hn : f.NoScalar) (x' : ℕ → X) (x : ℕ → ℝ) (hx : ∀ k, mem (x' k) (x k))
    (hreg : f.Regular val x) :
    ∃ g, gradient A (compile rf f) x' = some g ∧
      ∀ j, ∃ d, HasDerivAt (fun s => f.eval (realAlg val).toAlg (Function.update x j s)) d (x j) ∧
        mem (g j) d := by
  obtain ⟨hV, h0⟩ := C32_valid rf f hc hn
  obtain ⟨g, h1, F, h2, h3⟩ := C33_gradient_partial hE (compile rf f) hV h0.ne' x' x hx
    (compile_regular rf f hc hn x hreg)
  refine ⟨g, h1, fun j => ?_⟩
  obtain ⟨d, h4, h5⟩ := h3 j
  have : ∀ y, F y = f.eval (realAlg val).toAlg y := fun y => by
    have := C32_compile_partial (realAlg val).toAlg rf f hc hn y
    rw [h2 y, Option.some.injEq] at this
    exact this
  simp only [this] at h4
  exact ⟨d, h4, h5⟩

/-- Real numbers enclose themselves. -/
theorem encloses_real (val : Y → ℝ) : Encloses (realAlg val) val Eq where
  cst := fun _ => rfl
  un := fun op x a h _ => by subst h; rfl
  bin := fun op x a y b h1 h2 _ => by subst h1 h2; rfl
  pow := fun x a n h _ => by subst h; rfl
  mix := fun op c y b h _ => by subst h; rfl
  zero := rfl
  ofInt := fun _ => rfl

/-- Sets of real numbers, with the images of the operators on their domains. -/
noncomputable def setAlg (val : Y → ℝ) : GAlg Y (Set ℝ) where
  cst := fun c => {val c}
  un := fun op S => {b | ∃ a ∈ S, UnDom op a ∧ b = realUn op a}
  bin := fun op S T => {c | ∃ a ∈ S, ∃ b ∈ T, (op = .div → b ≠ 0) ∧ c = realBin op a b}
  pow := fun S n => {b | ∃ a ∈ S, (0 ≤ n ∨ a ≠ 0) ∧ b = a ^ n}
  mix := fun op c S => {d | ∃ b ∈ S, (op = .div → b ≠ 0) ∧ d = realBin op (val c) b}
  zero := {0}
  ofInt := fun n => {(n : ℝ)}

theorem encloses_set (val : Y → ℝ) : Encloses (setAlg val) val (fun S a => a ∈ S) where
  cst := fun _ => rfl
  un := fun op x a h hd => ⟨a, h, hd, rfl⟩
  bin := fun op x a y b h1 h2 hd => ⟨a, h1, b, h2, hd, rfl⟩
  pow := fun x a n h hd => ⟨a, h, hd, rfl⟩
  mix := fun op c y b h hd => ⟨b, h, hd, rfl⟩
  zero := rfl
  ofInt := fun _ => rfl

/-- **C33**: in exact arithmetic the gradient is the vector of partial derivatives. -/
theorem C33_gradient_exact_partial (val : Y → ℝ) (rf : Bool) (f : Formula Y) (hc : Coherent f.nodes)
    (hn : f.NoScalar) (x : ℕ → ℝ) (hreg : f.Regular val x) :
    ∃ g, gradient (realAlg val) (compile rf f) x = some g ∧
      ∀ j, HasDerivAt (fun s => f.eval (realAlg val).toAlg (Function.update x j s)) (g j) (x j) := by
  obtain ⟨g, h1, h2⟩ := C33_gradient_formula_partial (encloses_real val) rf f hc hn x x (fun _ => rfl) hreg
  refine ⟨g, h1, fun j => ?_⟩
  obtain ⟨d, h3, h4⟩ := h2 j
  rw [h4]
  exact h3

/-- **C33**: without instructions there is no last temporary. -/
theorem C33_empty (A : GAlg Y X) (P : Proc Y) (x : ℕ → X) (h : P.p = []) : gradient A P x = none := by
  simp [gradient, h]

/-- **C33**: the derivative of `asin` is computed as `1/(1-sqrt(x))`: at `1/4` the result is `2`, which
is not the derivative. -/
theorem C33_asin_wrong : ∃ f : Formula ℤ, ∃ x : ℕ → ℝ, Coherent f.nodes ∧ f.NoScalar ∧
    (∀ y, f.eval (realAlg (fun c : ℤ => (c : ℝ))).toAlg y = Real.arcsin (y 0)) ∧
    ∃ g, gradient (realAlg (fun c : ℤ => (c : ℝ))) (compile false f) x = some g ∧ g 0 = 2 ∧
      ¬ HasDerivAt (fun s => Real.arcsin (Function.update x 0 s 0)) (g 0) (x 0) := by
  have hs : Real.sqrt 4⁻¹ = 2⁻¹ := by
    rw [show (4⁻¹ : ℝ) = 2⁻¹ ^ 2 by norm_num]
    exact Real.sqrt_sq (by norm_num)
  refine ⟨.un 2 .asin (.ind 1 0), fun _ => 4⁻¹, ?_, trivial, fun y => rfl,
    Function.update (fun _ => 0) 0 2, ?_, by simp, ?_⟩
  · intro a ha b hb h
    simp only [Formula.nodes, Set.mem_insert_iff, Set.mem_singleton_iff] at ha hb
    rcases ha with rfl | rfl <;> rcases hb with rfl | rfl <;> simp_all [Formula.addr]
  · simp [gradient, compile, convert, Code.push, exec, execFrom, execInstr, backLoop, backInstr, addAt,
      unDerivative, realAlg, realUn, realBin, hs]
    norm_num
  · intro h
    have h1 := Real.hasDerivAt_arcsin (x := 4⁻¹) (by norm_num) (by norm_num)
    simp only [Function.update_self] at h
    have h2 := h.unique h1
    have h3 : Real.sqrt (1 - 4⁻¹ ^ 2) > 1 / 2 := by
      rw [gt_iff_lt, Real.lt_sqrt (by norm_num)]
      norm_num
    rw [eq_div_iff (by positivity)] at h2
    linarith

/-! ## Examples -/

/-- `log(x0)*(x0+3)` with `x0` shared. -/
def exLog : Formula ℤ :=
  .bin 5 .mul (.un 2 .log (.ind 1 0)) (.bin 4 .add (.ind 1 0) (.const 3 3))

theorem exLog_coherent : Coherent exLog.nodes := by
  intro a ha b hb h
  simp only [exLog, Formula.nodes, Set.mem_insert_iff, Set.mem_union, Set.mem_singleton_iff] at ha hb
  rcases ha with rfl | (rfl | rfl) | rfl | rfl | rfl <;>
  rcases hb with rfl | (rfl | rfl) | rfl | rfl | rfl <;>
  simp_all [Formula.addr]

example : ∃ g, gradient (realAlg (fun c : ℤ => (c : ℝ))) (compile false exLog) (fun _ => 2) = some g ∧
    ∀ j, HasDerivAt (fun s => exLog.eval (realAlg (fun c : ℤ => (c : ℝ))).toAlg
      (Function.update (fun _ => 2) j s)) (g j) 2 :=
  C33_gradient_exact_partial _ false exLog exLog_coherent (by simp [exLog, Formula.NoScalar]) (fun _ => 2)
    (by simp [exLog, Formula.Regular, UnReg, BinReg, Formula.eval])

end Verif.Procedure
