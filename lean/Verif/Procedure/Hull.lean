import Verif.Procedure.Gradient
import Mathlib.Analysis.Real.Pi.Bounds

/-!
# Property C34: reducing a box by back-propagation loses no solution
-/

namespace Verif.Procedure

open Ariadne.Symbolic (UnOp BinOp)

variable {Y X : Type*}

/-! ## Specification -/

/-- spec: sound interval arithmetic.  Division is an inverse of multiplication as a relation: dividing
by an interval containing zero keeps all solutions of `c*b=a`; the square root of an interval contains
every number whose square is in the interval (`source/geometry/interval.cpp` lines 131-134); the
logarithm is that of the positive part (lines 137-140). -/
structure ISound (A : IAlg Y X) (val : Y → ℝ) (mem : X → ℝ → Prop) : Prop where
  cst : ∀ c, mem (A.cst c) (val c)
  un : ∀ op x a, mem x a → UnDom op a → mem (A.un op x) (realUn op a)
  bin : ∀ op x a y b, mem x a → mem y b → (op = .div → b ≠ 0) → mem (A.bin op x y) (realBin op a b)
  pow : ∀ x a n, mem x a → (0 ≤ n ∨ a ≠ 0) → mem (A.pow x n) (a ^ n)
  mix : ∀ op c y b, mem y b → (op = .div → b ≠ 0) → mem (A.mix op c y) (realBin op (val c) b)
  sqrt : ∀ x a, mem x (a ^ 2) → mem (A.un .sqrt x) a
  div : ∀ x y b c, mem x (c * b) → mem y b → mem (A.bin .div x y) c
  subC : ∀ x a c, mem x a → mem (A.mixR .sub x c) (a - val c)
  divC : ∀ x a c, mem x (val c * a) → mem (A.mixR .div x c) a
  constDiv : ∀ x a c, mem x a → ∀ b, b * a = val c → mem (A.mix .div c x) b
  restrict : ∀ x y a, mem (A.restrict x y) a ↔ mem x a ∧ mem y a

/-- spec: unary operators which can be back-propagated soundly. -/
def unSupported : UnOp → Bool
  | .pos | .neg | .recip | .sqr | .sqrt | .exp | .log | .asin | .acos | .atan => true
  | _ => false

/-- spec: binary operators which can be back-propagated soundly. -/
def binSupported : BinOp → Bool
  | .add | .sub | .mul | .div => true
  | _ => false

/-- spec: instructions which can be back-propagated soundly. -/
def Instr.Supported : Instr → Bool
  | .const _ => true
  | .ind _ => true
  | .un op _ => unSupported op
  | .bin op _ _ => binSupported op
  | .graded _ _ => false
  | .scalar op _ _ => binSupported op

/-- spec: the instruction is defined for the values `v` of the temporaries. -/
def Instr.Defined (v : ℕ → ℝ) : Instr → Prop
  | .const _ => True
  | .ind _ => True
  | .un op a => UnDom op (v a)
  | .bin op _ b => op = .div → v b ≠ 0
  | .graded a n => 0 ≤ n ∨ v a ≠ 0
  | .scalar op _ a => op = .div → v a ≠ 0

/-! ## Soundness -/

variable {A : IAlg Y X} {val : Y → ℝ} {mem : X → ℝ → Prop}

/-- Execution encloses the values. -/
theorem exec_isound (hA : ISound A val mem) {P : Proc Y} (hP : P.Valid) {x' : ℕ → X} {x : ℕ → ℝ}
    (hx : ∀ k, mem (x' k) (x k))
    (hdef : ∀ (r : ℕ) (i : Instr), P.p[r]? = some i → i.Defined (P.value val x)) :
    ∃ w, exec A.toAlg P x' = some w ∧ w.length = P.p.length ∧ LRel mem w (P.value val x) := by
  obtain ⟨w, hw⟩ := exists_computes A.toAlg hP x'
  obtain ⟨-, -, -, -, hval⟩ := exec_value val hP x
  refine ⟨w, exec_eq hw, hw.1, fun r => ?_⟩
  induction r using Nat.strong_induction_on with
  | _ r ih =>
  intro y hy
  have hr : r < P.p.length := by
    rw [← hw.1]
    by_contra hk
    rw [List.getElem?_eq_none (by omega)] at hy
    simp at hy
  have hi : P.p[r]? = some P.p[r] := List.getElem?_eq_getElem hr
  obtain ⟨z, h1, h2⟩ := hw.2 r _ hi
  rw [hy, Option.some.injEq] at h1
  subst h1
  rw [hval r _ hi]
  have hread := (take_reads h2).1
  have hrg := hdef r _ hi
  have ih' : ∀ a < r, ∀ y, (w.take r)[a]? = some y → mem y (P.value val x a) := by
    intro a ha y hya
    rw [List.getElem?_take, if_pos ha] at hya
    exact ih a ha y hya
  revert h2 hread hrg
  generalize P.p[r] = i
  intro h2 hread hrg
  cases i with
  | const k =>
    simp only [execInstr, Option.map_eq_some_iff] at h2
    obtain ⟨a, h3, rfl⟩ := h2
    simpa [Instr.val, constVal, h3] using hA.cst a
  | ind i =>
    simp only [execInstr, Option.some.injEq] at h2
    subst h2
    exact hx i
  | un op a =>
    simp only [execInstr, Option.map_eq_some_iff] at h2
    obtain ⟨b, h3, rfl⟩ := h2
    exact hA.un _ _ _ (ih' a (hread a (by simp [Instr.reads])) b h3) hrg
  | bin op a b =>
    simp only [execInstr, Option.map_eq_some_iff, Option.bind_eq_some_iff] at h2
    obtain ⟨y1, h3, y2, h4, rfl⟩ := h2
    exact hA.bin _ _ _ _ _ (ih' a (hread a (by simp [Instr.reads])) y1 h3)
      (ih' b (hread b (by simp [Instr.reads])) y2 h4) hrg
  | graded a n =>
    simp only [execInstr, Option.map_eq_some_iff] at h2
    obtain ⟨b, h3, rfl⟩ := h2
    exact hA.pow _ _ _ (ih' a (hread a (by simp [Instr.reads])) b h3) hrg
  | scalar op k a =>
    simp only [execInstr, Option.map_eq_some_iff, Option.bind_eq_some_iff] at h2
    obtain ⟨y1, h3, y2, h4, rfl⟩ := h2
    have := hA.mix op y1 y2 _ (ih' a (hread a (by simp [Instr.reads])) y2 h4) hrg
    simpa [Instr.val, constVal, h3] using this

theorem LRel.set {l : List X} {f : ℕ → ℝ} (h : LRel mem l f) (a : ℕ) {y : X} (hy : mem y (f a)) :
    LRel mem (l.set a y) f := by
  intro k z hk
  by_cases hak : a = k
  · subst hak
    by_cases hl : a < l.length
    · rw [List.getElem?_set_self hl, Option.some.injEq] at hk
      subst hk; exact hy
    · rw [List.getElem?_eq_none (by simpa using hl)] at hk
      simp at hk
  · rw [List.getElem?_set_ne hak] at hk
    exact h k z hk

theorem backUn_sound (hA : ISound A val mem) {op : UnOp} (hs : unSupported op = true) {r z : X} {a : ℝ}
    (hz : mem z a) (hd : UnDom op a) (hr : mem r (realUn op a)) :
    ∃ w, backUn A r op z = some w ∧ mem w a := by
  cases op <;> simp [unSupported] at hs <;> refine ⟨_, rfl, (hA.restrict _ _ _).2 ⟨hz, ?_⟩⟩
  case pos => exact hr
  case neg => simpa [realUn] using hA.un .neg _ _ hr trivial
  case recip =>
    have := hA.un .recip _ _ hr (show a⁻¹ ≠ 0 from inv_ne_zero hd)
    simpa [realUn] using this
  case sqr => exact hA.sqrt _ _ hr
  case sqrt =>
    have := hA.un .sqr _ _ hr trivial
    simpa [realUn, Real.sq_sqrt (show 0 ≤ a from hd)] using this
  case exp =>
    have := hA.un .log _ _ hr (Real.exp_pos a)
    simpa [realUn] using this
  case log =>
    have := hA.un .exp _ _ hr trivial
    simpa [realUn, Real.exp_log (show 0 < a from hd)] using this
  case asin =>
    have := hA.un .sin _ _ hr trivial
    simpa [realUn, Real.sin_arcsin hd.1 hd.2] using this
  case acos =>
    have := hA.un .cos _ _ hr trivial
    simpa [realUn, Real.cos_arccos hd.1 hd.2] using this
  case atan =>
    have := hA.un .tan _ _ hr (Real.cos_arctan_pos a).ne'
    simpa [realUn, Real.tan_arctan] using this

theorem backBin1_sound (hA : ISound A val mem) {op : BinOp} (hs : binSupported op = true) {r y : X}
    {a b : ℝ} (hy : mem y b) (hd : op = .div → b ≠ 0) (hr : mem r (realBin op a b)) :
    mem (backBin1 A r op y) a := by
  cases op <;> simp [binSupported] at hs
  · simpa [realBin, backBin1] using hA.bin .sub _ _ _ _ hr hy (by simp)
  · simpa [realBin, backBin1] using hA.bin .add _ _ _ _ hy hr (by simp)
  · exact hA.div _ _ _ _ hr hy
  · have := hA.bin .mul _ _ _ _ hy hr (by simp)
    simpa [realBin, backBin1, mul_div_cancel₀ a (hd rfl)] using this

theorem backBin2_sound (hA : ISound A val mem) {op : BinOp} (hs : binSupported op = true) {r x : X}
    {a b : ℝ} (hx : mem x a) (hd : op = .div → b ≠ 0) (hr : mem r (realBin op a b)) :
    mem (backBin2 A r op x) b := by
  cases op <;> simp [binSupported] at hs
  · simpa [realBin, backBin2] using hA.bin .sub _ _ _ _ hr hx (by simp)
  · simpa [realBin, backBin2] using hA.bin .sub _ _ _ _ hx hr (by simp)
  · refine hA.div _ _ a _ ?_ hx
    simpa [realBin, mul_comm] using hr
  · refine hA.div _ _ (a / b) _ ?_ hr
    have := hd rfl
    rwa [mul_div_cancel₀ a this]

theorem backScalar_sound (hA : ISound A val mem) {op : BinOp} (hs : binSupported op = true) {r : X}
    {c : Y} {b : ℝ} (hd : op = .div → b ≠ 0) (hr : mem r (realBin op (val c) b)) :
    mem (backScalar A r op c) b := by
  cases op <;> simp [binSupported] at hs
  · simpa [realBin, backScalar] using hA.subC _ _ c hr
  · simpa [realBin, backScalar] using hA.mix .sub c _ _ hr (by simp)
  · exact hA.divC _ _ _ hr
  · refine hA.constDiv _ _ c hr _ ?_
    have := hd rfl
    exact mul_div_cancel₀ _ this

theorem backpropInstr_sound (hA : ISound A val mem) {c : List Y} {x v : ℕ → ℝ} {n r : ℕ} (hrn : r < n)
    {x' : ℕ → X} (hx : ∀ k, mem (x' k) (x k)) {t : List X} (ht : LRel mem t v) (hn : t.length = n)
    {i : Instr} (hi : (∀ a ∈ i.reads, a < r) ∧ ∀ k ∈ i.constants, k < c.length)
    (hs : i.Supported = true) (hd : i.Defined v) (hv : v r = i.val val c x v) :
    ∃ st, backpropInstr A c r (x', t) i = some st ∧ (∀ k, mem (st.1 k) (x k)) ∧ LRel mem st.2 v ∧
      st.2.length = n := by
  have hg : ∀ a < n, ∃ y, t[a]? = some y ∧ mem y (v a) := fun a ha => by
    obtain ⟨y, hy⟩ : ∃ y, t[a]? = some y := ⟨_, List.getElem?_eq_getElem (by omega)⟩
    exact ⟨y, hy, ht a y hy⟩
  obtain ⟨y, hy, my⟩ := hg r hrn
  rw [hv] at my
  cases i with
  | const k => exact ⟨_, rfl, hx, ht, hn⟩
  | ind i =>
    refine ⟨_, by simp [backpropInstr, hy]; rfl, fun k => ?_, ht, hn⟩
    by_cases hk : k = i
    · subst hk
      simpa using (hA.restrict _ _ _).2 ⟨hx k, my⟩
    · simpa [hk] using hx k
  | un op a =>
    have ha := hi.1 a (by simp [Instr.reads])
    obtain ⟨z, hz, mz⟩ := hg a (by omega)
    obtain ⟨w, h1, h2⟩ := backUn_sound hA hs mz hd my
    exact ⟨(x', t.set a w), by simp [backpropInstr, hy, hz, h1], hx, ht.set a h2, by simpa using hn⟩
  | bin op a b =>
    have ha := hi.1 a (by simp [Instr.reads])
    have hb := hi.1 b (by simp [Instr.reads])
    obtain ⟨z1, hz1, mz1⟩ := hg a (by omega)
    obtain ⟨z2, hz2, mz2⟩ := hg b (by omega)
    have h1 : mem (A.restrict z1 (backBin1 A y op z2)) (v a) :=
      (hA.restrict _ _ _).2 ⟨mz1, backBin1_sound hA hs mz2 hd my⟩
    have h2 := ht.set a h1
    obtain ⟨w1, hw1⟩ : ∃ w, (t.set a (A.restrict z1 (backBin1 A y op z2)))[a]? = some w :=
      ⟨_, List.getElem?_eq_getElem (by simp; omega)⟩
    obtain ⟨w2, hw2⟩ : ∃ w, (t.set a (A.restrict z1 (backBin1 A y op z2)))[b]? = some w :=
      ⟨_, List.getElem?_eq_getElem (by simp; omega)⟩
    refine ⟨(x', (t.set a (A.restrict z1 (backBin1 A y op z2))).set b
      (A.restrict w2 (backBin2 A y op w1))), by simp only [backpropInstr, hy, hz1, hz2, Option.bind_some,
        hw1, hw2, Option.map_some], hx, ?_, by simpa using hn⟩
    exact h2.set b ((hA.restrict _ _ _).2 ⟨h2 _ _ hw2, backBin2_sound hA hs (h2 _ _ hw1) hd my⟩)
  | graded a n => simp [Instr.Supported] at hs
  | scalar op k a =>
    have ha := hi.1 a (by simp [Instr.reads])
    have hk := hi.2 k (by simp [Instr.constants])
    obtain ⟨z, hz, mz⟩ := hg a (by omega)
    obtain ⟨d, hc⟩ : ∃ d, c[k]? = some d := ⟨_, List.getElem?_eq_getElem hk⟩
    refine ⟨(x', t.set a (A.restrict z (backScalar A y op d))), by simp [backpropInstr, hy, hz, hc], hx,
      ht.set a ((hA.restrict _ _ _).2 ⟨mz, backScalar_sound hA hs hd ?_⟩), by simpa using hn⟩
    simpa [Instr.val, constVal, hc] using my

theorem backpropLoop_sound (hA : ISound A val mem) {P : Proc Y} (hP : P.Valid) {x : ℕ → ℝ}
    (hs : ∀ i ∈ P.p, i.Supported = true)
    (hd : ∀ (r : ℕ) (i : Instr), P.p[r]? = some i → i.Defined (P.value val x)) (r : ℕ)
    (hr : r ≤ P.p.length) (x' : ℕ → X) (hx : ∀ k, mem (x' k) (x k)) (t : List X)
    (ht : LRel mem t (P.value val x)) (hn : t.length = P.p.length) :
    ∃ st, backpropLoop A P.c P.p r (x', t) = some st ∧ ∀ k, mem (st.1 k) (x k) := by
  induction r generalizing x' t with
  | zero => exact ⟨_, rfl, hx⟩
  | succ r ih =>
    have hi : P.p[r]? = some P.p[r] := List.getElem?_eq_getElem (by omega)
    obtain ⟨-, -, -, -, hval⟩ := exec_value val hP x
    obtain ⟨⟨x1, t1⟩, h1, h2, h3, h4⟩ := backpropInstr_sound hA (by omega : r < P.p.length) hx ht hn
      (hP r _ hi) (hs _ (List.getElem_mem _)) (hd r _ hi) (hval r _ hi)
    obtain ⟨st, h5, h6⟩ := ih (by omega) x1 h2 t1 h3 h4
    exact ⟨st, by rw [backpropLoop, hi, Option.bind_some, h1, Option.bind_some, h5], h6⟩

theorem restrictResults_sound (hA : ISound A val mem) {v : ℕ → ℝ} (res : List ℕ) (codom : List X)
    (hc : ∀ (k : ℕ) (j : ℕ) y, res[k]? = some j → codom[k]? = some y → mem y (v j)) (t : List X)
    (ht : LRel mem t v) : LRel mem (restrictResults A res codom t) v ∧
      (restrictResults A res codom t).length = t.length := by
  induction res generalizing codom t with
  | nil => exact ⟨ht, rfl⟩
  | cons j res ih =>
    cases codom with
    | nil => exact ⟨ht, rfl⟩
    | cons y codom =>
      have h1 : LRel mem (t.modify j (fun z => A.restrict z y)) v := by
        have := ht.modify j (fun z => A.restrict z y) 0 fun z hz => by
          rw [add_zero] at *
          exact (hA.restrict _ _ _).2 ⟨hz, hc 0 j y rfl rfl⟩
        simpa using this
      have := ih codom (fun k i z h2 h3 => hc (k + 1) i z h2 h3) _ h1
      simpa [restrictResults] using this

/-! ## Theorems -/

/-- **C34**: no point of the box at which the procedure is defined and its results are in the codomain
is removed. -/
theorem C34_no_solution_lost_partial (hA : ISound A val mem) (P : Proc Y) (hP : P.Valid)
    (hs : ∀ i ∈ P.p, i.Supported = true) (res : List ℕ) (dom : ℕ → X) (codom : List X) (x : ℕ → ℝ)
    (hx : ∀ k, mem (dom k) (x k))
    (hd : ∀ (r : ℕ) (i : Instr), P.p[r]? = some i → i.Defined (P.value val x))
    (hc : ∀ (k j : ℕ) y, res[k]? = some j → codom[k]? = some y → mem y (P.value val x j)) :
    ∃ dom', hullReduce A P res dom codom = some dom' ∧ ∀ k, mem (dom' k) (x k) := by
  obtain ⟨w, h1, h2, h3⟩ := exec_isound hA hP hx hd
  obtain ⟨h4, h5⟩ := restrictResults_sound hA res codom hc w h3
  obtain ⟨st, h6, h7⟩ := backpropLoop_sound hA hP hs hd P.p.length le_rfl dom hx _ h4 (by rw [h5, h2])
  exact ⟨st.1, by rw [hullReduce, h1, Option.bind_some, h6, Option.map_some], h7⟩

theorem backpropInstr_subset (hA : ISound A val mem) {c : List Y} {r : ℕ} {st st1 : (ℕ → X) × List X}
    {i : Instr} (h : backpropInstr A c r st i = some st1) (k : ℕ) (a : ℝ) (ha : mem (st1.1 k) a) :
    mem (st.1 k) a := by
  cases i with
  | const k => simp only [backpropInstr, Option.some.injEq] at h; subst h; exact ha
  | ind i =>
    simp only [backpropInstr, Option.map_eq_some_iff] at h
    obtain ⟨y, -, rfl⟩ := h
    by_cases hk : k = i
    · subst hk
      simp only [Function.update_self] at ha
      exact ((hA.restrict _ _ _).1 ha).1
    · simpa [hk] using ha
  | un op b =>
    simp only [backpropInstr, Option.map_eq_some_iff, Option.bind_eq_some_iff] at h
    obtain ⟨y, -, z, -, w, -, rfl⟩ := h
    exact ha
  | bin op b d =>
    simp only [backpropInstr, Option.map_eq_some_iff, Option.bind_eq_some_iff] at h
    obtain ⟨y, -, z1, -, z2, -, w1, -, w2, -, rfl⟩ := h
    exact ha
  | graded b n =>
    simp only [backpropInstr, Option.map_eq_some_iff, Option.bind_eq_some_iff] at h
    obtain ⟨y, -, z, -, rfl⟩ := h
    exact ha
  | scalar op j b =>
    simp only [backpropInstr, Option.map_eq_some_iff, Option.bind_eq_some_iff] at h
    obtain ⟨y, -, z, -, w, -, rfl⟩ := h
    exact ha

/-- **C34**: the new box is a subset of the old one, whatever the instructions. -/
theorem C34_contracts (hA : ISound A val mem) (P : Proc Y) (res : List ℕ) (dom : ℕ → X) (codom : List X)
    (dom' : ℕ → X) (h : hullReduce A P res dom codom = some dom') (k : ℕ) (a : ℝ)
    (ha : mem (dom' k) a) : mem (dom k) a := by
  simp only [hullReduce, Option.bind_eq_some_iff, Option.map_eq_some_iff] at h
  obtain ⟨t, -, st, h1, rfl⟩ := h
  suffices H : ∀ (r : ℕ) (st st1 : (ℕ → X) × List X), backpropLoop A P.c P.p r st = some st1 →
      mem (st1.1 k) a → mem (st.1 k) a from H _ _ _ h1 ha
  intro r
  induction r with
  | zero => intro st st1 h ha; simp only [backpropLoop, Option.some.injEq] at h; subst h; exact ha
  | succ r ih =>
    intro st st1 h ha
    simp only [backpropLoop, Option.bind_eq_some_iff] at h
    obtain ⟨i, -, st2, h2, h3⟩ := h
    exact backpropInstr_subset hA h2 k a (ih _ _ h3 ha)

/-! ## Sets of real numbers as intervals -/

open Classical in
/-- The tightest sound interval arithmetic. -/
noncomputable def setIAlg (val : Y → ℝ) : IAlg Y (Set ℝ) where
  cst := fun c => {val c}
  un := fun op S => if op = .sqrt then {a | a ^ 2 ∈ S} else {b | ∃ a ∈ S, UnDom op a ∧ b = realUn op a}
  bin := fun op S T => if op = .div then {c | ∃ b ∈ T, c * b ∈ S}
    else {c | ∃ a ∈ S, ∃ b ∈ T, c = realBin op a b}
  pow := fun S n => {b | ∃ a ∈ S, (0 ≤ n ∨ a ≠ 0) ∧ b = a ^ n}
  mix := fun op c S => if op = .div then {d | ∃ b ∈ S, d * b = val c} else {d | ∃ b ∈ S, d = realBin op (val c) b}
  zero := {0}
  restrict := fun S T => S ∩ T
  divInt := fun S n => {b | ∃ a ∈ S, b = a / n}
  mixR := fun op S c => if op = .div then {d | val c * d ∈ S} else {d | ∃ b ∈ S, d = realBin op b (val c)}

theorem isound_set (val : Y → ℝ) : ISound (setIAlg val) val (fun S a => a ∈ S) where
  cst := fun _ => rfl
  un := fun op x a h hd => by
    by_cases ho : op = .sqrt
    · subst ho
      simpa [setIAlg, realUn, Real.sq_sqrt (show 0 ≤ a from hd)] using h
    · simpa [setIAlg, ho] using ⟨a, h, hd, rfl⟩
  bin := fun op x a y b h1 h2 hd => by
    by_cases ho : op = .div
    · subst ho
      have := hd rfl
      simpa [setIAlg, realBin] using ⟨b, h2, by rwa [div_mul_cancel₀ a this]⟩
    · simpa [setIAlg, ho] using ⟨a, h1, b, h2, rfl⟩
  pow := fun x a n h hd => ⟨a, h, hd, rfl⟩
  mix := fun op c y b h hd => by
    by_cases ho : op = .div
    · subst ho
      have := hd rfl
      simpa [setIAlg, realBin] using ⟨b, h, div_mul_cancel₀ _ this⟩
    · simpa [setIAlg, ho] using ⟨b, h, rfl⟩
  sqrt := fun x a h => by simpa [setIAlg] using h
  div := fun x y b c h1 h2 => by simpa [setIAlg] using ⟨b, h2, h1⟩
  subC := fun x a c h => by simpa [setIAlg, realBin] using h
  divC := fun x a c h => by simpa [setIAlg] using h
  constDiv := fun x a c h b hb => by simpa [setIAlg] using ⟨a, h, hb⟩
  restrict := fun _ _ _ => Iff.rfl

/-! ## Operators for which solutions are lost -/

/-- **C34**: reducing `max(x0,3)=3` over `[0,10]` removes the solution `1`. -/
theorem C34_max_loses_solution : ∃ dom',
    hullReduce (setIAlg (fun c : ℤ => (c : ℝ))) (compile false (.bin 3 .max (.ind 1 0) (.const 2 3))) [2]
      (fun _ => Set.Icc 0 10) [{3}] = some dom' ∧
    Max.max (1 : ℝ) 3 = 3 ∧ (1 : ℝ) ∈ Set.Icc (0 : ℝ) 10 ∧ (1 : ℝ) ∉ dom' 0 := by
  refine ⟨_, rfl, by norm_num, by norm_num, fun h => ?_⟩
  have h : (1 : ℝ) ∈ Set.Icc (0 : ℝ) 10 ∩ (Set.Icc 0 10 ∩ (setIAlg (fun c : ℤ => (c : ℝ))).bin .max
    ((setIAlg (fun c : ℤ => (c : ℝ))).bin .max (Set.Icc 0 10) {((3 : ℤ) : ℝ)} ∩ {3}) {((3 : ℤ) : ℝ)}) := h
  obtain ⟨-, -, h⟩ := h
  simp only [setIAlg] at h
  rw [if_neg (by decide)] at h
  obtain ⟨a, ⟨-, ha⟩, b, hb, h⟩ := h
  rw [Set.mem_singleton_iff] at ha hb
  subst ha hb
  norm_num [realBin] at h

/-- **C34**: reducing `min(x0,3)=3` over `[0,10]` removes the solution `5`. -/
theorem C34_min_loses_solution : ∃ dom',
    hullReduce (setIAlg (fun c : ℤ => (c : ℝ))) (compile false (.bin 3 .min (.ind 1 0) (.const 2 3))) [2]
      (fun _ => Set.Icc 0 10) [{3}] = some dom' ∧
    Min.min (5 : ℝ) 3 = 3 ∧ (5 : ℝ) ∈ Set.Icc (0 : ℝ) 10 ∧ (5 : ℝ) ∉ dom' 0 := by
  refine ⟨_, rfl, by norm_num, by norm_num, fun h => ?_⟩
  have h : (5 : ℝ) ∈ Set.Icc (0 : ℝ) 10 ∩ (Set.Icc 0 10 ∩ (setIAlg (fun c : ℤ => (c : ℝ))).bin .min
    ((setIAlg (fun c : ℤ => (c : ℝ))).bin .min (Set.Icc 0 10) {((3 : ℤ) : ℝ)} ∩ {3}) {((3 : ℤ) : ℝ)}) := h
  obtain ⟨-, -, h⟩ := h
  simp only [setIAlg] at h
  rw [if_neg (by decide)] at h
  obtain ⟨a, ⟨-, ha⟩, b, hb, h⟩ := h
  rw [Set.mem_singleton_iff] at ha hb
  subst ha hb
  norm_num [realBin] at h

/-- **C34**: reducing `x0^2=4` (as a power) over `[-3,3]` removes the solution `-2`. -/
theorem C34_pow_loses_solution : ∃ dom',
    hullReduce (setIAlg (fun c : ℤ => (c : ℝ))) (compile false (.graded 2 (.ind 1 0) 2)) [1]
      (fun _ => Set.Icc (-3) 3) [{4}] = some dom' ∧
    (-2 : ℝ) ^ (2 : ℤ) = 4 ∧ (-2 : ℝ) ∈ Set.Icc (-3 : ℝ) 3 ∧ (-2 : ℝ) ∉ dom' 0 := by
  refine ⟨_, rfl, by norm_num, by norm_num, fun h => ?_⟩
  have h : (-2 : ℝ) ∈ Set.Icc (-3 : ℝ) 3 ∩ (Set.Icc (-3) 3 ∩ (setIAlg (fun c : ℤ => (c : ℝ))).un .exp
    ((setIAlg (fun c : ℤ => (c : ℝ))).divInt ((setIAlg (fun c : ℤ => (c : ℝ))).un .log
      ((setIAlg (fun c : ℤ => (c : ℝ))).pow (Set.Icc (-3) 3) 2 ∩ {4})) 2)) := h
  obtain ⟨-, -, h⟩ := h
  simp only [setIAlg] at h
  rw [if_neg (by decide)] at h
  obtain ⟨a, -, -, h⟩ := h
  have := Real.exp_pos a
  simp only [realUn] at h
  linarith

/-- **C34**: reducing `sin(x0)=0` over `[3,4]` removes the solution `pi`. -/
theorem C34_sin_loses_solution : ∃ dom',
    hullReduce (setIAlg (fun c : ℤ => (c : ℝ))) (compile false (.un 2 .sin (.ind 1 0))) [1]
      (fun _ => Set.Icc 3 4) [{0}] = some dom' ∧
    Real.sin Real.pi = 0 ∧ Real.pi ∈ Set.Icc (3 : ℝ) 4 ∧ Real.pi ∉ dom' 0 := by
  refine ⟨_, rfl, Real.sin_pi, ⟨Real.pi_gt_three.le, Real.pi_le_four⟩, fun h => ?_⟩
  have h : Real.pi ∈ Set.Icc (3 : ℝ) 4 ∩ (Set.Icc 3 4 ∩ (setIAlg (fun c : ℤ => (c : ℝ))).un .asin
    ((setIAlg (fun c : ℤ => (c : ℝ))).un .sin (Set.Icc 3 4) ∩ {0})) := h
  obtain ⟨-, -, h⟩ := h
  simp only [setIAlg] at h
  rw [if_neg (by decide)] at h
  obtain ⟨a, ⟨-, ha⟩, -, h⟩ := h
  rw [Set.mem_singleton_iff] at ha
  subst ha
  simp only [realUn, Real.arcsin_zero] at h
  exact Real.pi_ne_zero h

/-- **C34**: reducing `cos(x0)=-1` over `[-4,-3]` removes the solution `-pi`. -/
theorem C34_cos_loses_solution : ∃ dom',
    hullReduce (setIAlg (fun c : ℤ => (c : ℝ))) (compile false (.un 2 .cos (.ind 1 0))) [1]
      (fun _ => Set.Icc (-4) (-3)) [{-1}] = some dom' ∧
    Real.cos (-Real.pi) = -1 ∧ -Real.pi ∈ Set.Icc (-4 : ℝ) (-3) ∧ -Real.pi ∉ dom' 0 := by
  refine ⟨_, rfl, by simp, ⟨neg_le_neg Real.pi_le_four, neg_le_neg Real.pi_gt_three.le⟩, fun h => ?_⟩
  have h : -Real.pi ∈ Set.Icc (-4 : ℝ) (-3) ∩ (Set.Icc (-4) (-3) ∩
    (setIAlg (fun c : ℤ => (c : ℝ))).un .acos
      ((setIAlg (fun c : ℤ => (c : ℝ))).un .cos (Set.Icc (-4) (-3)) ∩ {-1})) := h
  obtain ⟨-, -, h⟩ := h
  simp only [setIAlg] at h
  rw [if_neg (by decide)] at h
  obtain ⟨a, -, -, h⟩ := h
  simp only [realUn] at h
  have := Real.arccos_nonneg a
  have := Real.pi_pos
  linarith

/-- **C34**: `nul`, `hlf` and `abs` are never back-propagated: the reduction does not return. -/
theorem C34_unsupported (A : IAlg Y X) (op : UnOp) (h : op = .nul ∨ op = .hlf ∨ op = .abs) (rf : Bool)
    (dom : ℕ → X) (codom : List X) :
    hullReduce A (compile rf (.un 2 op (.ind 1 0))) [1] dom codom = none := by
  have : ∀ r z, backUn A r op z = none := by
    intro r z
    rcases h with rfl | rfl | rfl <;> rfl
  cases codom <;>
  simp [hullReduce, compile, convert, Code.push, exec, execFrom, execInstr, restrictResults, backpropLoop,
    backpropInstr, this]

/-! ## Example -/

/-- `x0*x1 + exp(x0)` over `[0,2] x [-3,3]` with value in `[1,2]`: the solution `(0,3)` stays, although
the interval of `x0` contains zero. -/
example : ∃ dom', hullReduce (setIAlg (fun c : ℤ => (c : ℝ)))
      (compile false (.bin 5 .add (.bin 3 .mul (.ind 1 0) (.ind 2 1)) (.un 4 .exp (.ind 1 0)))) [4]
      (fun i => if i = 0 then Set.Icc 0 2 else Set.Icc (-3) 3) [Set.Icc 1 2] = some dom' ∧
    ∀ k, (if k = 1 then (3 : ℝ) else 0) ∈ dom' k := by
  have hV : Proc.Valid (compile false (Y := ℤ)
      (.bin 5 .add (.bin 3 .mul (.ind 1 0) (.ind 2 1)) (.un 4 .exp (.ind 1 0)))) := by
    refine (C32_valid false _ ?_ (by simp [Formula.NoScalar])).1
    intro a ha b hb h
    simp only [Formula.nodes, Set.mem_insert_iff, Set.mem_union, Set.mem_singleton_iff] at ha hb
    rcases ha with rfl | (rfl | rfl | rfl) | rfl | rfl <;>
    rcases hb with rfl | (rfl | rfl | rfl) | rfl | rfl <;>
    simp_all [Formula.addr]
  have hval : ∀ j, Proc.value (fun c : ℤ => (c : ℝ)) (compile false
      (.bin 5 .add (.bin 3 .mul (.ind 1 0) (.ind 2 1)) (.un 4 .exp (.ind 1 0))))
      (fun k => if k = 1 then (3 : ℝ) else 0) j = [0, 3, 0, 1, 1].getD j 0 := by
    intro j
    simp [Proc.value, exec, compile, convert, Code.push, execFrom, execInstr, realAlg, realUn, realBin,
      List.lookup_cons, List.set, List.replicate]
  refine C34_no_solution_lost_partial (isound_set _) _ hV (by decide) _ _ _ _ ?_ ?_ ?_
  · intro k
    by_cases hk : k = 1
    · subst hk; norm_num
    · by_cases h0 : k = 0
      · subst h0; norm_num
      · simp [hk, h0]
  · intro r i hi
    have : i ∈ (compile false (Y := ℤ)
      (.bin 5 .add (.bin 3 .mul (.ind 1 0) (.ind 2 1)) (.un 4 .exp (.ind 1 0)))).p :=
        List.mem_of_getElem? hi
    simp [compile, convert, Code.push, List.lookup_cons] at this
    rcases this with rfl | rfl | rfl | rfl | rfl <;> simp [Instr.Defined, UnDom]
  · intro k j y h1 h2
    rw [hval]
    rcases k with _ | k
    · simp at h1 h2
      subst h1 h2
      norm_num
    · simp at h1

end Verif.Procedure
