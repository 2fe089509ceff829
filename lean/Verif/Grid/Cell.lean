import Verif.Grid.Model
import Verif.BinaryWord.Props
import Verif.BinaryTree.Lemmas
import Mathlib.Tactic.Linarith
import Mathlib.Tactic.Ring
import Mathlib.Tactic.FieldSimp
import Mathlib.Tactic.NormNum
import Mathlib.Algebra.Order.Archimedean.Basic
import Mathlib.Data.List.Infix
/-!
# C18: grid cell addresses denote boxes consistently

The specification is the set of points of a box.  `Box.points` takes boxes half-open, so that cells
partition space; `Box.closed` are the points of the closed box.
-/
namespace Verif.Grid
open Ariadne.BinaryWord (Word)
open Ariadne.BinaryTree (Path Extends)

variable {K : Type*} [Field K] [LinearOrder K] [IsStrictOrderedRing K] {d : ℕ} [NeZero d]

/-- The points of a half-open box. -/
def Box.points (B : Box K d) : Set (Fin d → K) := {x | ∀ j, (B j).1 ≤ x j ∧ x j < (B j).2}

/-- The points of a closed box. -/
def Box.closed (B : Box K d) : Set (Fin d → K) := {x | ∀ j, (B j).1 ≤ x j ∧ x j ≤ (B j).2}

/-- The points of a cell in lattice coordinates. -/
def Cell.points (K : Type*) [Field K] [LinearOrder K] (d : ℕ) [NeZero d] (a : Cell) :
    Set (Fin d → K) := {x | ∀ j, (a.box K d j).1 ≤ x j ∧ x j < (a.box K d j).2}

theorem Cell.points_eq (a : Cell) : a.points K d = (a.box K d).points := rfl

/-! ## Descending -/

omit [LinearOrder K] [IsStrictOrderedRing K] in
theorem descend_append (i : ℕ) (v w : Word) (B : Box K d) :
    descend i (v ++ w) B = descend (i + v.length) w (descend i v B) := by
  induction v generalizing i B with
  | nil => rfl
  | cons b v ih => simp only [List.cons_append, descend, List.length_cons]; rw [ih]; congr 1; omega

theorem ofNat_add_self (i : ℕ) : Fin.ofNat d (i + d) = Fin.ofNat d i := by
  ext; simp [Fin.ofNat]

omit [LinearOrder K] [IsStrictOrderedRing K] in
theorem descend_period (i : ℕ) (w : Word) (B : Box K d) : descend (i + d) w B = descend i w B := by
  induction w generalizing i B with
  | nil => rfl
  | cons b w ih =>
    simp only [descend, ofNat_add_self]
    rw [show i + d + 1 = (i + 1) + d by omega, ih]

theorem mem_halve (b : Bool) (I : K × K) (x : K) :
    ((halve b I).1 ≤ x ∧ x < (halve b I).2) ↔
      ((I.1 ≤ x ∧ x < I.2) ∧ decide ((I.1 + I.2) / 2 ≤ x) = b) := by
  cases b
  · simp only [halve, Bool.false_eq_true, if_false, decide_eq_false_iff_not, not_le]
    constructor
    · rintro ⟨h1, h2⟩
      have : x < I.2 := by linarith [h2, (by linarith : (I.1 + I.2) / 2 = I.1 / 2 + I.2 / 2)]
      exact ⟨⟨h1, this⟩, h2⟩
    · rintro ⟨⟨h1, -⟩, h2⟩; exact ⟨h1, h2⟩
  · simp only [halve, if_true, decide_eq_true_eq]
    constructor
    · rintro ⟨h1, h2⟩; exact ⟨⟨by linarith, h2⟩, h1⟩
    · rintro ⟨⟨-, h1⟩, h2⟩; exact ⟨h2, h1⟩

theorem mem_update (B : Box K d) (k : Fin d) (b : Bool) (x : Fin d → K) :
    x ∈ Box.points (Function.update B k (halve b (B k))) ↔
      x ∈ B.points ∧ decide (((B k).1 + (B k).2) / 2 ≤ x k) = b := by
  constructor
  · intro h
    have hk := h k
    rw [Function.update_self, mem_halve] at hk
    refine ⟨fun j => ?_, hk.2⟩
    by_cases hj : j = k
    · subst hj; exact hk.1
    · have := h j; rwa [Function.update_of_ne hj] at this
  · rintro ⟨h, hb⟩ j
    by_cases hj : j = k
    · subst hj; rw [Function.update_self, mem_halve]; exact ⟨h j, hb⟩
    · rw [Function.update_of_ne hj]; exact h j

/-- The bits chosen by a point: bit `n` says in which half it lies at the `n`th halving. -/
def route (x : Fin d → K) : ℕ → ℕ → Box K d → Bool
  | 0, i, B => decide (((B (Fin.ofNat d i)).1 + (B (Fin.ofNat d i)).2) / 2 ≤ x (Fin.ofNat d i))
  | n + 1, i, B => route x n (i + 1) (Function.update B (Fin.ofNat d i)
      (halve (decide (((B (Fin.ofNat d i)).1 + (B (Fin.ofNat d i)).2) / 2 ≤ x (Fin.ofNat d i)))
        (B (Fin.ofNat d i))))

theorem route_drop (x : Fin d → K) (i : ℕ) (B : Box K d) :
    (Path.drop 1 fun n => route x n i B) = fun n => route x n (i + 1) (Function.update B (Fin.ofNat d i)
      (halve (decide (((B (Fin.ofNat d i)).1 + (B (Fin.ofNat d i)).2) / 2 ≤ x (Fin.ofNat d i)))
        (B (Fin.ofNat d i)))) := by
  funext n
  rw [Path.drop, Nat.add_comm, route]

theorem mem_descend (i : ℕ) (w : Word) (B : Box K d) (x : Fin d → K) :
    x ∈ Box.points (descend i w B) ↔ x ∈ B.points ∧ Extends (fun n => route x n i B) w := by
  induction w generalizing i B with
  | nil => simp [descend, Ariadne.BinaryTree.Tree.extends_nil]
  | cons b w ih =>
    rw [descend, ih, mem_update, Ariadne.BinaryTree.Tree.extends_cons, route_drop, and_assoc]
    refine and_congr_right fun _ => ?_
    constructor
    · rintro ⟨rfl, h2⟩
      exact ⟨rfl, h2⟩
    · rintro ⟨h1, h2⟩
      have h1 : decide (((B (Fin.ofNat d i)).1 + (B (Fin.ofNat d i)).2) / 2 ≤ x (Fin.ofNat d i)) = b := h1
      refine ⟨h1, ?_⟩
      subst h1
      exact h2

/-! ## Primary cells -/

theorem primaryCorners_width (e : ℕ) : (primaryCorners e).2 - (primaryCorners e).1 = 2 ^ e := by
  induction e with
  | zero => rfl
  | succ e ih =>
    rw [primaryCorners, primaryStep, pow_succ]
    split_ifs <;> simp only <;> linarith

theorem primaryCorners_lower (e : ℕ) : (primaryCorners (e + 1)).1 ≤ (primaryCorners e).1 := by
  have := primaryCorners_width e
  have h2 : (0 : ℤ) < 2 ^ e := by positivity
  rw [primaryCorners, primaryStep]
  split_ifs <;> simp only <;> omega

theorem primaryCorners_upper (e : ℕ) : (primaryCorners e).2 ≤ (primaryCorners (e + 1)).2 := by
  have := primaryCorners_width e
  have h2 : (0 : ℤ) < 2 ^ e := by positivity
  rw [primaryCorners, primaryStep]
  split_ifs <;> simp only <;> omega

theorem primaryCorners_mono {e f : ℕ} (h : e ≤ f) :
    (primaryCorners f).1 ≤ (primaryCorners e).1 ∧ (primaryCorners e).2 ≤ (primaryCorners f).2 := by
  induction h with
  | refl => exact ⟨le_refl _, le_refl _⟩
  | step h ih =>
    exact ⟨(primaryCorners_lower _).trans ih.1, ih.2.trans (primaryCorners_upper _)⟩

theorem primaryCorners_upper_odd {e : ℕ} (h : (e + 1) % 2 = 1) :
    (primaryCorners (e + 1)).2 = (primaryCorners e).2 := by
  rw [primaryCorners, primaryStep, if_pos h]

theorem primaryCorners_lower_even {e : ℕ} (h : (e + 1) % 2 = 0) :
    (primaryCorners (e + 1)).1 = (primaryCorners e).1 := by
  rw [primaryCorners, primaryStep, if_neg (by omega)]

/-- Primary cells grow without bound on both sides. -/
theorem primaryCorners_unbounded (m : ℕ) :
    (primaryCorners (2 * m)).1 ≤ -m ∧ (m : ℤ) < (primaryCorners (2 * m)).2 := by
  induction m with
  | zero => decide
  | succ m ih =>
    have hw := primaryCorners_width (2 * m)
    have hw1 := primaryCorners_width (2 * m + 1)
    have h2 : (0 : ℤ) < 2 ^ (2 * m) := by positivity
    have h3 : (0 : ℤ) < 2 ^ (2 * m + 1) := by positivity
    rw [show 2 * (m + 1) = (2 * m + 1) + 1 by ring, primaryCorners, primaryStep,
      if_neg (by omega)]
    have e1 : primaryCorners (2 * m + 1) = (2 * (primaryCorners (2 * m)).1 - (primaryCorners (2 * m)).2,
        (primaryCorners (2 * m)).2) := by rw [primaryCorners, primaryStep, if_pos (by omega)]
    rw [e1] at hw1 ⊢
    simp only at hw1 ⊢
    push_cast
    omega

theorem halve_primary (e : ℕ) :
    halve (decide ((e + 1) % 2 ≠ 0)) (((primaryCorners (e + 1)).1 : K), ((primaryCorners (e + 1)).2 : K)) =
      (((primaryCorners e).1 : K), ((primaryCorners e).2 : K)) := by
  rcases Nat.mod_two_eq_zero_or_one (e + 1) with h | h
  · have hc : primaryCorners (e + 1) = ((primaryCorners e).1, 2 * (primaryCorners e).2 - (primaryCorners e).1) := by
      rw [primaryCorners, primaryStep, if_neg (by omega)]
    rw [hc]
    simp only [halve, h, ne_eq, not_true_eq_false, decide_false, Bool.false_eq_true, if_false]
    push_cast
    refine Prod.ext rfl ?_
    simp only; ring
  · have hc : primaryCorners (e + 1) = (2 * (primaryCorners e).1 - (primaryCorners e).2, (primaryCorners e).2) := by
      rw [primaryCorners, primaryStep, if_pos h]
    rw [hc]
    simp only [halve, h, ne_eq, one_ne_zero, not_false_eq_true, decide_true, if_true]
    push_cast
    refine Prod.ext ?_ rfl
    simp only; ring

omit [LinearOrder K] [IsStrictOrderedRing K] in
theorem descend_replicate (b : Bool) (I : K × K) (k : ℕ) (hk : k ≤ d) :
    descend 0 (List.replicate k b) (fun _ => I) = fun j : Fin d => if j.val < k then halve b I else I := by
  induction k with
  | zero => funext j; simp [descend]
  | succ k ih =>
    rw [List.replicate_succ', descend_append, ih (by omega), List.length_replicate, zero_add]
    simp only [descend]
    funext j
    have hv : (Fin.ofNat d k : Fin d).val = k := by simp [Fin.ofNat, Nat.mod_eq_of_lt (by omega : k < d)]
    by_cases hj : j = Fin.ofNat d k
    · subst hj; rw [Function.update_self, hv, if_neg (lt_irrefl _), if_pos (Nat.lt_succ_self _)]
    · rw [Function.update_of_ne hj]
      have : j.val ≠ k := fun h => hj (Fin.ext (by rw [hv, h]))
      by_cases h1 : j.val < k
      · rw [if_pos h1, if_pos (by omega)]
      · rw [if_neg h1, if_neg (by omega)]

theorem primaryPath_succ (t b : ℕ) (h : b ≤ t) :
    primaryPath d (t + 1) b = List.replicate d (decide ((t + 1) % 2 ≠ 0)) ++ primaryPath d t b := by
  rw [primaryPath, if_pos (by omega)]

theorem primaryPath_self (t : ℕ) : primaryPath d t t = [] := by
  cases t <;> simp [primaryPath]

theorem primaryPath_length (t b : ℕ) (h : b ≤ t) : (primaryPath d t b).length = d * (t - b) := by
  induction t with
  | zero => simp [primaryPath]
  | succ t ih =>
    by_cases hb : b ≤ t
    · rw [primaryPath_succ t b hb, List.length_append, ih hb, List.length_replicate,
        show t + 1 - b = (t - b) + 1 by omega]; ring
    · have : b = t + 1 := by omega
      subst this; simp [primaryPath_self]

/-- Paths between primary cells compose. -/
theorem primaryPath_trans (a b c : ℕ) (h1 : c ≤ b) (h2 : b ≤ a) :
    primaryPath d a c = primaryPath d a b ++ primaryPath d b c := by
  induction a with
  | zero => obtain rfl : b = 0 := by omega
            obtain rfl : c = 0 := by omega
            rfl
  | succ a ih =>
    by_cases hb : b ≤ a
    · rw [primaryPath_succ a c (by omega), primaryPath_succ a b hb, ih hb, List.append_assoc]
    · have : b = a + 1 := by omega
      subst this; rw [primaryPath_self, List.nil_append]

theorem latticeBox_step (e : ℕ) (w : Word) :
    latticeBox K d (e + 1) (List.replicate d (decide ((e + 1) % 2 ≠ 0)) ++ w) = latticeBox K d e w := by
  rw [latticeBox, descend_append, List.length_replicate, descend_period]
  unfold primaryBox
  rw [descend_replicate _ _ _ (le_refl d)]
  rw [latticeBox]
  congr 1
  funext j
  rw [if_pos j.isLt, halve_primary]; rfl

/-! ## Re-rooting -/

/-- **Re-rooting a cell does not change its box**: prefixing the word by the path from a higher
primary cell gives the same lattice box (used by comparison, subset tests, pavings, ...). -/
theorem C18_reroot (top bottom : ℕ) (w : Word) (h : bottom ≤ top) :
    latticeBox K d top (primaryPath d top bottom ++ w) = latticeBox K d bottom w := by
  induction top with
  | zero => obtain rfl : bottom = 0 := by omega
            rfl
  | succ t ih =>
    by_cases hb : bottom ≤ t
    · rw [primaryPath_succ t bottom hb, List.append_assoc, latticeBox_step, ih hb]
    · have : bottom = t + 1 := by omega
      subst this; rw [primaryPath_self, List.nil_append]

example : latticeBox ℚ 2 3 (primaryPath 2 3 1 ++ [true, false]) = latticeBox ℚ 2 1 [true, false] :=
  C18_reroot 3 1 _ (by decide)
example : primaryPath 2 3 1 = [true, true, false, false] := by decide

/-- `raise_to_level` keeps the box, and fails exactly when asked to lower the extent. -/
theorem C18_raise (a : Cell) (level : ℕ) :
    (a.extent ≤ level → ∃ b, a.raise d level = some b ∧ b.extent = level ∧ b.box K d = a.box K d) ∧
    (level < a.extent → a.raise d level = none) := by
  constructor
  · intro h
    exact ⟨⟨level, primaryPath d level a.extent ++ a.word⟩, by rw [Cell.raise, if_pos h], rfl, C18_reroot _ _ _ h⟩
  · intro h; rw [Cell.raise, if_neg (by omega)]

/-! ## Shape of the boxes -/

theorem halve_width (b : Bool) (I : K × K) : (halve b I).2 - (halve b I).1 = (I.2 - I.1) / 2 := by
  cases b <;> simp [halve] <;> ring

/-- **Alternate halving**: with `n` bits, coordinate `j` of a cell of extent `e` has been halved
`⌊(n + d-1-j)/d⌋` times, so the box has width `2^e / 2^⌊(n+d-1-j)/d⌋` there. -/
theorem C18_width (e : ℕ) (w : Word) (j : Fin d) :
    (latticeBox K d e w j).2 - (latticeBox K d e w j).1 = 2 ^ e / 2 ^ ((w.length + (d - 1 - j)) / d) := by
  have hd : 0 < d := NeZero.pos d
  have hj := j.isLt
  induction w using List.reverseRecOn with
  | nil =>
    simp only [latticeBox, descend, List.length_nil, zero_add]
    rw [Nat.div_eq_of_lt (by omega), pow_zero, div_one]
    have := primaryCorners_width e
    simp only [primaryBox]
    exact_mod_cast this
  | append_singleton w b ih =>
    have hstep : latticeBox K d e (w ++ [b]) = Function.update (latticeBox K d e w) (Fin.ofNat d w.length)
        (halve b (latticeBox K d e w (Fin.ofNat d w.length))) := by
      rw [latticeBox, descend_append, zero_add]; rfl
    rw [hstep, List.length_append, List.length_singleton,
      show w.length + 1 + (d - 1 - j) = (w.length + (d - 1 - j)) + 1 by omega, Nat.succ_div]
    have key : d ∣ w.length + (d - 1 - j) + 1 ↔ j = Fin.ofNat d w.length := by
      rw [show w.length + (d - 1 - j) + 1 = w.length + (d - j) by omega]
      constructor
      · rintro ⟨q, hq⟩
        apply Fin.ext
        simp only [Fin.ofNat]
        have hq1 : 0 < q := by
          rcases Nat.eq_zero_or_pos q with h | h
          · subst h; omega
          · exact h
        obtain ⟨r, rfl⟩ : ∃ r, q = r + 1 := ⟨q - 1, by omega⟩
        have : w.length = d * r + j := by rw [Nat.mul_succ] at hq; omega
        rw [this, Nat.mul_add_mod, Nat.mod_eq_of_lt hj]
      · intro h
        have hv : j.val = w.length % d := by rw [h]; rfl
        have := Nat.div_add_mod w.length d
        refine ⟨w.length / d + 1, ?_⟩
        rw [Nat.mul_succ]; omega
    by_cases hjk : j = Fin.ofNat d w.length
    · rw [if_pos (key.2 hjk), pow_succ, ← hjk, Function.update_self, halve_width, ih, div_div]
    · rw [if_neg (fun h => hjk (key.1 h)), add_zero, Function.update_of_ne hjk, ih]

theorem latticeBox_proper (e : ℕ) (w : Word) (j : Fin d) :
    (latticeBox K d e w j).1 < (latticeBox K d e w j).2 := by
  have h := C18_width (K := K) e w j
  have : (0 : K) < 2 ^ e / 2 ^ ((w.length + (d - 1 - j)) / d) := by positivity
  linarith

/-- **The children of a cell partition it**, each keeping one half in the coordinate
`(size of the word) mod d` and the whole of the others. -/
theorem C18_split (a : Cell) (x : Fin d → K) :
    (x ∈ a.points K d ↔ x ∈ (a.split false).points K d ∨ x ∈ (a.split true).points K d) ∧
    ¬ (x ∈ (a.split false).points K d ∧ x ∈ (a.split true).points K d) := by
  have hs : ∀ b, x ∈ (a.split b).points K d ↔ x ∈ a.points K d ∧
      decide (((a.box K d (Fin.ofNat d a.word.length)).1 + (a.box K d (Fin.ofNat d a.word.length)).2) / 2
        ≤ x (Fin.ofNat d a.word.length)) = b := by
    intro b
    rw [Cell.points_eq, Cell.points_eq, ← mem_update]
    have : (a.split b).box K d = Function.update (a.box K d) (Fin.ofNat d a.word.length)
        (halve b (a.box K d (Fin.ofNat d a.word.length))) := by
      rw [Cell.box, Cell.split, latticeBox, descend_append, zero_add]; rfl
    rw [this]
  rw [hs, hs]
  constructor
  · constructor
    · intro h
      cases hb : decide (((a.box K d (Fin.ofNat d a.word.length)).1 +
        (a.box K d (Fin.ofNat d a.word.length)).2) / 2 ≤ x (Fin.ofNat d a.word.length))
      · exact Or.inl ⟨h, rfl⟩
      · exact Or.inr ⟨h, rfl⟩
    · rintro (h | h) <;> exact h.1
  · rintro ⟨⟨_, h1⟩, ⟨_, h2⟩⟩
    rw [h1] at h2; exact Bool.false_ne_true h2

example : (fun _ => 1/4 : Fin 2 → ℚ) ∈ (Cell.split ⟨0, [false]⟩ false).points ℚ 2 := by
  have : ∀ j, ((Cell.split ⟨0, [false]⟩ false).box ℚ 2 j).1 ≤ 1/4 ∧ 1/4 < ((Cell.split ⟨0, [false]⟩ false).box ℚ 2 j).2 := by
    decide +kernel
  exact this

/-! ## Comparison of cells -/

/-- The points of a cell are those of its primary cell whose choices start with its word. -/
theorem mem_cell (e : ℕ) (w : Word) (x : Fin d → K) :
    x ∈ Cell.points K d ⟨e, w⟩ ↔ x ∈ (primaryBox K d e).points ∧
      Extends (fun n => route x n 0 (primaryBox K d e)) w := mem_descend 0 w _ x

theorem extends_iff (p : Path) (w : Word) : Extends p w ↔ w = (List.range w.length).map p := by
  constructor
  · intro h
    apply List.ext_getElem (by simp)
    intro i h1 h2
    simp [h i h1]
  · intro h i hi
    have : w[i]? = ((List.range w.length).map p)[i]? := by rw [← h]
    rw [List.getElem?_map, List.getElem?_range hi, List.getElem?_eq_getElem hi] at this
    simpa using this.symm

theorem extends_append (p : Path) (v w : Word) :
    Extends p (v ++ w) ↔ Extends p v ∧ Extends (Path.drop v.length p) w := by
  induction v generalizing p with
  | nil =>
    have : Path.drop 0 p = p := by funext i; simp [Path.drop]
    simp [Ariadne.BinaryTree.Tree.extends_nil, this]
  | cons b v ih =>
    rw [List.cons_append, Ariadne.BinaryTree.Tree.extends_cons, Ariadne.BinaryTree.Tree.extends_cons, ih, and_assoc,
      Ariadne.BinaryTree.Tree.drop_drop, List.length_cons, Nat.add_comm]

theorem extends_prefix {p : Path} {v w : Word} (h : v <+: w) (hw : Extends p w) : Extends p v := by
  obtain ⟨t, rfl⟩ := h
  exact ((extends_append p v t).1 hw).1

theorem extends_total {p : Path} {v w : Word} (hv : Extends p v) (hw : Extends p w)
    (hl : v.length ≤ w.length) : v <+: w := by
  rw [extends_iff] at hv hw
  rw [hv, hw, List.prefix_iff_eq_take]
  simp only [List.length_map, List.length_range, ← List.map_take, List.take_range]
  rw [min_eq_left hl]

theorem lower_mem (B : Box K d) (hB : ∀ j, (B j).1 < (B j).2) : (fun j => (B j).1) ∈ B.points :=
  fun j => ⟨le_refl _, hB j⟩

theorem Cell.points_nonempty (a : Cell) : (a.points K d).Nonempty :=
  ⟨_, lower_mem _ fun j => latticeBox_proper _ _ j⟩

/-- A longer word gives a strictly smaller cell. -/
theorem strict_of_append (e : ℕ) (v : Word) (b : Bool) (w : Word) :
    ∃ x, x ∈ Cell.points K d ⟨e, v⟩ ∧ x ∉ Cell.points K d ⟨e, v ++ b :: w⟩ := by
  obtain ⟨x, hx⟩ := Cell.points_nonempty (K := K) (d := d) ⟨e, v ++ [!b]⟩
  have h1 := (mem_cell _ _ _).1 hx
  refine ⟨x, (mem_cell _ _ _).2 ⟨h1.1, ((extends_append _ _ _).1 h1.2).1⟩, fun h => ?_⟩
  have h2 := ((mem_cell _ _ _).1 h).2
  have e1 := ((extends_append _ _ _).1 h1.2).2 0 (by simp)
  have e2 := ((extends_append _ _ _).1 h2).2 0 (by simp)
  simp only [List.getElem_cons_zero] at e1 e2
  rw [e1] at e2
  cases b <;> simp at e2

/-- Inclusion of cells of the same primary cell is the prefix relation of the words. -/
theorem points_subset_iff (e : ℕ) (v w : Word) :
    Cell.points K d ⟨e, w⟩ ⊆ Cell.points K d ⟨e, v⟩ ↔ v <+: w := by
  constructor
  · intro h
    obtain ⟨x, hx⟩ := Cell.points_nonempty (K := K) (d := d) ⟨e, w⟩
    have h1 := ((mem_cell _ _ _).1 hx).2
    have h2 := ((mem_cell _ _ _).1 (h hx)).2
    rcases le_total v.length w.length with hl | hl
    · exact extends_total h2 h1 hl
    · obtain ⟨t, ht⟩ := extends_total h1 h2 hl
      cases t with
      | nil => rw [← ht, List.append_nil]
      | cons b t =>
        obtain ⟨y, hy1, hy2⟩ := strict_of_append (K := K) (d := d) e w b t
        rw [ht] at hy2
        exact absurd (h hy1) hy2
  · intro h x hx
    rw [mem_cell] at hx ⊢
    exact ⟨hx.1, extends_prefix h hx.2⟩

theorem box_points_subset {B C : Box K d} (hB : ∀ j, (B j).1 < (B j).2) :
    B.points ⊆ C.points ↔ ∀ j, (C j).1 ≤ (B j).1 ∧ (B j).2 ≤ (C j).2 := by
  constructor
  · intro h j
    have hl := h (lower_mem B hB) j
    refine ⟨hl.1, ?_⟩
    by_contra hc
    push Not at hc
    have hm : max (C j).2 (B j).1 < (B j).2 := max_lt hc (hB j)
    have : Function.update (fun j => (B j).1) j (max (C j).2 (B j).1) ∈ B.points := by
      intro i
      by_cases hi : i = j
      · subst hi; rw [Function.update_self]; exact ⟨le_max_right _ _, hm⟩
      · rw [Function.update_of_ne hi]; exact ⟨le_refl _, hB i⟩
    have h2 := (h this j).2
    rw [Function.update_self] at h2
    exact absurd (lt_of_le_of_lt (le_max_left _ _) h2) (lt_irrefl _)
  · intro h x hx j
    exact ⟨(h j).1.trans (hx j).1, lt_of_lt_of_le (hx j).2 (h j).2⟩

theorem box_closed_subset {B C : Box K d} (hB : ∀ j, (B j).1 < (B j).2) :
    B.closed ⊆ C.closed ↔ ∀ j, (C j).1 ≤ (B j).1 ∧ (B j).2 ≤ (C j).2 := by
  constructor
  · intro h j
    exact ⟨(h (a := fun j => (B j).1) (fun i => ⟨le_refl _, (hB i).le⟩) j).1,
      (h (a := fun j => (B j).2) (fun i => ⟨(hB i).le, le_refl _⟩) j).2⟩
  · intro h x hx j
    exact ⟨(h j).1.trans (hx j).1, (hx j).2.trans (h j).2⟩

theorem box_eq_iff {B C : Box K d} (hB : ∀ j, (B j).1 < (B j).2) (hC : ∀ j, (C j).1 < (C j).2) :
    B = C ↔ B.points = C.points := by
  constructor
  · rintro rfl; rfl
  · intro h
    have h1 := (box_points_subset hB).1 h.subset
    have h2 := (box_points_subset hC).1 h.superset
    funext j
    exact Prod.ext (le_antisymm (h2 j).1 (h1 j).1) (le_antisymm (h1 j).2 (h2 j).2)

theorem Cell.box_proper (a : Cell) (j : Fin d) : (a.box K d j).1 < (a.box K d j).2 :=
  latticeBox_proper _ _ j

/-- Words re-rooted to a common extent. -/
def Cell.at (d : ℕ) (a : Cell) (N : ℕ) : Word := primaryPath d N a.extent ++ a.word

theorem Cell.at_points (a : Cell) (N : ℕ) (h : a.extent ≤ N) :
    Cell.points K d ⟨N, a.at d N⟩ = a.points K d := by
  rw [Cell.points_eq, Cell.points_eq]
  have : Cell.box K d ⟨N, a.at d N⟩ = a.box K d := C18_reroot _ _ _ h
  rw [this]

theorem alignedWords_at (a b : Cell) (N : ℕ) (ha : a.extent ≤ N) (hb : b.extent ≤ N) :
    ∃ p, a.at d N = p ++ (alignedWords d a b).1 ∧ b.at d N = p ++ (alignedWords d a b).2 := by
  unfold alignedWords
  split_ifs with h1 h2
  · exact ⟨primaryPath d N a.extent, rfl, by rw [h1]; rfl⟩
  · refine ⟨primaryPath d N a.extent, rfl, ?_⟩
    rw [← List.append_assoc, ← primaryPath_trans _ _ _ (by omega) ha]; rfl
  · refine ⟨primaryPath d N b.extent, ?_, rfl⟩
    rw [← List.append_assoc, ← primaryPath_trans _ _ _ (by omega) hb]; rfl

theorem subsetPaths_at (a b : Cell) (N : ℕ) (ha : a.extent ≤ N) (hb : b.extent ≤ N) :
    ∃ p, a.at d N = p ++ (subsetPaths d a b).1 ∧ b.at d N = p ++ (subsetPaths d a b).2 := by
  unfold subsetPaths
  split_ifs with h1 h2
  · refine ⟨primaryPath d N b.extent, ?_, rfl⟩
    rw [← List.append_assoc, ← primaryPath_trans _ _ _ (by omega) hb]; rfl
  · refine ⟨primaryPath d N a.extent, rfl, ?_⟩
    rw [← List.append_assoc, ← primaryPath_trans _ _ _ (by omega) ha]; rfl
  · exact ⟨primaryPath d N a.extent, rfl, by rw [show a.extent = b.extent by omega]; rfl⟩

/-- **Subset of cells**: the test holds exactly when the points of one cell are points of the other,
equally for half-open and closed boxes and whatever primary cells they are addressed from. -/
theorem C18_subset (a b : Cell) :
    (Cell.subset d a b = true ↔ a.points K d ⊆ b.points K d) ∧
    (Cell.subset d a b = true ↔ (a.box K d).closed ⊆ (b.box K d).closed) := by
  have h1 : Cell.subset d a b = true ↔ a.points K d ⊆ b.points K d := by
    obtain ⟨p, hp1, hp2⟩ := subsetPaths_at (d := d) a b (max a.extent b.extent) (le_max_left _ _) (le_max_right _ _)
    rw [← Cell.at_points a _ (le_max_left _ _), ← Cell.at_points b _ (le_max_right a.extent b.extent),
      points_subset_iff, hp1, hp2, List.prefix_append_right_inj, Cell.subset, Ariadne.BinaryWord.C14_isPrefix]
    exact ⟨fun ⟨v, hv⟩ => ⟨v, hv.symm⟩, fun ⟨v, hv⟩ => ⟨v, hv.symm⟩⟩
  refine ⟨h1, ?_⟩
  rw [h1, Cell.points_eq, Cell.points_eq, box_points_subset (Cell.box_proper a), box_closed_subset (Cell.box_proper a)]

example : Cell.subset 2 ⟨0, [true]⟩ ⟨2, [false, false, true]⟩ = true := by decide
example : Cell.subset 2 ⟨2, [false, false, true]⟩ ⟨0, [true]⟩ = false := by decide

/-- **Equality of cells**: two cells compare equal exactly when they are the same box. -/
theorem C18_equal (a b : Cell) : Cell.eq d a b = true ↔ a.box K d = b.box K d := by
  obtain ⟨p, hp1, hp2⟩ := alignedWords_at (d := d) a b (max a.extent b.extent) (le_max_left _ _) (le_max_right _ _)
  rw [box_eq_iff (Cell.box_proper a) (Cell.box_proper b), ← Cell.points_eq,
    ← Cell.points_eq, ← Cell.at_points a _ (le_max_left _ _), ← Cell.at_points b _ (le_max_right a.extent b.extent),
    Cell.eq, beq_iff_eq, hp1, hp2]
  constructor
  · intro h; rw [h]
  · intro h
    have h1 := (points_subset_iff (K := K) (d := d) _ _ _).1 h.subset
    have h2 := (points_subset_iff (K := K) (d := d) _ _ _).1 h.superset
    rw [List.prefix_append_right_inj] at h1 h2
    exact List.IsPrefix.eq_of_length_le h2 h1.length_le

example : Cell.eq 2 ⟨0, [true]⟩ ⟨1, [true, true, true]⟩ = true := by decide

theorem lt_append (p v w : Word) : Ariadne.BinaryWord.lt (p ++ v) (p ++ w) = Ariadne.BinaryWord.lt v w := by
  induction p with
  | nil => rfl
  | cons b p ih => simp [Ariadne.BinaryWord.lt, ih]

theorem lt_at (a b : Cell) (N : ℕ) (ha : a.extent ≤ N) (hb : b.extent ≤ N) :
    Cell.lt d a b = Ariadne.BinaryWord.lt (a.at d N) (b.at d N) := by
  obtain ⟨p, hp1, hp2⟩ := alignedWords_at (d := d) a b N ha hb
  rw [hp1, hp2, lt_append]; rfl

theorem eq_at (a b : Cell) (N : ℕ) (ha : a.extent ≤ N) (hb : b.extent ≤ N) :
    Cell.eq d a b = (a.at d N == b.at d N) := by
  obtain ⟨p, hp1, hp2⟩ := alignedWords_at (d := d) a b N ha hb
  rw [hp1, hp2, Cell.eq, Bool.eq_iff_iff, beq_iff_eq, beq_iff_eq]
  exact ⟨fun h => by rw [h], fun h => List.append_cancel_left h⟩

/-- **The order of cells is a strict total order on boxes**: irreflexive, transitive, any two cells
are ordered or have the same box, and it does not depend on the primary cell used as address. -/
theorem C18_order (a b c : Cell) :
    Cell.lt d a a = false ∧
    (Cell.lt d a b = true → Cell.lt d b c = true → Cell.lt d a c = true) ∧
    (Cell.lt d a b = true ∨ a.box K d = b.box K d ∨ Cell.lt d b a = true) ∧
    (∀ a' b' : Cell, a'.box K d = a.box K d → b'.box K d = b.box K d → Cell.lt d a' b' = Cell.lt d a b) := by
  refine ⟨?_, ?_, ?_, ?_⟩
  · rw [lt_at a a _ (le_refl _) (le_refl _)]; exact Ariadne.BinaryWord.C14_lt_irrefl _
  · intro h1 h2
    have la : a.extent ≤ max a.extent (max b.extent c.extent) := le_max_left _ _
    have lb : b.extent ≤ max a.extent (max b.extent c.extent) := (le_max_left _ _).trans (le_max_right _ _)
    have lc : c.extent ≤ max a.extent (max b.extent c.extent) := (le_max_right _ _).trans (le_max_right _ _)
    rw [lt_at _ _ _ la lb] at h1
    rw [lt_at _ _ _ lb lc] at h2
    rw [lt_at _ _ _ la lc]
    exact Ariadne.BinaryWord.C14_lt_trans _ _ _ h1 h2
  · have la : a.extent ≤ max a.extent b.extent := le_max_left _ _
    have lb : b.extent ≤ max a.extent b.extent := le_max_right _ _
    rw [← C18_equal, lt_at _ _ _ la lb, lt_at _ _ _ lb la, eq_at _ _ _ la lb, beq_iff_eq]
    have := Ariadne.BinaryWord.C14_lt_trichotomy (a.at d (max a.extent b.extent)) (b.at d (max a.extent b.extent))
    tauto
  · intro a' b' ha hb
    obtain ⟨N, h1, h2, h3, h4⟩ : ∃ N, a.extent ≤ N ∧ b.extent ≤ N ∧ a'.extent ≤ N ∧ b'.extent ≤ N :=
      ⟨a.extent + b.extent + a'.extent + b'.extent, by omega, by omega, by omega, by omega⟩
    rw [lt_at _ _ N h3 h4, lt_at _ _ N h1 h2]
    rw [← C18_equal, eq_at _ _ N h3 h1, beq_iff_eq] at ha
    rw [← C18_equal, eq_at _ _ N h4 h2, beq_iff_eq] at hb
    rw [ha, hb]

example : Cell.lt 2 ⟨0, []⟩ ⟨0, [true]⟩ = true ∧ Cell.lt 2 ⟨1, [false]⟩ ⟨0, [false]⟩ = true := by decide

end Verif.Grid
