import Verif.ConstraintSolver.Model
import Verif.TaylorModel.Compose
import Mathlib.Tactic.Linarith
import Mathlib.Tactic.FieldSimp
import Mathlib.Tactic.Ring
import Mathlib.Tactic.NormNum
import Mathlib.Tactic.Positivity
import Mathlib.Tactic.ByContra

/-!
# C56: contraction of boxes and feasibility

Specification: `Mem B p` says that the point `p` is in the box `B`.  The constraints are
`f j p ∈ c j`; `EnclosesAt F y p` says that interval evaluation `F` of a function whose value at `p`
is `y` encloses `y` on every box containing `p`.
-/

namespace Verif.ConstraintSolver

open Ariadne Ariadne.Logical
open Ariadne.Ext (fin)

variable {n m : ℕ} {K : Type*} [Field K] [LinearOrder K] [IsStrictOrderedRing K]

/-- The point `p` is in the box `B`. -/
def Mem (B : Box n K) (p : Fin n → K) : Prop := ∀ i, (B i).Contains (p i)

/-- Interval evaluation encloses the value `y` at `p`. -/
def EnclosesAt (F : Fn n K) (y : K) (p : Fin n → K) : Prop := ∀ B, Mem B p → (F B).Contains y

/-! ## Intervals -/

theorem isEmpty_false {X : Bounds K} {x : K} (h : X.Contains x) : isEmpty X = false := by
  obtain ⟨l, u⟩ := X
  obtain ⟨h1, h2⟩ := h
  cases l <;> cases u <;> simp [isEmpty, Ext.lt, IsLower, IsUpper] at * <;> linarith

theorem isEmpty_iff {a b : K} : isEmpty (⟨fin a, fin b⟩ : Bounds K) = true ↔ b < a := by
  simp [isEmpty, Ext.lt]

theorem refinement_contains {X Y : Bounds K} {x : K} (h1 : X.Contains x) (h2 : Y.Contains x) :
    (Bounds.refinement X Y).Contains x :=
  ⟨Ext.isLower_max h1.1 h2.1, Ext.isUpper_min h1.2 h2.2⟩

theorem boxEmpty_false {B : Box n K} {p : Fin n → K} (h : Mem B p) : boxEmpty B = false := by
  simp only [boxEmpty, List.any_eq_false]
  intro i _
  simp [isEmpty_false (h i)]

theorem apply_eq {F : Fn n K} {B : Box n K} {p : Fin n → K} (h : Mem B p) : apply F B = F B := by
  simp [apply, boxEmpty_false h]

theorem disjoint_false {X Y : Bounds K} {x : K} (h1 : X.Contains x) (h2 : Y.Contains x) :
    disjoint X Y = false := by
  obtain ⟨a, b⟩ := X
  obtain ⟨c, d⟩ := Y
  obtain ⟨h1, h3⟩ := h1
  obtain ⟨h2, h4⟩ := h2
  simp only at *
  simp only [disjoint, Bool.or_eq_false_iff]
  constructor
  · cases a <;> cases d <;> simp [Ext.lt, IsLower, IsUpper] at * <;> linarith
  · cases b <;> cases c <;> simp [Ext.lt, IsLower, IsUpper] at * <;> linarith

theorem upper_of_not_lower {a : Ext K} {x : K} (h : a ≠ .nan) (h1 : ¬ IsLower a x) : IsUpper a x := by
  cases a <;> simp [IsLower, IsUpper] at *
  exact h1.le

theorem lower_of_not_upper {a : Ext K} {x : K} (h : a ≠ .nan) (h1 : ¬ IsUpper a x) : IsLower a x := by
  cases a <;> simp [IsLower, IsUpper] at *
  exact h1.le

theorem mem_update {B : Box n K} {p : Fin n → K} {v : Fin n} {X : Bounds K} (h : Mem B p)
    (hX : X.Contains (p v)) : Mem (Function.update B v X) p := by
  intro i
  by_cases hi : i = v
  · subst hi; simpa using hX
  · simpa [hi] using h i

theorem mem_update_point {B : Box n K} {p : Fin n → K} {v : Fin n} {X : Bounds K} {t : K} (h : Mem B p)
    (hX : X.Contains t) : Mem (Function.update B v X) (Function.update p v t) := by
  intro i
  by_cases hi : i = v
  · subst hi; simpa using hX
  · simpa [hi] using h i

/-! ## `box_reduce` -/

/-- The points at which an interval is cut: none is NaN and the outermost ones do not cut off any
point of the interval. -/
structure GoodPts (R : XRounding K) (X : Bounds K) : Prop where
  nonan : ∀ i, i ≤ 8 → affinePt R X.l X.u i 8 ≠ .nan
  lo : ∀ x, IsLower X.l x → IsLower (affinePt R X.l X.u 0 8) x
  hi : ∀ x, IsUpper X.u x → IsUpper (affinePt R X.l X.u 8 8) x

variable {R : XRounding K}

/-- A slice shown to be empty has no point that satisfies the constraint. -/
theorem slice_sound {F : Fn n K} {b : Bounds K} {v : Fin n} {B : Box n K} {i : ℕ} {p : Fin n → K}
    (hF : ∀ B, Mem B p → isEmpty (Bounds.refinement (F B) b) = false) (hp : Mem B p)
    (he : sliceEmpty R F b v B i = true)
    (h1 : IsLower (affinePt R (B v).l (B v).u i 8) (p v))
    (h2 : IsUpper (affinePt R (B v).l (B v).u (i + 1) 8) (p v)) : False := by
  have h3 : Mem (Function.update B v
      ⟨affinePt R (B v).l (B v).u i 8, affinePt R (B v).l (B v).u (i + 1) 8⟩) p :=
    mem_update hp ⟨h1, h2⟩
  rw [sliceEmpty, apply_eq h3, hF _ h3] at he
  exact absurd he (by simp)

theorem lowPass_sound {F : Fn n K} {b : Bounds K} {v : Fin n} {B : Box n K} {p : Fin n → K}
    (hF : ∀ B, Mem B p → isEmpty (Bounds.refinement (F B) b) = false) (hp : Mem B p)
    (hg : GoodPts R (B v)) :
    ∀ (k i : ℕ) (lo : Ext K), i + (k + 1) = 8 → IsLower (affinePt R (B v).l (B v).u i 8) (p v) →
      IsLower lo (p v) → (lowPass R F b v B (k + 1) i lo).1 ≠ 8 ∧
        IsLower (lowPass R F b v B (k + 1) i lo).2 (p v) := by
  intro k
  induction k with
  | zero =>
    intro i lo hi h1 h2
    rw [lowPass]
    split_ifs with he
    · exfalso
      refine slice_sound hF hp he h1 ?_
      have : i + 1 = 8 := by omega
      rw [this]
      exact hg.hi _ (hp v).2
    · exact ⟨by simp only [ne_eq]; omega, h2⟩
  | succ k ih =>
    intro i lo hi h1 h2
    rw [lowPass]
    split_ifs with he
    · have h3 : IsLower (affinePt R (B v).l (B v).u (i + 1) 8) (p v) :=
        lower_of_not_upper (hg.nonan _ (by omega)) fun h => slice_sound hF hp he h1 h
      exact ih (i + 1) _ (by omega) h3 h3
    · exact ⟨by simp only [ne_eq]; omega, h2⟩

theorem highPass_sound {F : Fn n K} {b : Bounds K} {v : Fin n} {B : Box n K} {p : Fin n → K}
    (hF : ∀ B, Mem B p → isEmpty (Bounds.refinement (F B) b) = false) (hp : Mem B p)
    (hg : GoodPts R (B v)) (imax : ℕ) :
    ∀ (k : ℕ) (up : Ext K), imax + k ≤ 7 → IsUpper (affinePt R (B v).l (B v).u (imax + k + 1) 8) (p v) →
      IsUpper up (p v) → IsUpper (highPass R F b v B imax k up) (p v) := by
  intro k
  induction k with
  | zero => intro up _ _ h; exact h
  | succ k ih =>
    intro up hk h1 h2
    rw [highPass]
    split_ifs with he
    · have h3 : IsUpper (affinePt R (B v).l (B v).u (imax + (k + 1)) 8) (p v) :=
        upper_of_not_lower (hg.nonan _ (by omega)) fun h => slice_sound hF hp he h h1
      exact ih _ (by omega) h3 h3
    · exact h2

theorem lowPass_le {F : Fn n K} {b : Bounds K} {v : Fin n} {B : Box n K} :
    ∀ (k i : ℕ) (lo : Ext K), i + k ≤ 8 → (lowPass R F b v B k i lo).1 ≤ 8 := by
  intro k
  induction k with
  | zero => intro i lo h; simpa [lowPass] using h
  | succ k ih =>
    intro i lo h
    rw [lowPass]
    split_ifs
    · exact ih _ _ (by omega)
    · simp only; omega

theorem boxReduce_sound {F : Fn n K} {b : Bounds K} {v : Fin n} {B : Box n K} {p : Fin n → K}
    {r : Bool × Box n K}
    (hF : ∀ B, Mem B p → isEmpty (Bounds.refinement (F B) b) = false) (hp : Mem B p)
    (hg : GoodPts R (B v)) (h : boxReduce R F b v B = some r) : r.1 = false ∧ Mem r.2 p := by
  rw [boxReduce] at h
  split_ifs at h with h0
  · cases h; exact ⟨rfl, hp⟩
  obtain ⟨h1, h2⟩ : (lowPass R F b v B 8 0 (B v).l).1 ≠ 8 ∧
      IsLower (lowPass R F b v B 8 0 (B v).l).2 (p v) :=
    lowPass_sound hF hp hg 7 0 (B v).l rfl (hg.lo _ (hp v).1) (hp v).1
  have h5 : (lowPass R F b v B 8 0 (B v).l).1 ≤ 8 := lowPass_le _ _ _ (by omega)
  simp only at h
  rw [if_neg h1] at h
  split_ifs at h with h3
  cases h
  refine ⟨rfl, mem_update hp ⟨h2, ?_⟩⟩
  refine highPass_sound hF hp hg _ _ _ ?_ ?_ (hp v).2
  · omega
  · have : (lowPass R F b v B 8 0 (B v).l).1 + (7 - (lowPass R F b v B 8 0 (B v).l).1) + 1 = 8 := by omega
    rw [this]
    exact hg.hi _ (hp v).2

theorem enclosed_not_empty {F : Fn n K} {y : K} {p : Fin n → K} {b : Bounds K} (hF : EnclosesAt F y p)
    (hb : b.Contains y) (B : Box n K) (hB : Mem B p) : isEmpty (Bounds.refinement (F B) b) = false :=
  isEmpty_false (refinement_contains (hF B hB) hb)

/-- **C56**: shaving slices off a box along one variable loses no point that satisfies the constraint,
and reports emptiness only if there is none. -/
theorem C56_box_reduce {F : Fn n K} {f : (Fin n → K) → K} {b : Bounds K} {v : Fin n} {B : Box n K}
    {r : Bool × Box n K} (hF : ∀ p, EnclosesAt F (f p) p) (hg : GoodPts R (B v))
    (h : boxReduce R F b v B = some r) (p : Fin n → K) (hp : Mem B p) (hb : b.Contains (f p)) :
    r.1 = false ∧ Mem r.2 p :=
  boxReduce_sound (enclosed_not_empty (hF p) hb) hp hg h

/-! ### The cutting points -/

theorem near_rep {x : K} (h : R.Rep x) : R.near x = fin x := by
  have h1 := R.down_le x
  have h2 := R.le_up x
  have h3 := R.down_max x x h le_rfl
  have h4 := R.up_min x x h le_rfl
  rcases R.near_cases x with e | e <;> rw [e]
  · cases hd : R.down x <;> rw [hd] at h1 h3 <;> simp [Ext.le] at h1 h3
    rw [le_antisymm h1 h3]
  · cases hd : R.up x <;> rw [hd] at h2 h4 <;> simp [Ext.le] at h2 h4
    rw [le_antisymm h4 h2]

theorem near_fin {x y z : K} (hy : R.Rep y) (hz : R.Rep z) (h1 : y ≤ x) (h2 : x ≤ z) :
    ∃ w, R.near x = fin w := by
  have e1 := R.down_le x
  have e2 := R.le_up x
  have e3 := R.down_max x y hy h1
  have e4 := R.up_min x z hz h2
  rcases R.near_cases x with e | e <;> rw [e]
  · cases hd : R.down x <;> rw [hd] at e1 e3 <;> simp [Ext.le] at e1 e3 ⊢
  · cases hd : R.up x <;> rw [hd] at e2 e4 <;> simp [Ext.le] at e2 e4 ⊢

theorem near_ne_nan (x : K) : R.near x ≠ .nan := by
  have e1 := R.down_le x
  have e2 := R.le_up x
  rcases R.near_cases x with e | e <;> rw [e] <;> intro h
  · rw [h] at e1; simp [Ext.le] at e1
  · rw [h] at e2; simp [Ext.le] at e2

/-- The cutting points are good if the end points and eight times the end points are representable,
that is, if the interval is bounded and eight times its end points do not overflow. -/
theorem C56_good_points {a b : K} (ha : R.Rep a) (hb : R.Rep b) (ha8 : R.Rep (a * 8)) (hb8 : R.Rep (b * 8)) :
    GoodPts R ⟨fin a, fin b⟩ := by
  have key : ∀ (x : K) (k : ℕ), k ≤ 8 → R.Rep (x * 8) → ∃ w, R.near (x * k) = fin w := by
    intro x k hk hx
    have hk' : (k : K) ≤ 8 := by exact_mod_cast hk
    have hk0 : (0 : K) ≤ k := Nat.cast_nonneg k
    rcases le_total 0 x with h | h
    · exact near_fin R.rep_zero hx (by positivity) (by nlinarith)
    · exact near_fin hx R.rep_zero (by nlinarith) (by nlinarith)
  have z8 : ∀ x : K, R.near (x * (0 : ℕ)) = fin 0 := fun x => by
    rw [Nat.cast_zero, mul_zero, near_rep R.rep_zero]
  have e8 : ∀ x : K, R.Rep (x * 8) → R.near (x * (8 : ℕ)) = fin (x * 8) := fun x hx => by
    rw [Nat.cast_ofNat, near_rep hx]
  refine ⟨?_, ?_, ?_⟩
  · intro i hi
    obtain ⟨w1, h1⟩ := key a (8 - i) (by omega) ha8
    obtain ⟨w2, h2⟩ := key b i hi hb8
    simp only [affinePt, Ext.mul, h1, h2, Ext.add]
    have h3 := near_ne_nan (R := R) (w1 + w2)
    cases h : R.near (w1 + w2) with
    | fin w => simpa [Ext.div] using near_ne_nan (R := R) _
    | nan => exact absurd h h3
    | pinf => simp [Ext.div, Ext.infSign]
    | ninf => simp only [Ext.div, Ext.infSign]; split_ifs with h5 h6 <;> simp_all
  · intro x hx
    have : affinePt R (fin a) (fin b) 0 8 = fin a := by
      simp only [affinePt, Ext.mul, Nat.sub_zero, e8 a ha8, z8, Ext.add, add_zero, near_rep ha8]
      simp only [Ext.div, Nat.cast_ofNat]
      rw [if_neg (by norm_num), mul_div_assoc, div_self (by norm_num), mul_one, near_rep ha]
    simpa [this] using hx
  · intro x hx
    have : affinePt R (fin a) (fin b) 8 8 = fin b := by
      simp only [affinePt, Ext.mul, Nat.sub_self, e8 b hb8, z8, Ext.add, zero_add, near_rep hb8]
      simp only [Ext.div, Nat.cast_ofNat]
      rw [if_neg (by norm_num), mul_div_assoc, div_self (by norm_num), mul_one, near_rep hb]
    simpa [this] using hx

/-- If eight times the end points overflow, a point satisfying the constraint is lost: `x ∈ [4,8]` and
`5 ≤ x ≤ 6` are reported to be contradictory when no number larger than 8 can be stored. -/
theorem C56_box_reduce_overflow :
    ∃ (R : XRounding ℚ) (r : Bool × Box 1 ℚ),
      boxReduce R (fun B => B 0) ⟨fin 5, fin 6⟩ 0 (fun _ => ⟨fin 4, fin 8⟩) = some r ∧ r.1 = true ∧
      Mem (fun _ : Fin 1 => (⟨fin 4, fin 8⟩ : Bounds ℚ)) (fun _ => 5) := by
  refine ⟨.overflow TaylorModel.exactRounding 8 trivial (by norm_num), (true, fun _ => emptyInterval),
    ?_, rfl, fun _ => ?_⟩
  · have : boxReduce (.overflow TaylorModel.exactRounding 8 trivial (by norm_num)) (fun B => B 0)
      ⟨fin 5, fin 6⟩ 0 (fun _ => ⟨fin 4, fin 8⟩) =
      some (true, Function.update (fun _ : Fin 1 => (⟨fin 4, fin 8⟩ : Bounds ℚ)) 0 emptyInterval) := by
        rw [boxReduce, if_neg (by decide +kernel)]
        simp only
        rw [if_pos (by decide +kernel)]
    rw [this]
    congr 2
    funext i
    rw [Subsingleton.elim i 0, Function.update_self]
  · constructor <;> norm_num [IsLower, IsUpper]

/-- The cutting points of an interval are in order and in the interval. -/
structure MonoPts (R : XRounding K) (X : Bounds K) : Prop where
  mono : ∀ i j, i ≤ j → j ≤ 8 → isEmpty ⟨affinePt R X.l X.u i 8, affinePt R X.l X.u j 8⟩ = false
  zero : affinePt R X.l X.u 0 8 = X.l
  eight : affinePt R X.l X.u 8 8 = X.u
  inside : ∀ i x, i ≤ 8 → (IsLower (affinePt R X.l X.u i 8) x → IsLower X.l x) ∧
    (IsUpper (affinePt R X.l X.u i 8) x → IsUpper X.u x)

theorem lowPass_form {F : Fn n K} {b : Bounds K} {v : Fin n} {B : Box n K} :
    ∀ (k i : ℕ) (lo : Ext K), i + k = 8 → (lo = affinePt R (B v).l (B v).u i 8) →
      (lowPass R F b v B k i lo).2 =
        affinePt R (B v).l (B v).u (lowPass R F b v B k i lo).1 8 := by
  intro k
  induction k with
  | zero => intro i lo h hlo; simpa [lowPass] using hlo
  | succ k ih =>
    intro i lo h hlo
    rw [lowPass]
    split_ifs
    · exact ih _ _ (by omega) rfl
    · exact hlo

theorem highPass_form {F : Fn n K} {b : Bounds K} {v : Fin n} {B : Box n K} (imax : ℕ) :
    ∀ (k : ℕ) (up : Ext K), imax + k ≤ 7 → up = affinePt R (B v).l (B v).u (imax + k + 1) 8 →
      ∃ j, imax < j ∧ j ≤ 8 ∧ highPass R F b v B imax k up = affinePt R (B v).l (B v).u j 8 := by
  intro k
  induction k with
  | zero => intro up h h1; exact ⟨imax + 1, by omega, by omega, by simpa [highPass] using h1⟩
  | succ k ih =>
    intro up h h1
    rw [highPass]
    split_ifs
    · exact ih _ (by omega) rfl
    · exact ⟨imax + (k + 1) + 1, by omega, by omega, h1⟩

/-- **C56**: if the cutting points are in order, the assertion on line 482 never fails, and the new box
is contained in the old one. -/
theorem C56_box_reduce_contracts {F : Fn n K} {b : Bounds K} {v : Fin n} {B : Box n K}
    (hm : MonoPts R (B v)) :
    ∃ r, boxReduce R F b v B = some r ∧ ∀ p, Mem r.2 p → Mem B p := by
  rw [boxReduce]
  split_ifs with h0
  · exact ⟨_, rfl, fun p h => h⟩
  simp only
  split_ifs with h1 h2
  · refine ⟨_, rfl, fun p h => ?_⟩
    have := (h v).1
    simp [emptyInterval, IsLower] at this
  all_goals
    have h5 : (lowPass R F b v B 8 0 (B v).l).1 ≤ 8 := lowPass_le _ _ _ (by omega)
    have h6 := lowPass_form (R := R) (F := F) (b := b) (v := v) (B := B) 8 0 (B v).l rfl hm.zero.symm
    obtain ⟨j, hj1, hj2, hj3⟩ := highPass_form (R := R) (F := F) (b := b) (v := v) (B := B)
      (lowPass R F b v B 8 0 (B v).l).1 (7 - (lowPass R F b v B 8 0 (B v).l).1) (B v).u (by omega) (by
        have : (lowPass R F b v B 8 0 (B v).l).1 + (7 - (lowPass R F b v B 8 0 (B v).l).1) + 1 = 8 := by
          omega
        rw [this, hm.eight])
  · rw [h6, hj3, hm.mono _ _ hj1.le hj2] at h2
    exact absurd h2 (by simp)
  · refine ⟨_, rfl, fun p h i => ?_⟩
    by_cases hi : i = v
    · subst hi
      have := h i
      simp only [Function.update_self] at this
      obtain ⟨e1, e2⟩ := this
      simp only at e1 e2
      rw [h6] at e1
      rw [hj3] at e2
      exact ⟨(hm.inside _ _ h5).1 e1, (hm.inside _ _ hj2).2 e2⟩
    · simpa [hi] using h i

/-- With rounding to nearest, the cutting points need not be in order: with four bits the interval
`[-14,-13]` is cut at `-14, -14, -13, -14, -14, -13, -14, -13, -13`. -/
theorem C56_cutting_points_unordered :
    (List.range 9).map (fun i => affinePt (.ofRounding (PBit.rounding 4 (by norm_num)))
      (fin (-14 : ℚ)) (fin (-13)) i 8) =
      [-14, -14, -13, -14, -14, -13, -14, -13, -13].map fin := by
  decide +kernel

/-- Exact arithmetic puts the cutting points in order. -/
theorem monoPts_exact {a b : K} (h : a ≤ b) :
    MonoPts (.ofRounding (TaylorModel.exactRounding : Rounding K)) (⟨fin a, fin b⟩ : Bounds K) := by
  have e : ∀ i, i ≤ 8 → affinePt (.ofRounding (TaylorModel.exactRounding : Rounding K)) (fin a) (fin b) i 8 =
      fin (a + (b - a) * (i / 8)) := by
    intro i hi
    simp only [affinePt, Ext.mul, XRounding.ofRounding, TaylorModel.exactRounding, Ext.add, Ext.div, id]
    rw [if_neg (by norm_num), Nat.cast_sub hi]
    congr 1
    push_cast
    ring
  refine ⟨?_, ?_, ?_, ?_⟩
  · intro i j hij hj
    rw [e i (by omega), e j hj, Bool.eq_false_iff, ne_eq, isEmpty_iff, not_lt]
    have : (i : K) / 8 ≤ j / 8 := by
      have : (i : K) ≤ j := by exact_mod_cast hij
      linarith
    nlinarith
  · simp [e 0 (by omega)]
  · simp only; rw [e 8 (by omega)]; congr 1; push_cast; ring
  · intro i x hi
    simp only
    rw [e i hi]
    have h0 : (0 : K) ≤ i / 8 := by positivity
    have h1 : (i : K) / 8 ≤ 1 := by
      have : (i : K) ≤ 8 := by exact_mod_cast hi
      linarith
    simp only [IsLower, IsUpper]
    constructor <;> intro <;> nlinarith

end Verif.ConstraintSolver
