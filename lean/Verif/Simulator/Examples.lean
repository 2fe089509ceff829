import Verif.Simulator.Props
import Verif.Simulator.Order
import Mathlib.Algebra.Order.Ring.Rat
import Mathlib.Data.List.Forall2
import Mathlib.Analysis.SpecialFunctions.ExpDeriv
import Mathlib.Analysis.Complex.ExponentialBounds
import Mathlib.Tactic.NormNum

/-!
# Labelled points and bounding boxes; concrete cases
-/

namespace Verif.Simulator

/-! ## Labelled points -/

theorem mapM_some {α β : Type*} (g : α → Option β) (l : List α) (h : ∀ a ∈ l, ∃ b, g a = some b) :
    ∃ r, l.mapM g = some r ∧ r.length = l.length ∧ ∀ (i : ℕ) a, l[i]? = some a → r[i]? = g a := by
  induction l with
  | nil => exact ⟨[], rfl, rfl, by simp⟩
  | cons a l ih =>
    obtain ⟨b, hb⟩ := h a (by simp)
    obtain ⟨r, h1, h2, h3⟩ := ih fun x hx => h x (by simp [hx])
    refine ⟨b :: r, by simp [List.mapM_cons, hb, h1], by simp [h2], fun i x hx => ?_⟩
    cases i with
    | zero => simp at hx; subst hx; simp [hb]
    | succ i => simpa using h3 i x (by simpa using hx)

theorem idxOf_of_getElem? {l : List String} (hl : l.Nodup) {j : ℕ} {v : String} (h : l[j]? = some v) :
    l.idxOf v = j := by
  obtain ⟨hj, rfl⟩ := List.getElem?_eq_some_iff.1 h
  exact hl.idxOf_getElem j hj

/-- The point of the joint space has, for every state variable, its value in the state, and for every other
variable its value in the auxiliary point, in whatever order the variables are. -/
theorem C100_auxiliary_point {X : Type*} (sspc aspc saspc : List String) (spt apt : List X) (hs : sspc.Nodup)
    (ha : aspc.Nodup) (ls : spt.length = sspc.length) (la : apt.length = aspc.length)
    (hv : ∀ v ∈ saspc, v ∈ sspc ∨ v ∈ aspc) :
    ∃ r, statePoint sspc aspc saspc spt apt = some r ∧ r.length = saspc.length ∧
      ∀ (i : ℕ) v, saspc[i]? = some v → (∀ j : ℕ, sspc[j]? = some v → r[i]? = spt[j]?) ∧
        (v ∉ sspc → ∀ j : ℕ, aspc[j]? = some v → r[i]? = apt[j]?) := by
  obtain ⟨r, h1, h2, h3⟩ := mapM_some
    (fun v => if v ∈ sspc then spt[sspc.idxOf v]? else apt[aspc.idxOf v]?) saspc (fun v hv' => by
      by_cases h : v ∈ sspc
      · have := List.idxOf_lt_length_of_mem h
        exact ⟨spt[sspc.idxOf v], by simp [h]⟩
      · have hm := (hv v hv').resolve_left h
        have := List.idxOf_lt_length_of_mem hm
        exact ⟨apt[aspc.idxOf v], by simp [h]⟩)
  refine ⟨r, h1, h2, fun i v hi => ⟨fun j hj => ?_, fun hn j hj => ?_⟩⟩
  · rw [h3 i v hi, if_pos (List.mem_of_getElem? hj), idxOf_of_getElem? hs hj]
  · rw [h3 i v hi, if_neg hn, idxOf_of_getElem? ha hj]

example : statePoint ["x", "y"] ["z"] ["x", "y", "z"] [1, 2] [3] = some [1, 2, 3] := by decide

/-! ## Bounding boxes -/

section Box

variable {K T : Type*} [LinearOrder K]

/-- The point is in the box. -/
def InBox (b : List (K × K)) (p : List K) : Prop := List.Forall₂ (fun i x => i.1 ≤ x ∧ x ≤ i.2) b p

/-- The first box is contained in the second. -/
def BoxLe (b c : List (K × K)) : Prop := List.Forall₂ (fun i j => j.1 ≤ i.1 ∧ i.2 ≤ j.2) b c

theorem BoxLe.refl (b : List (K × K)) : BoxLe b b := List.forall₂_same.2 fun _ _ => ⟨le_rfl, le_rfl⟩

theorem BoxLe.mem {b c : List (K × K)} {p : List K} (h : BoxLe b c) (hp : InBox b p) : InBox c p := by
  induction h generalizing p with
  | nil => exact hp
  | cons h _ ih =>
    cases hp with
    | cons h1 h2 => exact .cons ⟨h.1.trans h1.1, h1.2.trans h.2⟩ (ih h2)

theorem BoxLe.trans {b c e : List (K × K)} (h : BoxLe b c) (h' : BoxLe c e) : BoxLe b e := by
  induction h generalizing e with
  | nil => exact h'
  | cons h _ ih =>
    cases h' with
    | cons h1 h2 => exact .cons ⟨h1.1.trans h.1, h.2.trans h1.2⟩ (ih h2)

theorem hullPoint_spec (b : List (K × K)) (p : List K) (h : b.length = p.length) (hb : ∀ i ∈ b, i.1 ≤ i.2) :
    BoxLe b (hullPoint b p) ∧ InBox (hullPoint b p) p ∧ (hullPoint b p).length = p.length ∧
      (∀ i ∈ hullPoint b p, i.1 ≤ i.2) ∧ ∀ c, BoxLe b c → InBox c p → BoxLe (hullPoint b p) c := by
  induction b generalizing p with
  | nil =>
    cases p with
    | nil => simp [hullPoint, BoxLe, InBox]
    | cons => simp at h
  | cons i b ih =>
    cases p with
    | nil => simp at h
    | cons x p =>
      obtain ⟨h1, h2, h3, h4, h5⟩ := ih p (by simpa using h) fun i hi => hb i (by simp [hi])
      refine ⟨.cons ⟨min_le_left _ _, le_max_left _ _⟩ h1, .cons ⟨min_le_right _ _, le_max_right _ _⟩ h2,
        by simpa [hullPoint] using h3, ?_, ?_⟩
      · intro j hj
        rcases List.mem_cons.1 hj with rfl | hj
        · exact (min_le_right _ _).trans (le_max_right _ _)
        · exact h4 j hj
      · intro c hc hp
        cases hc with
        | cons g1 g2 =>
          cases hp with
          | cons k1 k2 => exact .cons ⟨le_min g1.1 k1.1, max_le g1.2 k1.2⟩ (h5 _ g2 k2)

theorem foldl_hull (c : List (T × List K)) :
    ∀ b : List (K × K), (∀ q ∈ c, q.2.length = b.length) → (∀ i ∈ b, i.1 ≤ i.2) →
      let r := c.foldl (fun b q => hullPoint b q.2) b
      BoxLe b r ∧ (∀ q ∈ c, InBox r q.2) ∧ ∀ e, BoxLe b e → (∀ q ∈ c, InBox e q.2) → BoxLe r e := by
  induction c with
  | nil => intro b _ _; exact ⟨BoxLe.refl b, by simp, fun e h _ => h⟩
  | cons q c ih =>
    intro b hl hb
    obtain ⟨h1, h2, h3, h4, h5⟩ := hullPoint_spec b q.2 (hl q (by simp)).symm hb
    have hq := hl q (by simp)
    obtain ⟨g1, g2, g3⟩ := ih (hullPoint b q.2) (fun p hp => by rw [h3, hq, hl p (by simp [hp])]) h4
    refine ⟨h1.trans g1, fun p hp => ?_, fun e he hp => g3 e (h5 e he (hp q (by simp))) fun p hp' => hp p (by simp [hp'])⟩
    rcases List.mem_cons.1 hp with rfl | hp
    · exact g1.mem h2
    · exact g2 p hp

/-- The bounding box of a curve with at least one point contains all its points and is contained in every
box which does. -/
theorem C100_bounding_box (c : List (T × List K)) (n : ℕ) (hc : c ≠ []) (hl : ∀ q ∈ c, q.2.length = n) :
    ∃ b, boundingBox c = some b ∧ (∀ q ∈ c, InBox b q.2) ∧ ∀ e, (∀ q ∈ c, InBox e q.2) → BoxLe b e := by
  cases c with
  | nil => exact absurd rfl hc
  | cons a c =>
    obtain ⟨t, p⟩ := a
    have hp := hl (t, p) (by simp)
    obtain ⟨-, h2, h3⟩ := foldl_hull ((t, p) :: c) (p.map fun x => (x, x))
      (fun q hq => by simpa [hp] using hl q hq) (by simp)
    refine ⟨_, rfl, h2, fun e he => h3 e ?_ he⟩
    have := he (t, p) (by simp)
    simp only at this
    clear h2 h3 hl hp he hc
    induction this with
    | nil => exact .nil
    | cons h _ ih => exact .cons h ih

/-- A curve without points has no bounding box: the first point is read nevertheless. -/
theorem C100_bounding_box_empty : boundingBox ([] : List (T × List K)) = none := rfl

/-- The points between two points of a box are in the box, so the bounding box contains the interpolated
curve. -/
theorem C100_interpolated {K : Type*} [Field K] [LinearOrder K] [IsStrictOrderedRing K] {b : List (K × K)}
    {p q : List K} (hp : InBox b p) (hq : InBox b q) (s : K) (h0 : 0 ≤ s) (h1 : s ≤ 1) :
    InBox b (List.zipWith (fun x y => (1 - s) * x + s * y) p q) := by
  induction hp generalizing q with
  | nil => cases hq; exact .nil
  | @cons i x b p h _ ih =>
    cases hq with
    | @cons _ y _ _ g1 g2 =>
      refine .cons ⟨?_, ?_⟩ (ih g2)
      · have e1 := mul_le_mul_of_nonneg_left h.1 (sub_nonneg.2 h1)
        have e2 := mul_le_mul_of_nonneg_left g1.1 h0
        linarith
      · have e1 := mul_le_mul_of_nonneg_left h.2 (sub_nonneg.2 h1)
        have e2 := mul_le_mul_of_nonneg_left g1.2 h0
        linarith

end Box

example : boundingBox [((0 : ℚ), [(1 : ℚ), 2]), (1, [0, 3])] = some [(0, 1), (2, 3)] := by decide +kernel

/-! ## The static step size -/

/-- The step size of the first integrator used in a program is used by every other one: after an integrator
with step size `1`, one with step size `1/2` returns points at times `0` and `1` instead of `0`, `1/2` and `1`. -/
theorem C100_static_step_size_fails :
    let st : ℚ → ℚ → ℚ := fun h => step (fun x => x) h
    let lt : ℚ → ℚ → Bool := fun a b => decide (a < b)
    let first := evolve 0 (· + ·) lt st none 1 1 5 1
    (evolve 0 (· + ·) lt st first.2 (1 / 2) 1 5 1).1.map (List.map Prod.fst) = some [0, 1] ∧
      (evolve 0 (· + ·) lt st none (1 / 2) 1 5 1).1.map (List.map Prod.fst) = some [0, 1 / 2, 1] := by
  decide +kernel

/-- A clock which stops at `3` before the end `5` is reached. -/
example (fuel : ℕ) : (evolve 0 (fun a b : ℕ => min (a + b) 3) (fun a b => decide (a < b)) (fun _ (x : ℕ) => x) none
    1 5 fuel 0).1 = none :=
  C100_stalls 0 _ _ _ 1 5 0 3 (by decide) (by decide) fuel

/-- Two tasks inserting in an order of their own. -/
example : insertAll [(1, (1, 'b')), (0, (1, 'a')), (0, (2, 'c'))] [[(0, 'x')], [(0, 'y')]] =
    some [[(0, 'x'), (1, 'a'), (2, 'c')], [(0, 'y'), (1, 'b')]] :=
  C100_schedule (ts := [[(1, 'a'), (2, 'c')], [(1, 'b')]]) rfl (by
    intro i hi
    match i, hi with
    | 0, _ => simp [Sorted]
    | 1, _ => simp [Sorted]) (.next 1 _ [] rfl (.next 0 _ [(2, 'c')] rfl (.next 0 _ [] rfl (.done (by simp)))))

/-- The solution `exp` of `x'=x` on `[0,1]`, with `L=1` and `M=3`. -/
example (n : ℕ) (h : ℝ) (hh : 0 ≤ h) (hn : (n : ℝ) * h ≤ 1) (h1 : h ≤ 1) :
    ∀ k ≤ n, |(step (fun x : ℝ => x) h)^[k] 1 - Real.exp (k * h)| ≤ 3 * h * (Real.exp (2 * (k * h)) - 1) := by
  intro k hk
  have := C100_first_order (f := fun x : ℝ => x) (L := 1) (M := 3) (by simp) zero_le_one hh (by simpa using h1)
    (φ := Real.exp) (n := n) (fun s hs => by
      rw [Real.norm_of_nonneg (Real.exp_pos _).le]
      have h2 : Real.exp s ≤ Real.exp 1 := Real.exp_le_exp.2 (hs.2.trans hn)
      linarith [Real.exp_one_lt_d9])
    (fun s _ => (Real.hasDerivAt_exp s).hasDerivWithinAt) k hk
  simpa [Real.norm_eq_abs] using this

end Verif.Simulator
