import Verif.ConstraintSolver.Dual
import Mathlib.Analysis.Calculus.MeanValue
import Mathlib.Analysis.Calculus.Deriv.MeanValue
import Mathlib.Analysis.Calculus.Deriv.Prod
import Mathlib.Analysis.Calculus.Deriv.Comp
import Mathlib.Analysis.Calculus.Deriv.Pow
import Mathlib.Analysis.Calculus.FDeriv.Pi

/-!
# C56: contraction by derivatives
-/

namespace Verif.ConstraintSolver

open Ariadne Ariadne.Logical
open Ariadne.Ext (fin)

/-! ## `monotone_reduce` -/

/-- The mean value theorem, for points in either order. -/
theorem mvt {g g' : ℝ → ℝ} {a b : ℝ} (hg : ∀ t, a ≤ t → t ≤ b → HasDerivAt g (g' t) t) {x y : ℝ}
    (hx : a ≤ x ∧ x ≤ b) (hy : a ≤ y ∧ y ≤ b) :
    ∃ t, (a ≤ t ∧ t ≤ b) ∧ g y - g x = g' t * (y - x) := by
  have key : ∀ x y, x < y → a ≤ x → y ≤ b → ∃ t, (a ≤ t ∧ t ≤ b) ∧ g y - g x = g' t * (y - x) := by
    intro x y h hx hy
    obtain ⟨t, ht, e⟩ := exists_hasDerivAt_eq_slope g g' h
      (fun t ht => (hg t (hx.trans ht.1) (ht.2.trans hy)).continuousAt.continuousWithinAt)
      (fun t ht => hg t (hx.trans ht.1.le) (ht.2.le.trans hy))
    refine ⟨t, ⟨hx.trans ht.1.le, ht.2.le.trans hy⟩, ?_⟩
    rw [e, div_mul_cancel₀ _ (by linarith)]
  rcases lt_trichotomy x y with h | h | h
  · exact key x y h hx.1 hy.2
  · subst h; exact ⟨x, hx, by simp⟩
  · obtain ⟨t, ht, e⟩ := key y x h hy.1 hx.2
    exact ⟨t, ht, by linarith [e]⟩

variable {n : ℕ}

/-- Division with the case of a zero divisor: if `x = y * z` then `x / y` encloses `z`. -/
theorem div_contains {K : Type*} [Field K] [LinearOrder K] [IsStrictOrderedRing K] (R : XRounding K)
    {X Y : Bounds K} {x y z : K} (hx : X.Contains x) (hy : Y.Contains y) (h : x = y * z) :
    (Bounds.div R X Y).Contains z := by
  by_cases h0 : y = 0
  · subst h0
    rw [(Bounds.C06_zero R hy).1]
    exact ⟨trivial, trivial⟩
  · have := Bounds.C06_div R hx hy
    rwa [h, mul_comm, mul_div_assoc, div_self h0, mul_one] at this

theorem newton_contains {X : XRounding ℝ} {F dF : Fn n ℝ} {f f' : (Fin n → ℝ) → ℝ} {b : Bounds ℝ}
    {v : Fin n} {B : Box n ℝ} {p : Fin n → ℝ} {a0 b0 s : ℝ}
    (hF : ∀ p, EnclosesAt F (f p) p) (hdF : ∀ p, EnclosesAt dF (f' p) p)
    (hf : ∀ t, a0 ≤ t → t ≤ b0 →
      HasDerivAt (fun t => f (Function.update p v t)) (f' (Function.update p v t)) t)
    (hp : Mem B p) (hb : b.Contains (f p)) (hpv : a0 ≤ p v ∧ p v ≤ b0) (hs : a0 ≤ s ∧ s ≤ b0) :
    (newton X F dF b v B (Function.update B v ⟨fin a0, fin b0⟩) (fin s)).Contains (p v) := by
  obtain ⟨t, ht, e⟩ := mvt (g := fun t => f (Function.update p v t))
    (g' := fun t => f' (Function.update p v t)) hf hs hpv
  simp only [Function.update_eq_self] at e
  have m1 : Mem (Function.update B v ⟨fin s, fin s⟩) (Function.update p v s) :=
    mem_update_point hp ⟨le_rfl, le_rfl⟩
  have m2 : Mem (Function.update B v ⟨fin a0, fin b0⟩) (Function.update p v t) :=
    mem_update_point hp ⟨ht.1, ht.2⟩
  rw [newton, apply_eq m1, apply_eq m2]
  have h1 := div_contains X (Bounds.C05_sub X hb (hF _ _ m1)) (hdF _ _ m2) e
  have h2 := Bounds.C05_add X (show (⟨fin s, fin s⟩ : Bounds ℝ).Contains s from ⟨le_rfl, le_rfl⟩) h1
  have h3 : s + (p v - s) = p v := by ring
  rwa [h3] at h2

theorem monotoneLoop_sound {R : Rounding ℝ} {F dF : Fn n ℝ} {f f' : (Fin n → ℝ) → ℝ} {b : Bounds ℝ}
    {v : Fin n} {B : Box n ℝ} {p : Fin n → ℝ} {thr : Ext ℝ} {A0 B0 : ℝ}
    (hF : ∀ p, EnclosesAt F (f p) p) (hdF : ∀ p, EnclosesAt dF (f' p) p)
    (hf : ∀ t, A0 ≤ t → t ≤ B0 →
      HasDerivAt (fun t => f (Function.update p v t)) (f' (Function.update p v t)) t)
    (hp : Mem B p) (hb : b.Contains (f p)) :
    ∀ (fuel : ℕ) (a0 b0 : ℝ) (D : Box n ℝ), A0 ≤ a0 → b0 ≤ B0 → R.Rep a0 → R.Rep b0 → a0 ≤ p v →
      p v ≤ b0 → monotoneLoop (.ofRounding R) F dF b v B thr fuel ⟨fin a0, fin b0⟩ ⟨fin a0, fin b0⟩
        (Function.update B v ⟨fin a0, fin b0⟩) = some D → Mem D p := by
  intro fuel
  induction fuel with
  | zero => intro a0 b0 D _ _ _ _ _ _ h; simp [monotoneLoop] at h
  | succ fuel ih =>
    intro a0 b0 D hA hB ha hb' h1 h2 h
    obtain ⟨s, hs, hs1, hs2⟩ := Bounds.C08_value_mem R (h1.trans h2) ha hb'
    rw [monotoneLoop] at h
    simp only [hs] at h
    have hnew := newton_contains (X := .ofRounding R) hF hdF
      (fun t ht1 ht2 => hf t (hA.trans ht1) (ht2.trans hB)) hp hb ⟨h1, h2⟩ ⟨hs1, hs2⟩
    -- the form of the Newton interval
    have hform : (newton (.ofRounding R) F dF b v B (Function.update B v ⟨fin a0, fin b0⟩) (fin s)) =
        Bounds.add (.ofRounding R) ⟨fin s, fin s⟩ (Bounds.div (.ofRounding R) (Bounds.sub (.ofRounding R) b
          (apply F (Function.update B v ⟨fin s, fin s⟩))) (apply dF (Function.update B v ⟨fin a0, fin b0⟩))) :=
      rfl
    generalize Bounds.div (.ofRounding R) (Bounds.sub (.ofRounding R) b
      (apply F (Function.update B v ⟨fin s, fin s⟩))) (apply dF (Function.update B v ⟨fin a0, fin b0⟩)) = E at hform
    generalize hN : newton (.ofRounding R) F dF b v B (Function.update B v ⟨fin a0, fin b0⟩) (fin s) = N at *
    have hl : N.l = .ninf ∨ ∃ c, N.l = fin c ∧ R.Rep c ∧ c ≤ p v := by
      have h3 := hnew.1
      rw [hform] at h3 ⊢
      simp only [Bounds.add, XRounding.ofRounding] at h3 ⊢
      cases hE : E.l <;> rw [hE] at h3 <;> simp only [Ext.add, IsLower] at h3 ⊢
      · exact Or.inl trivial
      · exact Or.inr ⟨_, rfl, R.rep_down _, h3⟩
    have hu : N.u = .pinf ∨ ∃ c, N.u = fin c ∧ R.Rep c ∧ p v ≤ c := by
      have h3 := hnew.2
      rw [hform] at h3 ⊢
      simp only [Bounds.add, XRounding.ofRounding] at h3 ⊢
      cases hE : E.u <;> rw [hE] at h3 <;> simp only [Ext.add, IsUpper] at h3 ⊢
      · exact Or.inr ⟨_, rfl, R.rep_up _, h3⟩
      · exact Or.inl trivial
    have c1 : Ext.lt N.u (fin a0) = false := by
      rcases hu with e | ⟨c, e, -, h3⟩ <;> rw [e] <;> simp [Ext.lt]
      linarith
    have c2 : Ext.lt (fin b0) N.l = false := by
      rcases hl with e | ⟨c, e, -, h3⟩ <;> rw [e] <;> simp [Ext.lt]
      linarith
    have href : ∃ a1 b1, Bounds.refinement ⟨fin a0, fin b0⟩ N = ⟨fin a1, fin b1⟩ ∧ R.Rep a1 ∧ R.Rep b1 ∧
        a0 ≤ a1 ∧ b1 ≤ b0 ∧ a1 ≤ p v ∧ p v ≤ b1 := by
      have ha1 : ∃ a1, Ext.max (fin a0) N.l = fin a1 ∧ R.Rep a1 ∧ a0 ≤ a1 ∧ a1 ≤ p v := by
        rcases hl with e | ⟨c, e, hc, h3⟩ <;> rw [e]
        · exact ⟨a0, by simp [Ext.max, Ext.lt], ha, le_rfl, h1⟩
        · by_cases h4 : a0 < c
          · exact ⟨c, by simp [Ext.max, Ext.lt, h4], hc, h4.le, h3⟩
          · exact ⟨a0, by simp [Ext.max, Ext.lt, h4], ha, le_rfl, h1⟩
      have hb1 : ∃ b1, Ext.min (fin b0) N.u = fin b1 ∧ R.Rep b1 ∧ b1 ≤ b0 ∧ p v ≤ b1 := by
        rcases hu with e | ⟨c, e, hc, h3⟩ <;> rw [e]
        · exact ⟨b0, by simp [Ext.min, Ext.lt], hb', le_rfl, h2⟩
        · by_cases h4 : c < b0
          · exact ⟨c, by simp [Ext.min, Ext.lt, h4], hc, h4.le, h3⟩
          · exact ⟨b0, by simp [Ext.min, Ext.lt, h4], hb', le_rfl, h2⟩
      obtain ⟨a1, e1, f1, f2, f3⟩ := ha1
      obtain ⟨b1, e2, g1, g2, g3⟩ := hb1
      exact ⟨a1, b1, by simp [Bounds.refinement, e1, e2], f1, g1, f2, g2, f3, g3⟩
    simp only [c1, c2, Bool.false_eq_true, if_false] at h
    obtain ⟨a1, b1, e, r1, r2, i1, i2, i3, i4⟩ := href
    have hstep : ∃ a1 b1, (if Ext.lt thr (width (.ofRounding R) ⟨fin a0, fin b0⟩) = true then
        Bounds.refinement ⟨fin a0, fin b0⟩ N else ⟨fin a0, fin b0⟩) = ⟨fin a1, fin b1⟩ ∧ R.Rep a1 ∧ R.Rep b1 ∧
        a0 ≤ a1 ∧ b1 ≤ b0 ∧ a1 ≤ p v ∧ p v ≤ b1 := by
      split_ifs
      · exact ⟨a1, b1, e, r1, r2, i1, i2, i3, i4⟩
      · exact ⟨a0, b0, rfl, ha, hb', le_rfl, le_rfl, h1, h2⟩
    obtain ⟨a2, b2, e2, q1, q2, j1, j2, j3, j4⟩ := hstep
    simp only [e2, Function.update_idem] at h
    split_ifs at h
    · exact ih a2 b2 D (hA.trans j1) (j2.trans hB) q1 q2 j3 j4 h
    · cases h
      exact mem_update hp ⟨j3, j4⟩

/-- **C56**: contracting along one variable by Newton's method loses no point of the box that satisfies
the constraint, whether or not the function is monotone, and reports emptiness only if there is none.
Whether it ends is another matter (`C56_monotone_reduce_diverges`). -/
theorem C56_monotone_reduce_partial {R : Rounding ℝ} {F dF : Fn n ℝ} {f f' : (Fin n → ℝ) → ℝ}
    {b : Bounds ℝ} {v : Fin n} {B : Box n ℝ} {fuel : ℕ} {r : Bool × Box n ℝ} {a0 b0 : ℝ}
    (hF : ∀ p, EnclosesAt F (f p) p) (hdF : ∀ p, EnclosesAt dF (f' p) p)
    (hf : ∀ p t, a0 ≤ t → t ≤ b0 →
      HasDerivAt (fun t => f (Function.update p v t)) (f' (Function.update p v t)) t)
    (hB : B v = ⟨fin a0, fin b0⟩) (ha : R.Rep a0) (hb0 : R.Rep b0)
    (h : monotoneReduce (.ofRounding R) F dF b v fuel B = some r)
    (p : Fin n → ℝ) (hp : Mem B p) (hb : b.Contains (f p)) : r.1 = false ∧ Mem r.2 p := by
  simp only [monotoneReduce, Option.map_eq_some_iff] at h
  obtain ⟨D, h, rfl⟩ := h
  have hpv := hp v
  rw [hB] at h hpv
  have e : Function.update B v ⟨fin a0, fin b0⟩ = B := by rw [← hB, Function.update_eq_self]
  rw [← e] at h
  have e' : Function.update B v ⟨fin a0, fin b0⟩ = B := e
  have := monotoneLoop_sound (A0 := a0) (B0 := b0) hF hdF (hf p) hp hb fuel a0 b0 D le_rfl le_rfl ha hb0
    hpv.1 hpv.2 (by rw [e'] at h ⊢; exact h)
  exact ⟨boxEmpty_false this, this⟩

/-- `monotone_reduce` never ends for the identity function on `[-1,1]` and the constraint
`-10 ≤ x ≤ 10`, which every point satisfies: the Newton step removes nothing, and the loop goes on while
the interval is wider than an eighth of the original one. -/
theorem C56_monotone_reduce_diverges (fuel : ℕ) :
    monotoneReduce (.ofRounding (TaylorModel.exactRounding : Rounding ℚ)) (fun B => B 0)
      (fun _ => ⟨fin 1, fin 1⟩) ⟨fin (-10), fin 10⟩ 0 fuel (fun _ : Fin 1 => ⟨fin (-1), fin 1⟩) = none := by
  have key : ∀ fuel, monotoneLoop (.ofRounding (TaylorModel.exactRounding : Rounding ℚ)) (fun B => B 0)
      (fun _ => ⟨fin 1, fin 1⟩) ⟨fin (-10), fin 10⟩ 0 (fun _ : Fin 1 => ⟨fin (-1), fin 1⟩) (fin (1 / 4)) fuel
      ⟨fin (-1), fin 1⟩ ⟨fin (-1), fin 1⟩ (fun _ => ⟨fin (-1), fin 1⟩) = none := by
    intro fuel
    induction fuel with
    | zero => rfl
    | succ fuel ih =>
      rw [monotoneLoop]
      have e1 : Ext.lt (fin (1 / 4 : ℚ)) (width (.ofRounding TaylorModel.exactRounding) ⟨fin (-1), fin 1⟩) = true := by
        decide +kernel
      have e2 : newton (.ofRounding (TaylorModel.exactRounding : Rounding ℚ)) (fun B => B 0)
          (fun _ => ⟨fin 1, fin 1⟩) ⟨fin (-10), fin 10⟩ 0 (fun _ : Fin 1 => ⟨fin (-1), fin 1⟩)
          (fun _ => ⟨fin (-1), fin 1⟩)
          (Bounds.value (.ofRounding TaylorModel.exactRounding) ⟨fin (-1), fin 1⟩) = ⟨fin (-10), fin 10⟩ := by
        decide +kernel
      have e3 : Ext.lt (fin (10 : ℚ)) (fin (-1)) = false := by decide +kernel
      have e4 : Ext.lt (fin (1 : ℚ)) (fin (-10)) = false := by decide +kernel
      have e5 : Bounds.refinement ⟨fin (-1 : ℚ), fin 1⟩ ⟨fin (-10), fin 10⟩ = ⟨fin (-1), fin 1⟩ := by
        decide +kernel
      have e6 : Function.update (fun _ : Fin 1 => (⟨fin (-1), fin 1⟩ : Bounds ℚ)) 0 ⟨fin (-1), fin 1⟩ =
          fun _ => ⟨fin (-1), fin 1⟩ := Function.update_eq_self 0 _
      simp only [e1, e2, e3, e4, e5, e6, if_true, Bool.false_eq_true, if_false, Bool.and_self]
      exact ih
  have e : Ext.div (XRounding.ofRounding (TaylorModel.exactRounding : Rounding ℚ)).near
      (width (.ofRounding TaylorModel.exactRounding) ⟨fin (-1), fin 1⟩) (fin 8) = fin (1 / 4) := by
    decide +kernel
  rw [monotoneReduce, e, key]
  rfl

/-! ## `lyapunov_reduce` -/

section Lyapunov

variable {m : ℕ} {K : Type*} [Field K] [LinearOrder K] [IsStrictOrderedRing K]

theorem fold_sub_contains {R : XRounding K} (ranges : Fin n → Bounds K) (y : Fin n → K)
    (hr : ∀ k, (ranges k).Contains (y k)) (j : Fin n) :
    ∀ (l : List (Fin n)) (E : Bounds K) (e : K), E.Contains e →
      (l.foldl (fun E k => if j ≠ k then Bounds.sub R E (ranges k) else E) E).Contains
        (e - (l.map fun k => if j ≠ k then y k else 0).sum) := by
  intro l
  induction l with
  | nil => intro E e h; simpa using h
  | cons k l ih =>
    intro E e h
    simp only [List.foldl_cons, List.map_cons, List.sum_cons]
    by_cases hk : j ≠ k
    · rw [if_pos hk, if_pos hk]
      have := ih _ _ (Bounds.C05_sub R h (hr k))
      rwa [sub_sub] at this
    · rw [if_neg hk, if_neg hk, zero_add]
      exact ih _ _ h

/-- **C56**: contraction of all variables at once by the gradient of a combination `g` of the constraint
functions loses no point `p` for which `g(p)` is in the combined bounds and the difference
`g(p) - g(centre)` is `Σ s_j (p_j - centre_j)` with slopes `s_j` in the range of the gradient. -/
theorem C56_lyapunov_slopes {R : XRounding K} {dg : Fin n → Bounds K} {gc C0 : Bounds K} {c : Fin n → K}
    {B : Box n K} {p s : Fin n → K} {y yc : K} (hp : Mem B p) (hy : C0.Contains y) (hyc : gc.Contains yc)
    (hs : ∀ j, (dg j).Contains (s j)) (hdg : ∀ j, (dg j).Finite)
    (hB : ∀ j, (Bounds.subBF R (B j) (fin (c j))).Finite)
    (h : y - yc = ∑ j, s j * (p j - c j)) :
    (lyapunovReduce R dg gc C0 c B).1 = false ∧ Mem (lyapunovReduce R dg gc C0 c B).2 p := by
  have key : Mem (lyapunovReduce R dg gc C0 c B).2 p := by
    intro j
    simp only [lyapunovReduce]
    have hpt : ∀ k, (⟨fin (c k), fin (c k)⟩ : Bounds K).Contains (c k) := fun k => ⟨le_rfl, le_rfl⟩
    have hr : ∀ k, (Bounds.mul R (dg k) (Bounds.subBF R (B k) (fin (c k)))).Contains (s k * (p k - c k)) :=
      fun k => Bounds.C05_mul R (hdg k) (hB k) (hs k) (Bounds.C05_sub R (hp k) (hpt k))
    have h1 := fold_sub_contains (R := R) _ _ hr j (List.finRange n) _ _ (Bounds.C05_sub R hy hyc)
    have h2 : y - yc - ((List.finRange n).map fun k => if j ≠ k then s k * (p k - c k) else 0).sum =
        s j * (p j - c j) := by
      rw [← List.ofFn_eq_map, List.sum_ofFn, h, sub_eq_iff_eq_add]
      rw [← Finset.add_sum_erase _ _ (Finset.mem_univ j),
        ← Finset.add_sum_erase Finset.univ (fun k => if j ≠ k then s k * (p k - c k) else 0) (Finset.mem_univ j)]
      simp only [ne_eq, not_true_eq_false, if_false, zero_add]
      congr 1
      refine Finset.sum_congr rfl fun k hk => ?_
      rw [if_pos (Ne.symm (Finset.ne_of_mem_erase hk))]
    have h3 := div_contains R h1 (hs j) h2
    have h4 := Bounds.C05_add R h3 (hpt j)
    rw [sub_add_cancel] at h4
    exact refinement_contains (hp j) h4
  exact ⟨boxEmpty_false key, key⟩

/-- The combined bounds contain the combined value, if the bounds are finite and no product or sum
overflows. -/
theorem C56_combined_bounds {R : Rounding K} {mult : Fin m → K} {b : Fin m → Bounds K} {y : Fin m → K}
    (hb : ∀ i, (b i).Finite) (hy : ∀ i, (b i).Contains (y i)) :
    (combinedBounds (.ofRounding R) mult b).Contains (∑ i, mult i * y i) := by
  have key : ∀ (l : List (Fin m)) (C : Bounds K) (e : K), C.Contains e →
      (l.foldl (fun C i => Bounds.add (.ofRounding R) C
        (Bounds.mul (.ofRounding R) ⟨fin (mult i), fin (mult i)⟩ (b i))) C).Contains
          (e + (l.map fun i => mult i * y i).sum) := by
    intro l
    induction l with
    | nil => intro C e h; simpa using h
    | cons i l ih =>
      intro C e h
      simp only [List.foldl_cons, List.map_cons, List.sum_cons]
      rw [← add_assoc]
      refine ih _ _ (Bounds.C05_add _ h (Bounds.C05_mul _ ⟨⟨_, rfl⟩, _, rfl⟩ (hb i) ?_ (hy i)))
      exact ⟨le_rfl, le_rfl⟩
  have := key (List.finRange m) ⟨fin 0, fin 0⟩ 0 ⟨le_rfl, le_rfl⟩
  rwa [zero_add, ← List.ofFn_eq_map, List.sum_ofFn] at this

end Lyapunov

/-- The slopes exist if the centre is in the box and the gradient is enclosed over the box. -/
theorem slopes_of_gradient {g : (Fin n → ℝ) → ℝ} {G : (Fin n → ℝ) → Fin n → ℝ} {dg : Fin n → Bounds ℝ}
    {B : Box n ℝ} {c p : Fin n → ℝ} (hc : Mem B c) (hp : Mem B p)
    (hG : ∀ x, Mem B x → HasFDerivAt g (∑ j, G x j • ContinuousLinearMap.proj (R := ℝ) (φ := fun _ => ℝ) j) x)
    (hdg : ∀ x, Mem B x → ∀ j, (dg j).Contains (G x j)) :
    ∃ s : Fin n → ℝ, (∀ j, (dg j).Contains (s j)) ∧ g p - g c = ∑ j, s j * (p j - c j) := by
  let γ : ℝ → Fin n → ℝ := fun t j => c j + t * (p j - c j)
  have hγ : ∀ t, 0 ≤ t → t ≤ 1 → Mem B (γ t) := by
    intro t h0 h1 j
    obtain ⟨a1, a2⟩ := hc j
    obtain ⟨b1, b2⟩ := hp j
    constructor
    · cases hl : (B j).l <;> rw [hl] at a1 b1 <;> simp only [IsLower] at *
      show _ ≤ c j + t * (p j - c j)
      nlinarith
    · cases hl : (B j).u <;> rw [hl] at a2 b2 <;> simp only [IsUpper] at *
      show c j + t * (p j - c j) ≤ _
      nlinarith
  have hd : ∀ t, 0 ≤ t → t ≤ 1 → HasDerivAt (fun t => g (γ t)) (∑ j, G (γ t) j * (p j - c j)) t := by
    intro t h0 h1
    have h2 : HasDerivAt γ (fun j => p j - c j) t := by
      rw [hasDerivAt_pi]
      intro j
      have := ((hasDerivAt_id' t).mul_const (p j - c j)).const_add (c j)
      rw [one_mul] at this
      exact this
    have h3 := (hG (γ t) (hγ t h0 h1)).comp_hasDerivAt t h2
    refine h3.congr_deriv ?_
    simp [ContinuousLinearMap.sum_apply]
  obtain ⟨t, ht, e⟩ := mvt (g := fun t => g (γ t)) (g' := fun t => ∑ j, G (γ t) j * (p j - c j)) (a := 0)
    (b := 1) hd (x := 0) (y := 1) ⟨le_rfl, zero_le_one⟩ ⟨zero_le_one, le_rfl⟩
  refine ⟨G (γ t), hdg _ (hγ t ht.1 ht.2), ?_⟩
  have e1 : γ 1 = p := by funext j; simp [γ]
  have e0 : γ 0 = c := by funext j; simp [γ]
  simpa [e1, e0] using e

/-- **C56**: `lyapunov_reduce` loses no point of the box at which the combination of the constraint
functions is in the combined bounds, provided the centre is in the box and the gradient is enclosed
over the box. -/
theorem C56_lyapunov_reduce_partial {R : XRounding ℝ} {g : (Fin n → ℝ) → ℝ} {G : (Fin n → ℝ) → Fin n → ℝ}
    {dg : Fin n → Bounds ℝ} {gc C0 : Bounds ℝ} {B : Box n ℝ} {c p : Fin n → ℝ} (hc : Mem B c)
    (hG : ∀ x, Mem B x → HasFDerivAt g (∑ j, G x j • ContinuousLinearMap.proj (R := ℝ) (φ := fun _ => ℝ) j) x)
    (hdg : ∀ x, Mem B x → ∀ j, (dg j).Contains (G x j)) (hgc : gc.Contains (g c))
    (hfin : ∀ j, (dg j).Finite) (hB : ∀ j, (Bounds.subBF R (B j) (fin (c j))).Finite)
    (hp : Mem B p) (hy : C0.Contains (g p)) :
    (lyapunovReduce R dg gc C0 c B).1 = false ∧ Mem (lyapunovReduce R dg gc C0 c B).2 p := by
  obtain ⟨s, h1, h2⟩ := slopes_of_gradient hc hp hG hdg
  exact C56_lyapunov_slopes hp hy hgc h1 hfin hB h2

/-- If the centre is not in the box, a solution is lost: `x²` on `[1,2]` has derivative in `[2,4]`; with
centre `-1` and the constraint `x² = 1` the solution `x = 1` is removed and infeasibility reported. -/
theorem C56_lyapunov_centre_outside :
    let B : Box 1 ℚ := fun _ => ⟨fin 1, fin 2⟩
    (∀ x : ℚ, (B 0).Contains x → (⟨fin 2, fin 4⟩ : Bounds ℚ).Contains (2 * x)) ∧
    Mem B (fun _ => 1) ∧ ((1 : ℚ) ^ 2 = 1) ∧
    (lyapunovReduce (.ofRounding (TaylorModel.exactRounding : Rounding ℚ)) (fun _ => ⟨fin 2, fin 4⟩)
      ⟨fin ((-1) ^ 2), fin ((-1) ^ 2)⟩ ⟨fin 1, fin 1⟩ (fun _ => -1) B).1 = true := by
  refine ⟨?_, ?_, by norm_num, by decide +kernel⟩
  · intro x ⟨h1, h2⟩
    simp only [IsLower, IsUpper] at h1 h2
    constructor <;> simp only [IsLower, IsUpper] <;> linarith
  · intro _
    constructor <;> norm_num [IsLower, IsUpper]

/-! ### Cases meeting the hypotheses -/

/-- `monotone_reduce` ends for `x² = 2` on `[1,2]`. -/
example : ((monotoneReduce (.ofRounding (TaylorModel.exactRounding : Rounding ℚ))
    (fun B => Bounds.mul (.ofRounding TaylorModel.exactRounding) (B 0) (B 0))
    (fun B => Bounds.mul (.ofRounding TaylorModel.exactRounding) ⟨fin 2, fin 2⟩ (B 0)) ⟨fin 2, fin 2⟩ 0 5
    (fun _ : Fin 1 => ⟨fin 1, fin 2⟩)).map fun r => (r.1, r.2 0)) =
    some (false, ⟨fin (11 / 8), fin (23 / 16)⟩) := by decide +kernel

/-- `lyapunov_reduce` for `x + y = 0` on `[-1,1] × [1/2,1]`. -/
example : ((lyapunovReduce (.ofRounding (TaylorModel.exactRounding : Rounding ℚ))
    (fun _ : Fin 2 => ⟨fin 1, fin 1⟩) ⟨fin (3 / 4), fin (3 / 4)⟩ ⟨fin 0, fin 0⟩ ![0, 3 / 4]
    ![⟨fin (-1), fin 1⟩, ⟨fin (1 / 2), fin 1⟩]).2 0) = ⟨fin (-1), fin (-1 / 2)⟩ := by decide +kernel

end Verif.ConstraintSolver
