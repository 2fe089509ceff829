import Verif.LinearProgram.Model
import Verif.LinearProgram.Spec
import Verif.Bounds.Props
import Mathlib.Tactic.Ring
import Mathlib.Tactic.Linarith

/-! Sums and products of bounds with infinite endpoints. -/

namespace Verif.LinearProgram

open Ariadne

variable {K : Type*} [Field K] [LinearOrder K] [IsStrictOrderedRing K] {m n : ℕ} (R : XRounding K)

theorem not_le_zero {a : Ext K} {x : K} (ha : IsLower a x) (h : ¬ Ext.le (.fin 0) a = true) : IsLower a 0 := by
  cases a <;> simp [IsLower, Ext.le] at *; linarith

theorem not_zero_le {b : Ext K} {x : K} (hb : IsUpper b x) (h : ¬ Ext.le b (.fin 0) = true) : IsUpper b 0 := by
  cases b <;> simp [IsUpper, Ext.le] at *; linarith

theorem down_ne_nan (x : K) : R.down x ≠ .nan := by
  intro h; have := R.down_lower x; rw [h] at this; exact this

theorem up_ne_nan (x : K) : R.up x ≠ .nan := by
  intro h; have := R.up_upper x; rw [h] at this; exact this

theorem mul_ne_nan {a b : Ext K} {rnd : K → Ext K} (hr : ∀ x, rnd x ≠ .nan)
    (ha : a ≠ .nan) (hb : b ≠ .nan) (ha0 : a ≠ .fin 0) (hb0 : b ≠ .fin 0) : Ext.mul rnd a b ≠ .nan := by
  cases a <;> cases b <;> simp [Ext.mul, Ext.infSign] at * <;> try exact hr _
  all_goals
    rename_i t
    rcases lt_trichotomy t 0 with h | h | h
    · simp [h, h.not_gt]
    · contradiction
    · simp [h, h.not_gt]

/-- A datum which is NaN or a lower bound. -/
def WLower (a : Ext K) (x : K) : Prop := a ≠ .nan → IsLower a x

/-- A datum which is NaN or an upper bound. -/
def WUpper (a : Ext K) (x : K) : Prop := a ≠ .nan → IsUpper a x

/-- Multiplication: each endpoint of the product is a bound or NaN. -/
theorem mul_weak {X Y : Bounds K} {x y : K} (hx : X.Contains x) (hy : Y.Contains y) :
    WLower (Bounds.mul R X Y).l (x * y) ∧ WUpper (Bounds.mul R X Y).u (x * y) := by
  obtain ⟨a, b⟩ := X
  obtain ⟨c, d⟩ := Y
  obtain ⟨hx1, hx2⟩ := hx
  obtain ⟨hy1, hy2⟩ := hy
  unfold Bounds.mul WLower WUpper
  simp only at *
  split_ifs with h1 h2 h3 h4 h5 h6 h7 h8
  · rw [Ext.fin_le_iff] at h1 h2
    have hx0 : 0 ≤ x := by
      cases a <;> simp [IsLower, IsUpper] at * <;> linarith
    exact ⟨fun _ => mul_down_pp R hx1 hy1 h1 h2,
      fun hn => mul_up_pp R hx2 hy2 (Ext.isUpper_mono hx2 hx0) (by
        cases c <;> cases d <;> simp [IsLower, IsUpper] at * <;> linarith) (Or.inl hx0) hn⟩
  · rw [Ext.fin_le_iff] at h1
    rw [Ext.le_fin_iff] at h3
    have hx0 : 0 ≤ x := by
      cases a <;> simp [IsLower, IsUpper] at * <;> linarith
    exact ⟨fun hn => mul_down_pn R hx2 hy1 (Ext.isUpper_mono hx2 hx0) (not_le_zero hy1 h2) (Or.inl hx0) hn,
      fun _ => mul_up_pn R hx1 hy2 h1 h3⟩
  · rw [Ext.fin_le_iff] at h1
    have hx0 : 0 ≤ x := by
      cases a <;> simp [IsLower, IsUpper] at * <;> linarith
    exact ⟨fun hn => mul_down_pn R hx2 hy1 (Ext.isUpper_mono hx2 hx0) (not_le_zero hy1 h2) (Or.inl hx0) hn,
      fun hn => mul_up_pp R hx2 hy2 (Ext.isUpper_mono hx2 hx0) (not_zero_le hy2 h3) (Or.inl hx0) hn⟩
  · rw [Ext.fin_le_iff] at h5
    rw [Ext.le_fin_iff] at h4
    have hx0 : x ≤ 0 := by
      cases b <;> simp [IsLower, IsUpper] at * <;> linarith
    have hd : IsUpper d 0 := by
      cases c <;> cases d <;> simp [IsLower, IsUpper] at * <;> linarith
    exact ⟨fun hn => mul_down_np R hx1 hy2 (not_le_zero hx1 h1) hd (Or.inr hx0) hn,
      fun _ => mul_up_np R hx2 hy1 h4 h5⟩
  · rw [Ext.le_fin_iff] at h4 h6
    have hx0 : x ≤ 0 := by
      cases b <;> simp [IsLower, IsUpper] at * <;> linarith
    exact ⟨fun _ => mul_down_nn R hx2 hy2 h4 h6,
      fun hn => mul_up_nn R hx1 hy1 (not_le_zero hx1 h1) (not_le_zero hy1 h5) (Or.inl hx0) hn⟩
  · rw [Ext.le_fin_iff] at h4
    have hx0 : x ≤ 0 := by
      cases b <;> simp [IsLower, IsUpper] at * <;> linarith
    exact ⟨fun hn => mul_down_np R hx1 hy2 (not_le_zero hx1 h1) (not_zero_le hy2 h6) (Or.inr hx0) hn,
      fun hn => mul_up_nn R hx1 hy1 (not_le_zero hx1 h1) (not_le_zero hy1 h5) (Or.inl hx0) hn⟩
  · rw [Ext.fin_le_iff] at h7
    have hy0 : 0 ≤ y := by
      cases c <;> simp [IsLower, IsUpper] at * <;> linarith
    exact ⟨fun hn => mul_down_np R hx1 hy2 (not_le_zero hx1 h1) (Ext.isUpper_mono hy2 hy0) (Or.inl hy0) hn,
      fun hn => mul_up_pp R hx2 hy2 (not_zero_le hx2 h4) (Ext.isUpper_mono hy2 hy0) (Or.inr hy0) hn⟩
  · rw [Ext.le_fin_iff] at h8
    have hy0 : y ≤ 0 := by
      cases d <;> simp [IsLower, IsUpper] at * <;> linarith
    exact ⟨fun hn => mul_down_pn R hx2 hy1 (not_zero_le hx2 h4) (not_le_zero hy1 h7) (Or.inr hy0) hn,
      fun hn => mul_up_nn R hx1 hy1 (not_le_zero hx1 h1) (not_le_zero hy1 h7) (Or.inr hy0) hn⟩
  · have ha0 := not_le_zero hx1 h1
    have hb0 := not_zero_le hx2 h4
    have hc0 := not_le_zero hy1 h7
    have hd0 := not_zero_le hy2 h8
    have nz : a ≠ .nan ∧ b ≠ .nan ∧ c ≠ .nan ∧ d ≠ .nan ∧
        a ≠ .fin 0 ∧ b ≠ .fin 0 ∧ c ≠ .fin 0 ∧ d ≠ .fin 0 := by
      refine ⟨?_, ?_, ?_, ?_, ?_, ?_, ?_, ?_⟩ <;> rintro rfl <;> simp_all [IsLower, IsUpper]
    obtain ⟨na, nb, nc, nd, za, zb, zc, zd⟩ := nz
    have n1 := mul_ne_nan (down_ne_nan R) nb nc zb zc
    have n2 := mul_ne_nan (down_ne_nan R) na nd za zd
    have n3 := mul_ne_nan (up_ne_nan R) na nc za zc
    have n4 := mul_ne_nan (up_ne_nan R) nb nd zb zd
    constructor
    · intro _
      rcases le_total 0 x with h | h
      · exact Ext.isLower_min_left (mul_down_pn R hx2 hy1 hb0 hc0 (Or.inl h) n1)
      · exact Ext.isLower_min_right (mul_down_np R hx1 hy2 ha0 hd0 (Or.inr h) n2) n1
    · intro _
      rcases le_total 0 x with h | h
      · exact Ext.isUpper_max_right (mul_up_pp R hx2 hy2 hb0 hd0 (Or.inl h) n4) n3
      · exact Ext.isUpper_max_left (mul_up_nn R hx1 hy1 ha0 hc0 (Or.inl h) n3)

theorem mulF_contains (a b : K) : (Bounds.mulF R (.fin a) (.fin b)).Contains (a * b) :=
  ⟨R.down_lower _, R.up_upper _⟩

theorem mulFB_contains (a : K) {X : Bounds K} {x : K} (hX : X.Finite) (hx : X.Contains x) :
    (mulFB R a X).Contains (a * x) :=
  Bounds.C05_mul R ⟨⟨a, rfl⟩, ⟨a, rfl⟩⟩ hX ⟨le_refl a, le_refl a⟩ hx

theorem zeroF_contains : (zeroF R).Contains (0 : K) := by
  have := mulF_contains R (0 : K) 0
  rwa [mul_zero] at this

theorem zeroB_contains : (zeroB R).Contains (0 : K) := by
  have := Bounds.C05_mul R (X := ⟨.fin 0, .fin 0⟩) (Y := ⟨.fin 0, .fin 0⟩) (x := (0 : K)) (y := 0)
    ⟨⟨0, rfl⟩, ⟨0, rfl⟩⟩ ⟨⟨0, rfl⟩, ⟨0, rfl⟩⟩ ⟨le_refl (0 : K), le_refl (0 : K)⟩ ⟨le_refl (0 : K), le_refl (0 : K)⟩
  rwa [mul_zero] at this

/-! Sums. -/

theorem sum_induct {P : Bounds K → K → Prop} (hadd : ∀ {S T : Bounds K} {s t : K}, P S s → P T t → P (Bounds.add R S T) (s + t))
    {z : Bounds K} (hz : P z 0) {t : Fin n → Bounds K} {x : Fin n → K} (h : ∀ i, P (t i) (x i)) :
    P (sumB R z t) (∑ i, x i) := by
  have key : ∀ (l : List (Fin n)) (S : Bounds K) (s : K), P S s →
      P (l.foldl (fun s i => Bounds.add R s (t i)) S) (s + (l.map x).sum) := by
    intro l
    induction l with
    | nil => intro S s hs; simpa using hs
    | cons i l ih =>
      intro S s hs
      have := ih _ _ (hadd hs (h i))
      simpa [add_assoc] using this
  have := key (List.finRange n) z 0 hz
  rw [zero_add, ← List.ofFn_eq_map, List.sum_ofFn] at this
  exact this

theorem sum_contains {z : Bounds K} (hz : z.Contains 0) {t : Fin n → Bounds K} {x : Fin n → K}
    (h : ∀ i, (t i).Contains (x i)) : (sumB R z t).Contains (∑ i, x i) :=
  sum_induct R (P := Bounds.Contains) (Bounds.C05_add R) hz h

theorem add_wlower {a b : Ext K} {x y : K} (ha : WLower a x) (hb : WLower b y) :
    WLower (Ext.add R.down a b) (x + y) := by
  intro hn
  refine add_down R (ha ?_) (hb ?_)
  · rintro rfl; exact hn rfl
  · rintro rfl; exact hn (by cases a <;> rfl)

theorem add_wupper {a b : Ext K} {x y : K} (ha : WUpper a x) (hb : WUpper b y) :
    WUpper (Ext.add R.up a b) (x + y) := by
  intro hn
  refine add_up R (ha ?_) (hb ?_)
  · rintro rfl; exact hn rfl
  · rintro rfl; exact hn (by cases a <;> rfl)

theorem sum_weak {z : Bounds K} (hz : z.Contains 0) {t : Fin n → Bounds K} {x : Fin n → K}
    (h : ∀ i, WLower (t i).l (x i) ∧ WUpper (t i).u (x i)) :
    WLower (sumB R z t).l (∑ i, x i) ∧ WUpper (sumB R z t).u (∑ i, x i) :=
  sum_induct R (P := fun B x => WLower B.l x ∧ WUpper B.u x)
    (fun h1 h2 => ⟨add_wlower R h1.1 h2.1, add_wupper R h1.2 h2.2⟩) ⟨fun _ => hz.1, fun _ => hz.2⟩ h

/-! Infinite and NaN summands determine the sum. -/

/-- `+inf` or NaN. -/
def BadP (a : Ext K) : Prop := a = .pinf ∨ a = .nan

/-- `-inf` or NaN. -/
def BadN (a : Ext K) : Prop := a = .ninf ∨ a = .nan

theorem badP_add {rnd : K → Ext K} {a b : Ext K} (h : BadP a ∨ BadP b) : BadP (Ext.add rnd a b) := by
  unfold BadP at *
  rcases h with (rfl | rfl) | (rfl | rfl)
  · cases b <;> simp [Ext.add]
  · cases b <;> simp [Ext.add]
  · cases a <;> simp [Ext.add]
  · cases a <;> simp [Ext.add]

theorem badN_add {rnd : K → Ext K} {a b : Ext K} (h : BadN a ∨ BadN b) : BadN (Ext.add rnd a b) := by
  unfold BadN at *
  rcases h with (rfl | rfl) | (rfl | rfl)
  · cases b <;> simp [Ext.add]
  · cases b <;> simp [Ext.add]
  · cases a <;> simp [Ext.add]
  · cases a <;> simp [Ext.add]

theorem sum_absorb {P : Bounds K → Prop} (hP : ∀ S T : Bounds K, P S ∨ P T → P (Bounds.add R S T)) {z : Bounds K}
    {t : Fin n → Bounds K} {i : Fin n} (h : P (t i)) : P (sumB R z t) := by
  have key : ∀ (l : List (Fin n)) (S : Bounds K), P S ∨ i ∈ l → P (l.foldl (fun s i => Bounds.add R s (t i)) S) := by
    intro l
    induction l with
    | nil => intro S hs; simpa using hs
    | cons k l ih =>
      intro S hs
      refine ih _ ?_
      rcases hs with hs | hs
      · exact Or.inl (hP _ _ (Or.inl hs))
      · rcases List.mem_cons.1 hs with rfl | hs
        · exact Or.inl (hP _ _ (Or.inr h))
        · exact Or.inr hs
  exact key _ _ (Or.inr (List.mem_finRange i))

theorem lower_badN {z : Bounds K} {t : Fin n → Bounds K} {i : Fin n} (h : BadN (t i).l) : BadN (sumB R z t).l :=
  sum_absorb R (P := fun B => BadN B.l) (fun _ _ h => badN_add h) h
theorem lower_badP {z : Bounds K} {t : Fin n → Bounds K} {i : Fin n} (h : BadP (t i).l) : BadP (sumB R z t).l :=
  sum_absorb R (P := fun B => BadP B.l) (fun _ _ h => badP_add h) h
theorem upper_badN {z : Bounds K} {t : Fin n → Bounds K} {i : Fin n} (h : BadN (t i).u) : BadN (sumB R z t).u :=
  sum_absorb R (P := fun B => BadN B.u) (fun _ _ h => badN_add h) h
theorem upper_badP {z : Bounds K} {t : Fin n → Bounds K} {i : Fin n} (h : BadP (t i).u) : BadP (sumB R z t).u :=
  sum_absorb R (P := fun B => BadP B.u) (fun _ _ h => badP_add h) h

/-! Products with infinite bounds. -/

theorem infSign_badP {y : K} (h : ¬ BadP (Ext.infSign y)) : y < 0 := by
  unfold Ext.infSign BadP at h
  by_contra hc
  apply h
  by_cases h0 : 0 < y
  · simp [h0]
  · simp [h0, hc]

theorem infSign_badN {y : K} (h : ¬ BadN (Ext.infSign y)) : 0 < y := by
  unfold Ext.infSign BadN at h
  by_contra hc
  apply h
  by_cases h0 : y < 0
  · simp [h0, hc]
  · simp [h0, hc]

theorem badP_nan : BadP (Ext.nan : Ext K) := Or.inr rfl
theorem badN_nan : BadN (Ext.nan : Ext K) := Or.inr rfl
theorem badP_inf : BadP (Ext.pinf : Ext K) := Or.inl rfl
theorem badN_inf : BadN (Ext.ninf : Ext K) := Or.inl rfl

theorem lt_nan (a : Ext K) : Ext.lt a .nan = false := by cases a <;> rfl
theorem nan_lt (a : Ext K) : Ext.lt .nan a = false := by cases a <;> rfl

theorem mul_badP {Z X : Bounds K} {x : K} (hl : BadP Z.l) (hu : BadP Z.u) (hx : X.Contains x) :
    (¬ BadP (Bounds.mul R Z X).u → x ≤ 0) ∧ (¬ BadN (Bounds.mul R Z X).l → 0 ≤ x) := by
  obtain ⟨a, b⟩ := Z
  obtain ⟨c, d⟩ := X
  obtain ⟨h1, h2⟩ := hx
  simp only at hl hu h1 h2
  unfold Bounds.mul
  rcases hl with rfl | rfl <;> rcases hu with rfl | rfl <;> cases c <;> cases d <;>
    simp only [IsLower, IsUpper] at h1 h2 <;>
    simp only [Ext.le, Ext.mul, Ext.min, Ext.max, lt_nan, nan_lt, decide_eq_true_eq, Bool.false_eq_true, if_false,
      if_true] <;>
    (try simp only [Ext.lt, decide_eq_true_eq, Bool.false_eq_true, if_false, if_true]) <;>
    (try split_ifs) <;> constructor <;> intro h <;>
    first
      | exact absurd badP_nan h
      | exact absurd badN_nan h
      | exact absurd badP_inf h
      | exact absurd badN_inf h
      | (have := infSign_badP h; linarith)
      | (have := infSign_badN h; linarith)

theorem mul_badN {Z X : Bounds K} {x : K} (hl : BadN Z.l) (hu : BadN Z.u) (hx : X.Contains x) :
    (¬ BadP (Bounds.mul R Z X).u → 0 ≤ x) ∧ (¬ BadN (Bounds.mul R Z X).l → x ≤ 0) := by
  obtain ⟨a, b⟩ := Z
  obtain ⟨c, d⟩ := X
  obtain ⟨h1, h2⟩ := hx
  simp only at hl hu h1 h2
  unfold Bounds.mul
  rcases hl with rfl | rfl <;> rcases hu with rfl | rfl <;> cases c <;> cases d <;>
    simp only [IsLower, IsUpper] at h1 h2 <;>
    simp only [Ext.le, Ext.mul, Ext.min, Ext.max, lt_nan, nan_lt, decide_eq_true_eq, Bool.false_eq_true, if_false,
      if_true] <;>
    (try simp only [Ext.lt, decide_eq_true_eq, Bool.false_eq_true, if_false, if_true]) <;>
    (try split_ifs) <;> constructor <;> intro h <;>
    first
      | exact absurd badP_nan h
      | exact absurd badN_nan h
      | exact absurd badP_inf h
      | exact absurd badN_inf h
      | (have := infSign_badP h; linarith)
      | (have := infSign_badN h; linarith)

end Verif.LinearProgram
