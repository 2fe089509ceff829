import Verif.Chebyshev.Model
import Verif.Complex.Props
import Mathlib.Analysis.SpecialFunctions.Trigonometric.Chebyshev.RootsExtrema

/-!
# What the terms of a Chebyshev polynomial denote
-/

namespace Verif.Chebyshev

open Verif.Complex (Arith Sound)
open Verif.Expansion (Terms)

/-- The value of the Chebyshev polynomial of degree `n`. -/
noncomputable def cheb (n : ℕ) (y : ℝ) : ℝ := (Polynomial.Chebyshev.T ℝ n).eval y

theorem cheb_zero (y : ℝ) : cheb 0 y = 1 := by simp [cheb]
theorem cheb_one (y : ℝ) : cheb 1 y = y := by simp [cheb]
theorem cheb_add_two (n : ℕ) (y : ℝ) : cheb (n + 2) y = 2 * y * cheb (n + 1) y - cheb n y := by
  have := congrArg (Polynomial.eval y) (Polynomial.Chebyshev.T_add_two ℝ n)
  simp only [cheb]
  push_cast
  rw [this]
  simp
theorem cheb_abs_le (n : ℕ) {y : ℝ} (h : |y| ≤ 1) : |cheb n y| ≤ 1 :=
  Polynomial.Chebyshev.abs_eval_T_real_le_one n h
theorem cheb_mul (m n : ℕ) (y : ℝ) :
    2 * cheb m y * cheb n y = cheb (m + n) y + cheb ((m - n) + (n - m)) y := by
  have := congrArg (Polynomial.eval y) (Polynomial.Chebyshev.T_mul_T ℝ m n)
  have e : Polynomial.Chebyshev.T ℝ ((m : ℤ) - n) = Polynomial.Chebyshev.T ℝ (((m - n) + (n - m) : ℕ) : ℤ) := by
    rw [← Polynomial.Chebyshev.T_natAbs]
    congr 2
    omega
  rw [e] at this
  simp only [cheb]
  push_cast at this ⊢
  simpa using this

variable {I X P : Type*} {A : Arith X} {E E' : X → ℝ → Prop} {b : I → P → ℝ}

/-- The terms denote the function `f`: the coefficients represent numbers with which `f` is the combination of the basis
functions `b i`. -/
def Denotes (E : X → ℝ → Prop) (b : I → P → ℝ) : Terms I X → (P → ℝ) → Prop
  | [], f => ∀ x, f x = 0
  | t :: ts, f => ∃ c g, E t.2 c ∧ Denotes E b ts g ∧ ∀ x, f x = c * b t.1 x + g x

theorem Denotes.congr : ∀ {ts : Terms I X} {f g : P → ℝ}, Denotes E b ts f → (∀ x, g x = f x) → Denotes E b ts g
  | [], _, _, h, e => fun x => (e x).trans (h x)
  | _ :: _, _, _, ⟨c, g, hc, hg, h⟩, e => ⟨c, g, hc, hg, fun x => (e x).trans (h x)⟩

theorem denotes_nil : Denotes E b [] (fun _ => 0) := fun _ => rfl

theorem denotes_append : ∀ {l1 l2 : Terms I X} {f : P → ℝ}, Denotes E b (l1 ++ l2) f ↔
    ∃ f1 f2, Denotes E b l1 f1 ∧ Denotes E b l2 f2 ∧ ∀ x, f x = f1 x + f2 x
  | [], l2, f => by
    constructor
    · intro h; exact ⟨fun _ => 0, f, fun _ => rfl, h, fun x => by simp⟩
    · rintro ⟨f1, f2, h1, h2, h⟩
      exact h2.congr fun x => by rw [h x, h1 x]; simp
  | t :: l1, l2, f => by
    constructor
    · rintro ⟨c, g, hc, hg, h⟩
      obtain ⟨f1, f2, h1, h2, h3⟩ := denotes_append.1 hg
      exact ⟨_, f2, ⟨c, f1, hc, h1, fun _ => rfl⟩, h2, fun x => by rw [h x, h3 x]; ring⟩
    · rintro ⟨f1, f2, ⟨c, g, hc, hg, h1⟩, h2, h⟩
      exact ⟨c, _, hc, denotes_append.2 ⟨g, f2, hg, h2, fun _ => rfl⟩, fun x => by rw [h x, h1 x]; ring⟩

/-- a change of basis by a common factor -/
theorem Denotes.factor {b' : I → P → ℝ} {w : P → ℝ} : ∀ {ts : Terms I X} {f : P → ℝ}, Denotes E b ts f →
    (∀ t ∈ ts, ∀ x, b t.1 x = w x * b' t.1 x) → ∃ f', Denotes E b' ts f' ∧ ∀ x, f x = w x * f' x
  | [], f, h, _ => ⟨fun _ => 0, fun _ => rfl, fun x => by rw [h x]; simp⟩
  | t :: ts, f, ⟨c, g, hc, hg, h⟩, hb => by
    obtain ⟨g', hg', e⟩ := hg.factor fun s hs => hb s (List.mem_cons_of_mem _ hs)
    exact ⟨_, ⟨c, g', hc, hg', fun _ => rfl⟩, fun x => by rw [h x, e x, hb t List.mem_cons_self x]; ring⟩

/-- a change of indices and coefficients -/
theorem Denotes.map {J : Type*} {b' : J → P → ℝ} {φ : I × X → J × X} {s : ℝ} {w : P → ℝ}
    (hs : ∀ t c, E t.2 c → E (φ t).2 (s * c)) : ∀ {ts : Terms I X} {f : P → ℝ}, Denotes E b ts f →
    (∀ t ∈ ts, ∀ x, b' (φ t).1 x = w x * b t.1 x) → Denotes E b' (ts.map φ) (fun x => s * (w x * f x))
  | [], f, h, _ => fun x => by simp only []; rw [h x]; simp
  | t :: ts, f, ⟨c, g, hc, hg, h⟩, hb =>
    ⟨s * c, _, hs t c hc, hg.map hs fun s hs => hb s (List.mem_cons_of_mem _ hs), fun x => by
      simp only []; rw [h x, hb t List.mem_cons_self x]; ring⟩

theorem mergeWith_denotes [DecidableEq I] (h : Sound A E E') (less : I → I → Bool) (i1 : I) (a1 : X) (r1 : Terms I X)
    (F : Terms I X → Terms I X)
    (hF : ∀ l2 g1 g2, Denotes E b r1 g1 → Denotes E b l2 g2 → Denotes E b (F l2) (fun x => g1 x + g2 x)) :
    ∀ (l2 : Terms I X) (f1 f2 : P → ℝ), Denotes E b ((i1, a1) :: r1) f1 → Denotes E b l2 f2 →
      Denotes E b (mergeWith A less i1 a1 r1 F l2) (fun x => f1 x + f2 x)
  | [], f1, f2, h1, h2 => h1.congr fun x => by rw [h2 x]; simp
  | (i2, a2) :: r2, f1, f2, h1, h2 => by
    unfold mergeWith
    by_cases he : i1 = i2
    · obtain ⟨c1, g1, hc1, hg1, e1⟩ := h1
      obtain ⟨c2, g2, hc2, hg2, e2⟩ := h2
      rw [if_pos he]
      subst he
      exact ⟨_, _, h.add hc1 hc2, hF r2 g1 g2 hg1 hg2, fun x => by simp only []; rw [e1 x, e2 x]; ring⟩
    · rw [if_neg he]
      by_cases hl : less i1 i2 = true
      · rw [if_pos hl]
        obtain ⟨c1, g1, hc1, hg1, e1⟩ := h1
        exact ⟨_, _, hc1, hF _ g1 f2 hg1 h2, fun x => by simp only []; rw [e1 x]; ring⟩
      · rw [if_neg hl]
        obtain ⟨c2, g2, hc2, hg2, e2⟩ := h2
        exact ⟨_, _, hc2, mergeWith_denotes h less i1 a1 r1 F hF r2 f1 g2 h1 hg2,
          fun x => by simp only []; rw [e2 x]; ring⟩

theorem add_denotes [DecidableEq I] (h : Sound A E E') (less : I → I → Bool) : ∀ (l1 l2 : Terms I X) (f1 f2 : P → ℝ),
    Denotes E b l1 f1 → Denotes E b l2 f2 → Denotes E b (add A less l1 l2) (fun x => f1 x + f2 x)
  | [], l2, f1, f2, h1, h2 => h2.congr fun x => by rw [h1 x]; simp
  | (i1, a1) :: r1, l2, f1, f2, h1, h2 =>
    mergeWith_denotes h less i1 a1 r1 (add A less r1) (fun l g1 g2 => add_denotes h less r1 l g1 g2) l2 f1 f2 h1 h2

/-- the indices of a sum are those of the summands -/
theorem mergeWith_indices [DecidableEq I] {less : I → I → Bool} {i1 : I} {a1 : X} {r1 : Terms I X}
    {F : Terms I X → Terms I X} {p : I → Prop} (h1 : p i1) (hr : ∀ t ∈ r1, p t.1)
    (hF : ∀ l2 : Terms I X, (∀ t ∈ l2, p t.1) → ∀ t ∈ F l2, p t.1) :
    ∀ l2 : Terms I X, (∀ t ∈ l2, p t.1) → ∀ t ∈ mergeWith A less i1 a1 r1 F l2, p t.1
  | [], _ => by
    intro t ht
    simp only [mergeWith, List.mem_cons] at ht
    rcases ht with rfl | ht
    · exact h1
    · exact hr t ht
  | (i2, a2) :: r2, h2 => by
    have h2' : ∀ t ∈ r2, p t.1 := fun t ht => h2 t (List.mem_cons_of_mem _ ht)
    intro t ht
    unfold mergeWith at ht
    by_cases he : i1 = i2
    · rw [if_pos he, List.mem_cons] at ht
      rcases ht with rfl | ht
      · exact h1
      · exact hF r2 h2' t ht
    · rw [if_neg he] at ht
      by_cases hl : less i1 i2 = true
      · rw [if_pos hl, List.mem_cons] at ht
        rcases ht with rfl | ht
        · exact h1
        · exact hF _ h2 t ht
      · rw [if_neg hl, List.mem_cons] at ht
        rcases ht with rfl | ht
        · exact h2 _ List.mem_cons_self
        · exact mergeWith_indices h1 hr hF r2 h2' t ht

theorem add_indices [DecidableEq I] {less : I → I → Bool} {p : I → Prop} : ∀ {l1 l2 : Terms I X}, (∀ t ∈ l1, p t.1) →
    (∀ t ∈ l2, p t.1) → ∀ t ∈ add A less l1 l2, p t.1
  | [], _, _, h2 => h2
  | (_, _) :: _, _, h1, h2 =>
    mergeWith_indices (h1 _ List.mem_cons_self) (fun t ht => h1 t (List.mem_cons_of_mem _ ht))
      (fun _ hl => add_indices (fun t ht => h1 t (List.mem_cons_of_mem _ ht)) hl) _ h2

/-! ## Strictly sorted terms of one variable -/

/-- the indices increase strictly (`SortedExpansion<UniIndex,X,IndexLess>`) -/
def Sorted (ts : Terms ℕ X) : Prop := ts.Pairwise fun s t => s.1 < t.1

theorem mergeWith_sorted {i1 : ℕ} {a1 : X} {r1 : Terms ℕ X} {F : Terms ℕ X → Terms ℕ X}
    (h1 : Sorted ((i1, a1) :: r1)) (hF : ∀ l2 : Terms ℕ X, Sorted l2 → Sorted (F l2))
    (hi : ∀ (p : ℕ → Prop) (l2 : Terms ℕ X), (∀ t ∈ r1, p t.1) → (∀ t ∈ l2, p t.1) → ∀ t ∈ F l2, p t.1) :
    ∀ l2 : Terms ℕ X, Sorted l2 → Sorted (mergeWith A Uni.less i1 a1 r1 F l2)
  | [], _ => h1
  | (i2, a2) :: r2, h2 => by
    have h1' := List.pairwise_cons.1 h1
    have h2' := List.pairwise_cons.1 h2
    unfold mergeWith
    by_cases he : i1 = i2
    · rw [if_pos he]
      exact List.pairwise_cons.2 ⟨hi (fun j => i1 < j) r2 h1'.1 (fun t ht => he ▸ h2'.1 t ht), hF r2 h2'.2⟩
    · rw [if_neg he]
      by_cases hl : Uni.less i1 i2 = true
      · rw [if_pos hl]
        have hl' : i1 < i2 := by simpa [Uni.less] using hl
        refine List.pairwise_cons.2 ⟨hi (fun j => i1 < j) _ h1'.1 ?_, hF _ h2⟩
        intro t ht
        rcases List.mem_cons.1 ht with rfl | ht
        · exact hl'
        · exact hl'.trans (h2'.1 t ht)
      · rw [if_neg hl]
        have hl' : i2 < i1 := by
          have : ¬ i1 < i2 := by simpa [Uni.less] using hl
          omega
        refine List.pairwise_cons.2 ⟨?_, mergeWith_sorted h1 hF hi r2 h2'.2⟩
        exact mergeWith_indices (p := fun j => i2 < j) hl' (fun t ht => hl'.trans (h1'.1 t ht))
          (fun l hl t ht => hi (fun j => i2 < j) l (fun s hs => hl'.trans (h1'.1 s hs)) hl t ht) r2 h2'.1

theorem add_sorted : ∀ {l1 l2 : Terms ℕ X}, Sorted l1 → Sorted l2 → Sorted (add A Uni.less l1 l2)
  | [], _, _, h2 => h2
  | (_, _) :: _, _, h1, h2 =>
    mergeWith_sorted h1 (fun _ hl => add_sorted (List.pairwise_cons.1 h1).2 hl)
      (fun _ _ hr hl => add_indices hr hl) _ h2

/-! ## Buffers -/

/-- The buffer denotes `S`: the sum of what its places denote, place `j` times `w (i+j)`. -/
def DenBuf {α : Type*} (D : α → (P → ℝ) → Prop) (w : ℕ → P → ℝ) : ℕ → List α → (P → ℝ) → Prop
  | _, [], S => ∀ x, S x = 0
  | i, β :: bs, S => ∃ f g, D β f ∧ DenBuf D w (i + 1) bs g ∧ ∀ x, S x = w i x * f x + g x

theorem DenBuf.congr {α : Type*} {D : α → (P → ℝ) → Prop} {w : ℕ → P → ℝ} : ∀ {i : ℕ} {buf : List α} {S S' : P → ℝ},
    DenBuf D w i buf S → (∀ x, S' x = S x) → DenBuf D w i buf S'
  | _, [], _, _, h, e => fun x => (e x).trans (h x)
  | _, _ :: _, _, _, ⟨f, g, hf, hg, h⟩, e => ⟨f, g, hf, hg, fun x => (e x).trans (h x)⟩

theorem denBuf_replicate {α : Type*} {D : α → (P → ℝ) → Prop} {w : ℕ → P → ℝ} {z : α} (hz : D z fun _ => 0) :
    ∀ (n i : ℕ), DenBuf D w i (List.replicate n z) (fun _ => 0)
  | 0, _ => fun _ => rfl
  | n + 1, i => by
    rw [List.replicate_succ]
    exact ⟨_, _, hz, denBuf_replicate hz n (i + 1), fun x => by simp⟩

theorem denBuf_modify {α : Type*} {D : α → (P → ℝ) → Prop} {w : ℕ → P → ℝ} {op : α → α → α} {p : α} {f : P → ℝ}
    (hop : ∀ β g, D β g → D (op β p) (fun x => g x + f x)) :
    ∀ (buf : List α) (i j : ℕ) (S : P → ℝ), j < buf.length → DenBuf D w i buf S →
      DenBuf D w i (buf.modify j fun β => op β p) (fun x => S x + w (i + j) x * f x)
  | [], _, _, _, hj, _ => by simp at hj
  | β :: bs, i, 0, S, _, ⟨g, g', hg, hg', e⟩ =>
    ⟨_, g', hop β g hg, hg', fun x => by simp only [Nat.add_zero]; rw [e x]; ring⟩
  | β :: bs, i, j + 1, S, hj, ⟨g, g', hg, hg', e⟩ => by
    have := denBuf_modify hop bs (i + 1) j g' (by simpa using hj) hg'
    refine ⟨g, _, hg, this, fun x => ?_⟩
    simp only []
    rw [e x, show i + 1 + j = i + (j + 1) by omega]; ring

theorem denBuf_add {α : Type*} {D : α → (P → ℝ) → Prop} {w : ℕ → P → ℝ} {op : α → α → α} {p : α} {f : P → ℝ}
    (hop : ∀ β g, D β g → D (op β p) (fun x => g x + f x)) {buf buf' : List α} {i j : ℕ} {S : P → ℝ}
    (hb : bufAdd op buf j p = some buf') (h : DenBuf D w i buf S) :
    DenBuf D w i buf' (fun x => S x + w (i + j) x * f x) := by
  unfold bufAdd at hb
  by_cases hj : j < buf.length
  · rw [if_pos hj] at hb
    rw [← Option.some.inj hb]
    exact denBuf_modify hop buf i j S hj h
  · rw [if_neg hj] at hb; cases hb

theorem bufAdd_length {α : Type*} {op : α → α → α} {buf buf' : List α} {j : ℕ} {p : α}
    (hb : bufAdd op buf j p = some buf') : buf'.length = buf.length := by
  unfold bufAdd at hb
  by_cases hj : j < buf.length
  · rw [if_pos hj] at hb
    rw [← Option.some.inj hb, List.length_modify]
  · rw [if_neg hj] at hb; cases hb

theorem bufAdd_isSome {α : Type*} (op : α → α → α) {buf : List α} {j : ℕ} (p : α) (h : j < buf.length) :
    ∃ buf', bufAdd op buf j p = some buf' ∧ buf'.length = buf.length := by
  have : bufAdd op buf j p = some (buf.modify j fun b => op b p) := by unfold bufAdd; rw [if_pos h]
  exact ⟨_, this, bufAdd_length this⟩

end Verif.Chebyshev
