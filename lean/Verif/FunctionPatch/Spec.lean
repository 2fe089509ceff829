import Verif.FunctionPatch.Model

/-!
# Function patches: specification

A function patch stands for all functions which, on the domain, differ from its polynomial in the
scaled variables by at most its error.
-/

namespace Verif.FunctionPatch

open Ariadne (Rounding XRounding Bounds Ext)
open Ariadne.Rounding
open Verif.Expansion
open Verif.TaylorModel

variable {K : Type*} [Field K] [LinearOrder K] [IsStrictOrderedRing K]

/-- The point of the box `d` with coordinates `s` in the unit box. -/
def scalePt (d : Dom K) (s : List K) : List K :=
  List.zipWith (fun (i : K × K) y => (i.1 + i.2) / 2 + (i.2 - i.1) / 2 * y) d s

/-- The points of a box. -/
def InDom (d : Dom K) (x : List K) : Prop :=
  List.Forall₂ (fun (i : K × K) y => i.1 ≤ y ∧ y ≤ i.2) d x

/-- No interval is empty. -/
def Proper (d : Dom K) : Prop := ∀ i ∈ d, i.1 ≤ i.2

/-- The patch represents the function: on the domain, the function is within the error of the
polynomial in the scaled variables. -/
def SPatch.Represents (f : SPatch K) (F : List K → K) : Prop :=
  ∀ s, InBox f.dom.length s →
    |F (scalePt f.dom s) - value (monomial s) f.model.terms| ≤ f.model.err

/-- A vector patch represents a list of functions. -/
def VPatch.Represents (f : VPatch K) (F : List (List K → K)) : Prop :=
  List.Forall₂ (fun t G => SPatch.Represents ⟨f.dom, t⟩ G) f.models F

/-- The terms are in canonical form for the dimension of the domain. -/
def SPatch.Ok (f : SPatch K) : Prop := Canon f.dom.length f.model

/-- The terms are in canonical form for the dimension of the domain. -/
def VPatch.Ok (f : VPatch K) : Prop := ∀ t ∈ f.models, Canon f.dom.length t

theorem SPatch.Represents.encloses {f : SPatch K} {F : List K → K} (h : f.Represents F) :
    Encloses f.dom.length f.model (fun s => F (scalePt f.dom s)) := h

/-! ## Points -/

theorem scalePt_length {d : Dom K} {s : List K} (h : s.length = d.length) :
    (scalePt d s).length = d.length := by simp [scalePt, h]

/-- Scaling the unit box gives points of a proper box. -/
theorem scalePt_inDom {d : Dom K} (hd : Proper d) {s : List K} (hs : InBox d.length s) :
    InDom d (scalePt d s) := by
  obtain ⟨h1, h2⟩ := hs
  unfold InDom scalePt
  induction d generalizing s with
  | nil => simp
  | cons i d ih =>
    cases s with
    | nil => simp at h1
    | cons y s =>
      simp only [List.zipWith_cons_cons, List.forall₂_cons]
      refine ⟨?_, ih (fun j hj => hd j (by simp [hj])) (by simpa using h1)
        (fun z hz => h2 z (by simp [hz]))⟩
      have hi := hd i (by simp)
      have hy := abs_le.1 (h2 y (by simp))
      constructor <;> nlinarith [hy.1, hy.2]

/-- The coordinates of a point of the box. -/
def unscalePt (d : Dom K) (x : List K) : List K :=
  List.zipWith (fun (i : K × K) y => if i.1 = i.2 then 0 else (y - med i) / rad i) d x

theorem unscale_mem {i : K × K} {y : K} (h : i.1 ≤ y ∧ y ≤ i.2) :
    |if i.1 = i.2 then 0 else (y - med i) / rad i| ≤ 1 := by
  split_ifs with e
  · simp
  · have hr : 0 < rad i := by
      have := lt_of_le_of_ne (h.1.trans h.2) e
      unfold rad; linarith
    rw [abs_div, abs_of_pos hr, div_le_one hr, abs_le]
    unfold med rad
    constructor <;> linarith [h.1, h.2]

theorem unscale_scale {i : K × K} {y : K} (h : i.1 ≤ y ∧ y ≤ i.2) :
    (i.1 + i.2) / 2 + (i.2 - i.1) / 2 * (if i.1 = i.2 then 0 else (y - med i) / rad i) = y := by
  split_ifs with e
  · rw [e] at h ⊢
    have := le_antisymm h.2 h.1
    rw [this]; ring
  · have hr : rad i ≠ 0 := by
      have := lt_of_le_of_ne (h.1.trans h.2) e
      unfold rad; intro h0; linarith
    change med i + rad i * _ = y
    rw [mul_div_cancel₀ _ hr]; ring

/-- Every point of the box is obtained by scaling a point of the unit box. -/
theorem unscalePt_spec {d : Dom K} {x : List K} (hx : InDom d x) :
    InBox d.length (unscalePt d x) ∧ scalePt d (unscalePt d x) = x := by
  unfold InDom at hx
  unfold unscalePt scalePt InBox
  induction hx with
  | nil => simp
  | cons h hx ih =>
    obtain ⟨⟨h1, h2⟩, h3⟩ := ih
    simp only [List.zipWith_cons_cons, List.length_cons, List.mem_cons]
    refine ⟨⟨by rw [h1], ?_⟩, ?_⟩
    · rintro z (rfl | hz)
      · exact unscale_mem h
      · exact h2 z hz
    · rw [h3, unscale_scale h]

/-- The representation says something about every point of the domain. -/
theorem SPatch.Represents.at {f : SPatch K} {F : List K → K} (h : f.Represents F) {x : List K}
    (hx : InDom f.dom x) :
    |F x - value (monomial (unscalePt f.dom x)) f.model.terms| ≤ f.model.err := by
  obtain ⟨h1, h2⟩ := unscalePt_spec hx
  have := h _ h1
  rwa [h2] at this

/-- Only the values on the domain matter. -/
theorem SPatch.Represents.congr {f : SPatch K} {F G : List K → K} (hd : Proper f.dom)
    (h : f.Represents F) (he : ∀ x, InDom f.dom x → F x = G x) : f.Represents G := by
  intro s hs
  rw [← he _ (scalePt_inDom hd hs)]
  exact h s hs

end Verif.FunctionPatch
