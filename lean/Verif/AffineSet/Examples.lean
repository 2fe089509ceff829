import Verif.AffineSet.Props
import Verif.Affine.Examples
import Verif.LinearProgram.Examples

/-!
# Affine constrained image sets: counterexamples and cases
-/

namespace Verif.AffineSet

open Ariadne (Ext Bounds XRounding Rounding IsLower IsUpper)
open Ariadne.Ext (fin)
open Verif.Affine (AM Encl Unit mk)
open Verif.TaylorModel (Num exactRounding)
open Verif.LinearProgram (Iter steps)
open Verif.Grid (Cell Paving gridMap)
open Verif.ConstraintSolver (Box Mem)

local notation "XQ" => XRounding.ofRounding (exactRounding (K := ℚ))
local notation "RQ" => (exactRounding (K := ℚ))

/-- The points `p` in `[-1,1]` for which the constraint holds. -/
def line (c : Con 1 ℚ) : ASet 1 1 1 ℚ := ofModels (fun _ => (-1, 1)) (fun _ => mk 1 0 [1] 0) fun _ => c

/-- The bounds `[l,u]`. -/
def bd (l u : ℚ) : Bounds ℚ := ⟨fin l, fin u⟩

/-- The constraint `1/2<=0±1<=1`. -/
def uncertain : Con 1 ℚ := ⟨mk 1 0 [0] 1, bd (1 / 2) (1 / 2), bd 1 1⟩

/-- The constraint `c<=1/4<=1`, where `c` is a number in `[0,1]`. -/
def between : Con 1 ℚ := ⟨mk 1 (1 / 4) [0] 0, bd 0 1, bd 1 1⟩

/-- Steps with the multiplier one for the constraint. -/
def mult : ℕ → Iter 2 3 ℚ := steps .indeterminate (fun _ => 0) fun i => if i = 1 then fin 1 else fin 0

theorem uncertain_describes : Describes (line uncertain) (fun _ p => p 0) (fun _ _ => 1) := by
  refine ⟨fun i z _ => ?_, fun i z _ => ?_⟩
  · simp [line, ofModels, mk, AM.at]
  · simp [line, ofModels, uncertain, mk, AM.at]

theorem zero_mem : (fun _ => 0) ∈ points (line uncertain) (fun _ p => p 0) (fun _ _ => 1) :=
  ⟨fun _ => 0, Affine.unit_zero, fun _ => ⟨show (1 / 2 : ℚ) ≤ 1 by norm_num, le_refl (1 : ℚ)⟩, rfl⟩

/-- **C80** fails for `separated`: the error of the model of a constraint is ignored.  The constraint holds for a function
which the model encloses, but the set is said to be separated from a box which it meets, and to be empty. -/
theorem C80_separated_error : Describes (line uncertain) (fun _ p => p 0) (fun _ _ => 1) ∧
    (fun _ => 0) ∈ points (line uncertain) (fun _ p => p 0) (fun _ _ => 1) ∧
    Mem (fun _ : Fin 1 => bd (-1) 1) (fun _ => 0) ∧
    separated XQ 0 (line uncertain) (fun _ => bd (-1) 1) mult = some (some true) ∧
    isEmpty RQ XQ 0 (line uncertain) mult = some (some true) := by
  refine ⟨uncertain_describes, zero_mem, fun _ => ⟨?_, ?_⟩, by decide +kernel, by decide +kernel⟩
  · show (-1 : ℚ) ≤ 0; norm_num
  · show (0 : ℚ) ≤ 1; norm_num

/-- **C80** fails for outer approximations: the same set, which is not empty, has an empty outer approximation. -/
theorem C80_outer_error :
    outerApproximation RQ XQ (fun _ => 0) (fun _ => 1) 5 (line uncertain) (fun _ => mult) 1 5 =
      some (Paving.init false) ∧
    (fun _ => 0) ∈ points (line uncertain) (fun _ p => p 0) (fun _ _ => 1) :=
  ⟨by decide +kernel, zero_mem⟩

/-- **C80** fails for `separated`: of an uncertain bound only the middle is used. -/
theorem C80_separated_bounds : Describes (line between) (fun _ p => p 0) (fun _ _ => 1 / 4) ∧
    (fun _ => 0) ∈ points (line between) (fun _ p => p 0) (fun _ _ => 1 / 4) ∧
    Mem (fun _ : Fin 1 => bd (-1) 1) (fun _ => 0) ∧
    separated XQ 0 (line between) (fun _ => bd (-1) 1) mult = some (some true) := by
  refine ⟨⟨fun i z _ => ?_, fun i z _ => ?_⟩,
    ⟨fun _ => 0, Affine.unit_zero, fun _ => ⟨show (0 : ℚ) ≤ 1 / 4 by norm_num, show (1 / 4 : ℚ) ≤ 1 by norm_num⟩, rfl⟩,
    fun _ => ⟨?_, ?_⟩, by decide +kernel⟩
  · simp [line, ofModels, mk, AM.at]
  · simp [line, ofModels, between, mk, AM.at]
  · show (-1 : ℚ) ≤ 0; norm_num
  · show (0 : ℚ) ≤ 1; norm_num

theorem box_eq {S : ASet 1 1 0 ℚ} {l u : ℚ} (h : (boundingBox RQ S).map (fun b => ((b 0).l, (b 0).u)) = some (l, u)) :
    boundingBox RQ S = some fun _ => ⟨l, u⟩ := by
  obtain ⟨b, hb, e⟩ := Option.map_eq_some_iff.1 h
  rw [hb]
  congr 1
  funext i
  obtain rfl : i = 0 := Subsingleton.elim _ _
  cases h0 : b 0
  simp_all

/-- **C80** fails for the constructor from a matrix: the domain is ignored.  The point `2` belongs to `{y | y in [0,2]}`,
but not to the bounding box. -/
theorem C80_domain_ignored : boundingBox RQ (ofMatrix (fun _ => ((0 : ℚ), 2)) (fun (_ : Fin 1) (_ : Fin 1) => 1) fun _ => 0) =
    some fun _ => ⟨-1, 1⟩ := box_eq (by decide +kernel)

/-- **C80** fails for the constructor from affine functions: the functions are ignored unless the domain is the unit box.
The set `{1+s | s in [0,1]}` has the bounding box `{0}`. -/
theorem C80_affine_functions_ignored : ∃ S, ofAffines RQ (fun _ => ((0 : ℚ), 1)) (fun _ : Fin 1 => Num.exact 1)
    (fun _ (_ : Fin 1) => Num.exact 1) = some S ∧ boundingBox RQ S = some fun _ => ⟨0, 0⟩ := by
  refine ⟨⟨fun _ => (0, 1), fun _ => Affine.zero 1, Fin.elim0⟩, ?_, box_eq (by decide +kernel)⟩
  unfold ofAffines
  rw [if_neg]
  intro h
  have := h 0
  simp at this

/-- **C80** fails for the constructor from a box with balls as end points: the error of the upper end point is ignored.
The interval `[0,1±1]` may contain `2`, but the range of the model is `[-1/2,3/2]`. -/
theorem C80_ball_error : (ofBalls RQ id (fun _ : Fin 1 => ((0, 0), ((1 : ℚ), 1))) 0).bind
    (fun a => (Affine.range RQ a).map fun b => (b.l, b.u)) = some (-1 / 2, 3 / 2) := by decide +kernel

/-! ## Cases -/

/-- The constraint `1/2<=p<=1`. -/
def half : Con 1 ℚ := ⟨mk 1 0 [1] 0, bd (1 / 2) (1 / 2), bd 1 1⟩

theorem half_sharp : Sharp XQ (line half) := fun i => ⟨rfl, by revert i; decide +kernel, by revert i; decide +kernel⟩

theorem half_describes : Describes (line half) (fun _ p => p 0) (fun _ p => p 0) := by
  refine ⟨fun i z _ => ?_, fun i z _ => ?_⟩
  · simp [line, ofModels, mk, AM.at]
  · simp [line, ofModels, half, mk, AM.at]

/-- Multipliers for `x=p` and `1/2<=p`. -/
def mults : ℕ → Iter 2 3 ℚ := steps .indeterminate (fun _ => 0) fun i => if i = 1 then fin 1 else fin (-1)

/-- The set `[1/2,1]` is separated from `[-1,1/4]`. -/
example : Sharp XQ (line half) ∧ Describes (line half) (fun _ p => p 0) (fun _ p => p 0) ∧
    separated XQ (1 / 16) (line half) (fun _ => bd (-1) (1 / 4)) mults = some (some true) :=
  ⟨half_sharp, half_describes, by decide +kernel⟩

/-- It is not found to be separated from `[-1,3/4]`. -/
example : separated XQ (1 / 16) (line half) (fun _ => bd (-1) (3 / 4)) mults = some none := by decide +kernel

/-- It lies inside `[-2,2]`, but is not found to lie inside `[0,1]`. -/
example : inside RQ XQ (1 / 16) (line half) (fun _ => bd (-2) 2) = some true ∧
    inside RQ XQ (1 / 16) (line half) (fun _ => bd 0 1) = some false := ⟨by decide +kernel, by decide +kernel⟩

/-- The constraint `2<=p<=3`. -/
def far : Con 1 ℚ := ⟨mk 1 0 [1] 0, bd 2 2, bd 3 3⟩

/-- The set without points is found to be empty. -/
example : isEmpty RQ XQ (1 / 16) (line far) mult = some (some true) := by decide +kernel

/-- The outer approximation of `[1/2,1]` by cells of length one half: the cell `[-1/2,0]` does not belong to it. -/
example : (outerApproximation RQ XQ (fun _ => 0) (fun _ => 1) 5 (line half) (fun _ => mults) 1 6).map
    (fun q => (Verif.Grid.cellSubset 1 ⟨0, [true]⟩ q.sub, Verif.Grid.cellSubset 1 ⟨1, [false, true]⟩ q.sub)) =
      some (true, false) := by decide +kernel

/-- A cell of the depth asked for which is in the outer approximation. -/
example : Sharp XQ (line half) ∧ (∀ i, ∃ y, IsLower ((line half).cons i).lo.l y ∧ IsUpper ((line half).cons i).hi.u y) ∧
    Paver.depth 1 ⟨0, [true]⟩ = ((1 * 1 : ℕ) : ℤ) :=
  ⟨half_sharp, fun _ => ⟨1, show (1 / 2 : ℚ) ≤ 1 by norm_num, le_refl (1 : ℚ)⟩, by decide⟩

/-- A box to which the constructor applies. -/
example : ∃ a f, ofBox RQ (fun _ : Fin 1 => ((0 : ℚ), 2)) = some a ∧
    Describes (ofModels (fun _ => (0, 2)) a Fin.elim0) f Fin.elim0 ∧
    points (ofModels (fun _ => (0, 2)) a Fin.elim0) f Fin.elim0 = {x | ∀ _ : Fin 1, (0 : ℚ) ≤ x 0 ∧ x 0 ≤ 2} := by
  obtain ⟨a, f, h1, h2, h3⟩ := C80_of_box_partial RQ (d := fun _ : Fin 1 => ((0 : ℚ), 2)) (fun _ => trivial)
    (fun _ => trivial) (fun _ => by norm_num) (fun _ => by norm_num)
  refine ⟨a, f, h1, h2, h3.trans ?_⟩
  ext x
  simp

/-- A ball to which `C80_of_balls_partial` applies: `[1±1/2,2]`. -/
example : ∃ a, ofBalls RQ id (fun _ : Fin 1 => (((1 : ℚ), 1 / 2), ((2 : ℚ), 0))) 0 = some a ∧
    Encl a fun z => (3 / 2 + 2) / 2 + (2 - 3 / 2) / 2 * z 0 := by
  obtain ⟨a, ha⟩ := Option.isSome_iff_exists.1
    (show (ofBalls RQ id (fun _ : Fin 1 => (((1 : ℚ), 1 / 2), ((2 : ℚ), 0))) 0).isSome by decide +kernel)
  exact ⟨a, ha, C80_of_balls_partial RQ id rfl trivial trivial (by norm_num) (by norm_num) ha (l := 3 / 2)
    (by norm_num [abs_le])⟩

end Verif.AffineSet
