import Verif.FunctionObject.Model

/-!
# Derivatives and Lie derivatives of function objects

Model of the derivatives of the classes of /repo/source/function/symbolic_function.hpp and of `lie_derivative`
(/repo/source/function/function.cpp 660-675).

Simplifications: as in Verif.FunctionObject.Model; the argument sizes of the sums and products which are formed are
equal by construction, and are not compared again.
-/

namespace Verif.FunctionObject

variable {K : Type} [Field K]

/-- The loop `for(k=...) { r=r+T(k); }`. -/
def sumLoop (T : ℕ → Option (SF K)) : SF K → List ℕ → Option (SF K)
  | r, [] => some r
  | r, k :: ks => (T k).bind fun s => sumLoop T (.bin .add r s) ks

/-- The derivative of a scalar function, given those of the components of vector functions: `ConstantFunction`
(symbolic_function.hpp 259-260), `CoordinateFunction` (302-304), `UnaryFunction` (333-337), `BinaryFunction` (381-386)
with the rules of the operators (numeric/operators.hpp 268, 275, 282, 289, 323, 329, 347), and `ComposedFunction`
(617-631). -/
def derivS (h : Heap K) (dg : ℕ → ℕ → ℕ → Option (SF K)) : SF K → ℕ → Option (SF K)
  | .const n _, _ => some (.const n 0)
  | .coord n i, j => some (.const n (if j = i then 1 else 0))
  | .un .pos f, j => derivS h dg f j
  | .un .neg f, j => (derivS h dg f j).map fun d => .un .neg d
  | .un .sqr f, j => (derivS h dg f j).map fun d => .bin .mul (.bin .mul (.const (argS h f) 2) f) d
  | .bin .add f g, j => (derivS h dg f j).bind fun d1 => (derivS h dg g j).map fun d2 => .bin .add d1 d2
  | .bin .sub f g, j => (derivS h dg f j).bind fun d1 => (derivS h dg g j).map fun d2 => .bin .sub d1 d2
  | .bin .mul f g, j => (derivS h dg f j).bind fun d1 => (derivS h dg g j).map fun d2 =>
      .bin .add (.bin .mul g d1) (.bin .mul f d2)
  | .bin .div f g, j => (derivS h dg f j).bind fun d1 => (derivS h dg g j).map fun d2 =>
      .bin .div (.bin .sub d1 (.bin .mul d2 (.bin .div f g))) g
  | .comp f g, j => sumLoop (fun k => (derivS h dg f k).bind fun fk => (dg g k j).map fun gk =>
      .bin .mul (.comp fk g) gk) (.const (arg h g) 0) (List.range (res h g))

/-- Derivatives of the components of vector functions, following at most `t` handles. -/
def derivC (h : Heap K) : ℕ → ℕ → ℕ → ℕ → Option (SF K)
  | 0, _, _, _ => none
  | t + 1, a, k, j => (get h a k).bind fun s => derivS h (derivC h t) s j

/-- `f.derivative(j)` of a scalar function. -/
def deriv (h : Heap K) (s : SF K) (j : ℕ) : Option (SF K) := derivS h (fun a k j => derivC h (a + 1) a k j) s j

/-- `lie_derivative` of a scalar function along a vector function (function.cpp 660-675). -/
def lie (h : Heap K) (g : SF K) (a : ℕ) : Option (SF K) :=
  if argS h g = res h a ∧ res h a = arg h a ∧ 0 < res h a then
    ((deriv h g 0).bind fun d => (get h a 0).map fun f => SF.bin .mul d f).bind fun r =>
      sumLoop (fun i => (deriv h g i).bind fun d => (get h a i).map fun f => .bin .mul d f) r
        (List.range' 1 (argS h g - 1))
  else none

end Verif.FunctionObject
