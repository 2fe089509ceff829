import Verif.FixedDifferential.Univariate
import Verif.Graded.Examples

/-!
# C99: numbers meeting the hypotheses, and counterexamples
-/

namespace Verif.FixedDifferential

open Filter Topology
open Ariadne Verif.Matrix
open Ariadne.Symbolic (UnOp BinOp)
open Verif.Procedure (Alg Formula Coherent compile)
open Verif.Graded (Above Away boundsG C96_bounds in_ofExact away_ofExact)

open Classical in
/-- Exact real numbers. -/
noncomputable def exactNum : Num ℝ where
  ofInt k := k
  add x y := x + y
  sub x y := x - y
  mul x y := x * y
  div x y := x / y
  neg x := -x
  hlf x := x / 2
  sqr x := x * x
  recip x := x⁻¹
  sqrt := Real.sqrt
  exp := Real.exp
  log := Real.log
  sin := Real.sin
  cos := Real.cos
  tan := Real.tan
  asin := Real.arcsin
  acos := Real.arccos
  atan := Real.arctan
  pow x m := x ^ m
  eq x y := decide (x = y)
  lt x y := decide (x < y)

/-- **C99** Exact numbers meet the hypotheses of the theorems. -/
theorem C99_exact : Sound exactNum (fun a x => a = x) (fun a => a ≠ 0) (fun a => 0 < a) ∧
    Decides exactNum fun a x => a = x := by
  refine ⟨?_, ?_⟩
  · constructor <;> intros <;> subst_vars <;> first | rfl | assumption | simp [exactNum]
  · rintro a b x y rfl rfl
    simp [exactNum]

/-- Bounds with rounded arithmetic; the elementary functions are parameters. -/
noncomputable def boundsNum (R : XRounding ℝ) (e : UnOp → Bounds ℝ → Bounds ℝ)
    (pw : Bounds ℝ → ℤ → Bounds ℝ) (eq lt : Bounds ℝ → Bounds ℝ → Bool) : Num (Bounds ℝ) where
  ofInt k := Bounds.ofExact R k
  add := Bounds.add R
  sub := Bounds.sub R
  mul := Bounds.mul R
  div := Bounds.div R
  neg := Bounds.neg
  hlf := Bounds.hlf
  sqr a := Bounds.mul R a a
  recip := Bounds.recip R
  sqrt := e .sqrt
  exp := e .exp
  log := e .log
  sin := e .sin
  cos := e .cos
  tan := e .tan
  asin := e .asin
  acos := e .acos
  atan := e .atan
  pow := pw
  eq := eq
  lt := lt

/-- **C99** Bounds with rounded operations meet the hypotheses of the theorems, with any sound elementary
functions. -/
theorem C99_bounds (R : Rounding ℝ) (e : UnOp → Bounds ℝ → Bounds ℝ) (pw : Bounds ℝ → ℤ → Bounds ℝ)
    (eq lt : Bounds ℝ → Bounds ℝ → Bool)
    (hs : ∀ b x, In b x → Above b → In (e .sqrt b) (Real.sqrt x))
    (hl : ∀ b x, In b x → Above b → In (e .log b) (Real.log x))
    (he : ∀ b x, In b x → In (e .exp b) (Real.exp x))
    (hsin : ∀ b x, In b x → In (e .sin b) (Real.sin x))
    (hcos : ∀ b x, In b x → In (e .cos b) (Real.cos x))
    (htan : ∀ b x, In b x → Away (e .cos b) → In (e .tan b) (Real.tan x))
    (hasin : ∀ b x, In b x → (|x| < 1) → In (e .asin b) (Real.arcsin x))
    (hacos : ∀ b x, In b x → (|x| < 1) → In (e .acos b) (Real.arccos x))
    (hatan : ∀ b x, In b x → In (e .atan b) (Real.arctan x))
    (hpw : ∀ b x n, In b x → 0 ≤ n ∨ Away b → In (pw b n) (x ^ n)) :
    Sound (boundsNum (XRounding.ofRounding R) e pw eq lt) In Away Above := by
  have G := C96_bounds R Unit e pw hs hl he hsin hcos fun b x n h ha => hpw b x n h (Or.inr ha)
  have hone : ∀ {a x}, In a x → Above (Bounds.sub (XRounding.ofRounding R)
      (Bounds.ofExact (XRounding.ofRounding R) ((1 : ℤ) : ℝ)) (Bounds.mul (XRounding.ofRounding R) a a)) →
      |x| < 1 := by
    intro a x h hp
    have := G.ps_pos (a := _) (f := fun _ => ((1 : ℤ) : ℝ) - x * x)
      (fun _ => in_sub R (in_ofExact R _) (in_mul R h h)) hp ()
    rw [abs_lt]
    push_cast at this
    constructor <;> nlinarith
  exact {
    ofInt := fun k => in_ofExact R k
    add := fun h h' => in_add R h h'
    sub := fun h h' => in_sub R h h'
    mul := fun h h' => in_mul R h h'
    div := fun {a b x y} h h' hz => G.div (f := fun _ => x) (g := fun _ => y) (fun _ => h) (fun _ => h') hz ()
    two := away_ofExact R (by norm_num)
    neg := fun {a x} h => G.neg (f := fun _ => x) (fun _ => h) ()
    hlf := fun {a x} h => G.hlf (f := fun _ => x) (fun _ => h) ()
    sqr := fun h => in_mul R h h
    recip := fun {a x} h hz => G.recip (f := fun _ => x) (fun _ => h) hz ()
    sqrt := fun h hp => hs _ _ h hp
    exp := fun h => he _ _ h
    log := fun h hp => hl _ _ h hp
    sin := fun h => hsin _ _ h
    cos := fun h => hcos _ _ h
    tan := fun h hz => htan _ _ h hz
    asin := fun h hp => hasin _ _ h (hone h hp)
    acos := fun h hp => hacos _ _ h (hone h hp)
    atan := fun h => hatan _ _ h
    pow := fun m h hz => hpw _ _ m h hz
    nz_ne := fun {a x} h hz => G.nz_ne (f := fun _ => x) (fun _ => h) hz ()
    ps_pos := fun {a x} h hz => G.ps_pos (f := fun _ => x) (fun _ => h) hz () }

/-! ## Counterexamples with exact numbers -/

/-- The variable itself, with value `v`. -/
theorem var_has (v : ℝ) : (Second.var exactNum v (0 : Fin 1)).Has (fun a x => a = x) (fun q => q 0) fun _ => v :=
  (C99_second_variables C99_exact.1 fun _ => v).2 v 0 rfl

theorem pd_var (p : Fin 1 → ℝ) : pd 0 (fun q : Fin 1 → ℝ => q 0) p = 1 := by
  have := (var_has (p 0)).gradient 0
  have e : (fun _ => p 0) = p := funext fun i => by fin_cases i; rfl
  rw [e] at this
  rw [← this]
  simp [Second.var, exactNum]

/-- **C99** The quotient `1/y` of first differentials at `y=1` has gradient `1` instead of `-1`. -/
theorem C99_first_quotient_wrong :
    ∃ r, First.bin exactNum .div (First.constant exactNum 1) (First.var exactNum 1 (0 : Fin 1)) = some r ∧
      r.gradient 0 = 1 ∧ ¬ r.Has (fun a x => a = x) (fun q => 1 / q 0) fun _ => 1 := by
  have V := C99_first_variables (n := 1) C99_exact.1 fun _ => 1
  obtain ⟨r, h1, h2, h3⟩ := C99_first_quotient_partial C99_exact.1 (V.1 1 1 rfl) (V.2 1 0 rfl)
    (by simp [First.var])
  cases h1
  refine ⟨_, rfl, by simp [First.bin, First.constant, First.var, exactNum], fun h => ?_⟩
  have e1 := h.gradient 0
  have e2 := h3 0
  rw [pd_var] at e2
  rw [e1] at e2
  norm_num at e2

/-- **C99** Second differentials of square roots, exponentials, logarithms, sines, cosines and tangents of
the variable are wrong at some point. -/
theorem C99_second_elementary_wrong (op : UnOp)
    (hop : op = .sqrt ∨ op = .exp ∨ op = .log ∨ op = .sin ∨ op = .cos ∨ op = .tan) :
    ∃ v r, Second.un exactNum op (Second.var exactNum v (0 : Fin 1)) = some r ∧
      ¬ r.Has (fun a x => a = x) (fun q => fn op (q 0)) fun _ => v := by
  suffices ∃ v, UnDom exactNum (fun a => a ≠ 0) (fun a => 0 < a) op v ∧ RDom op v ∧ d2 op v ≠ 0 by
    obtain ⟨v, h1, h2, h3⟩ := this
    have ha : op ≠ .abs := by rcases hop with rfl | rfl | rfl | rfl | rfl | rfl <;> simp
    have ha1 : op ≠ .asin := by rcases hop with rfl | rfl | rfl | rfl | rfl | rfl <;> simp
    have ha2 : op ≠ .acos := by rcases hop with rfl | rfl | rfl | rfl | rfl | rfl <;> simp
    obtain ⟨r, r1, -, r2⟩ := C99_second_elementary_partial C99_exact.1 (var_has v) hop h1
    refine ⟨v, r, r1, fun h => ?_⟩
    have e1 := h.half 0 0
    have e2 := r2 0 0
    rw [pd_var, deriv_fn ha ha1 ha2 h2, e1] at e2
    apply h3
    linarith
  rcases hop with rfl | rfl | rfl | rfl | rfl | rfl
  · exact ⟨1, by simp [UnDom, exactNum], by simp [RDom], by simp [d2]⟩
  · exact ⟨0, trivial, trivial, by simp [d2]⟩
  · exact ⟨1, by simp [UnDom], by simp [RDom], by simp [d2]⟩
  · exact ⟨Real.pi / 2, trivial, trivial, by simp [d2]⟩
  · exact ⟨0, trivial, trivial, by simp [d2]⟩
  · have hc : Real.cos (Real.pi / 4) ≠ 0 := by rw [Real.cos_pi_div_four]; positivity
    exact ⟨Real.pi / 4, by simpa [UnDom, exactNum] using hc, hc, by simp [d2, hc]⟩

/-- **C99** The second differential of the square of the variable has half the right second derivative. -/
theorem C99_second_square_wrong (v : ℝ) :
    ∃ r, Second.un exactNum .sqr (Second.var exactNum v (0 : Fin 1)) = some r ∧
      Second.hessian exactNum r 0 0 = 1 ∧
      ¬ r.Has (fun a x => a = x) (fun q => q 0 * q 0) fun _ => v := by
  obtain ⟨r, r1, -, r2⟩ := C99_second_square_partial C99_exact.1 (var_has v)
  cases r1
  refine ⟨_, rfl, by simp [Second.hessian, Second.var, Second.outer, exactNum], fun h => ?_⟩
  have e1 := h.half 0 0
  have e2 := r2 0 0
  rw [pd_var, e1] at e2
  linarith

/-- **C99** The second differential of the square of the variable, as a power, has second derivative zero,
although the product of the variable with itself has second derivative two. -/
theorem C99_second_power_wrong (v : ℝ) :
    Second.hessian exactNum (Second.pow exactNum (Second.var exactNum v (0 : Fin 1)) 2) 0 0 = 0 ∧
    ¬ (Second.pow exactNum (Second.var exactNum v (0 : Fin 1)) 2).Has (fun a x => a = x)
      (fun q => q 0 ^ (2 : ℤ)) (fun _ => v) ∧
    Second.hessian exactNum (Second.mul exactNum (Second.var exactNum v (0 : Fin 1)) (Second.var exactNum v 0))
      0 0 = 2 := by
  refine ⟨by simp [Second.hessian, Second.pow, Second.var, exactNum], fun h => ?_,
    by simp [Second.hessian, Second.mul, Second.var, exactNum]⟩
  have h2 := second_mul C99_exact.1 (var_has v) (var_has v)
  have e1 := h.half 0 0
  have e2 := h2.half 0 0
  have e : (fun q : Fin 1 → ℝ => q 0 ^ (2 : ℤ)) = fun q => q 0 * q 0 := funext fun q => by
    rw [zpow_ofNat, pow_two]
  rw [e, ← e2] at e1
  simp [Second.pow, Second.mul, Second.var, exactNum] at e1

/-- **C99** The coefficient of the product of two variables is given as `1/2` instead of `1`, although the
Hessian is right. -/
theorem C99_second_coefficient_wrong (v w : ℝ) :
    Second.coefficient (Second.mul exactNum (Second.var exactNum v (0 : Fin 2)) (Second.var exactNum w 1)) 0 1
      = 1 / 2 ∧
    Second.hessian exactNum (Second.mul exactNum (Second.var exactNum v (0 : Fin 2)) (Second.var exactNum w 1))
      0 1 = 1 := by
  constructor <;> simp [Second.coefficient, Second.hessian, Second.mul, Second.var, exactNum]

/-- The formula `sqr(sqr(x₀))`. -/
def fourth : Formula ℝ := .un 2 .sqr (.un 1 .sqr (.ind 0 0))

/-- The formula `pow(x₀,2)`. -/
def square : Formula ℝ := .graded 1 (.ind 0 0) 2

/-- **C99** The second derivative of `sqr(sqr(x))` at one, computed from the compiled procedure, is `10`
instead of `12`. -/
theorem C99_hessian_square_wrong (rf : Bool) :
    procHessian exactNum id (compile rf fourth) (fun _ => 1) (fun _ => 1) = some 10 ∧
    deriv (deriv fun r : ℝ => fourth.eval (realAlg id) fun _ => 1 + r * 1) 0 = 12 := by
  constructor
  · rw [procHessian, Verif.Procedure.C32_compile_partial]
    · simp [fourth, Formula.eval, USecond.alg, USecond.un, line, USecond.scalar, USecond.var,
        USecond.hessian, exactNum]
      norm_num
    · intro a ha b hb h
      simp only [fourth, Formula.nodes, Set.mem_insert_iff, Set.mem_singleton_iff] at ha hb
      rcases ha with rfl | rfl | rfl <;> rcases hb with rfl | rfl | rfl <;> simp_all [Formula.addr]
    · exact trivial
  · have e : (fun r : ℝ => fourth.eval (realAlg id) fun _ => 1 + r * 1) = fun r => (1 + r) ^ 4 :=
      funext fun r => by simp only [fourth, Formula.eval, realAlg, fn]; ring
    have e2 : deriv (fun r : ℝ => (1 + r) ^ 4) = fun r => 4 * (1 + r) ^ 3 := funext fun r => by
      have := ((hasDerivAt_id r).const_add 1).pow 4
      rw [HasDerivAt.deriv (f := fun r : ℝ => (1 + r) ^ 4) this]; simp
    have e3 := (((hasDerivAt_id (0 : ℝ)).const_add 1).pow 3).const_mul 4
    rw [e, e2, HasDerivAt.deriv (f := fun r : ℝ => 4 * (1 + r) ^ 3) e3]
    norm_num

/-- **C99** The second derivative of `pow(x,2)`, computed from the compiled procedure, is zero instead of
two. -/
theorem C99_hessian_power_wrong (rf : Bool) :
    procHessian exactNum id (compile rf square) (fun _ => 1) (fun _ => 1) = some 0 ∧
    deriv (deriv fun r : ℝ => square.eval (realAlg id) fun _ => 1 + r * 1) 0 = 2 := by
  constructor
  · rw [procHessian, Verif.Procedure.C32_compile_partial]
    · simp [square, Formula.eval, USecond.alg, USecond.pow, line, USecond.scalar, USecond.var,
        USecond.hessian, exactNum]
    · intro a ha b hb h
      simp only [square, Formula.nodes, Set.mem_insert_iff, Set.mem_singleton_iff] at ha hb
      rcases ha with rfl | rfl <;> rcases hb with rfl | rfl <;> simp_all [Formula.addr]
    · exact trivial
  · have e : (fun r : ℝ => square.eval (realAlg id) fun _ => 1 + r * 1) = fun r => (1 + r) ^ 2 :=
      funext fun r => by simp only [square, Formula.eval, realAlg]; rw [mul_one]; rfl
    have e2 : deriv (fun r : ℝ => (1 + r) ^ 2) = fun r => 2 * (1 + r) ^ 1 := funext fun r => by
      have := ((hasDerivAt_id r).const_add 1).pow 2
      rw [HasDerivAt.deriv (f := fun r : ℝ => (1 + r) ^ 2) this]; simp
    have e3 := (((hasDerivAt_id (0 : ℝ)).const_add 1).pow 1).const_mul 2
    rw [e, e2, HasDerivAt.deriv (f := fun r : ℝ => 2 * (1 + r) ^ 1) e3]
    norm_num

/-- The formula `exp(x₀)*x₁` meets the hypotheses of the theorem on Hessians. -/
def expProduct : Formula ℝ := .bin 3 .mul (.un 1 .exp (.ind 0 0)) (.ind 2 1)

example (rf : Bool) (x s : ℕ → ℝ) : ∃ H, procHessian exactNum id (compile rf expProduct) x s = some H ∧
    H = deriv (deriv fun r : ℝ => Real.exp (x 0 + r * s 0) * (x 1 + r * s 1)) 0 := by
  refine C99_hessian_partial (val := id) C99_exact.1 (fun _ => rfl) (fun _ => rfl) (fun _ => rfl) rf
    expProduct ?_ ?_
  · intro a ha b hb h
    simp only [expProduct, Formula.nodes, Set.mem_insert_iff, Set.mem_union, Set.mem_singleton_iff] at ha hb
    rcases ha with rfl | (rfl | rfl) | rfl <;> rcases hb with rfl | (rfl | rfl) | rfl <;> simp_all [Formula.addr]
  · simp [Safe, expProduct, UnDom]

end Verif.FixedDifferential
