import Verif.Differential.Calculus
/-!
# C44: Taylor polynomials of flows
-/
namespace Verif.Differential
open Verif.Expansion MvPolynomial

variable {n m : Nat} {K : Type*} [Field K]

/-! ### Integration of polynomials -/

/-- The coefficient of the integral of `p` over `x_t`, from zero. -/
noncomputable def intCoeff (t : Fin n) (p : MvPolynomial (Fin n) K) (f : Fin n →₀ ℕ) : K :=
  if f t = 0 then 0 else p.coeff (f - Finsupp.single t 1) / ((f t : ℕ) : K)

theorem degree_pred {t : Fin n} {f : Fin n →₀ ℕ} (h : f t ≠ 0) :
    (f - Finsupp.single t 1).degree + 1 = f.degree := by
  have : f - Finsupp.single t 1 + Finsupp.single t 1 = f :=
    tsub_add_cancel_of_le (Finsupp.single_le_iff.2 (by omega))
  calc _ = (f - Finsupp.single t 1).degree + (Finsupp.single t 1 : Fin n →₀ ℕ).degree := by
        rw [Finsupp.degree_single]
    _ = f.degree := by rw [← map_add, this]

theorem intCoeff_congr {d : Nat} {p q : MvPolynomial (Fin n) K} (h : Cong d p q) (t : Fin n)
    {f : Fin n →₀ ℕ} (hf : f.degree ≤ d + 1) : intCoeff t p f = intCoeff t q f := by
  unfold intCoeff
  by_cases h0 : f t = 0
  · rw [if_pos h0, if_pos h0]
  · have := degree_pred h0
    rw [if_neg h0, if_neg h0, h _ (by omega)]

/-- `P` is the integral of `p` plus the terms of `X` to degree `d+1`. -/
def IsInt (d : Nat) (t : Fin n) (X p P : MvPolynomial (Fin n) K) : Prop :=
  ∀ f : Fin n →₀ ℕ, f.degree ≤ d → P.coeff f = X.coeff f + intCoeff t p f

theorem IsInt.pderiv [CharZero K] {d : Nat} {t : Fin n} {X p P : MvPolynomial (Fin n) K}
    (h : IsInt (d + 1) t X p P) : Cong d (pderiv t P) (pderiv t X + p) := by
  intro f hf
  rw [coeff_pderiv, coeff_add, coeff_pderiv, h]
  · rw [intCoeff, if_neg (by simp), add_tsub_cancel_right, add_mul]
    congr 1
    have : ((f t : K) + 1) ≠ 0 := by exact_mod_cast Nat.succ_ne_zero (f t)
    rw [Finsupp.add_apply, Finsupp.single_eq_same]
    push_cast
    exact div_mul_cancel₀ _ this
  · rw [map_add, Finsupp.degree_single]; omega

theorem IsInt.initial {d : Nat} {t : Fin n} {X p P : MvPolynomial (Fin n) K} (h : IsInt d t X p P)
    {f : Fin n →₀ ℕ} (hf : f.degree ≤ d) (h0 : f t = 0) : P.coeff f = X.coeff f := by
  rw [h f hf, intCoeff, if_pos h0, add_zero]

/-- Conversely, the derivative and the terms without `x_t` determine the polynomial. -/
theorem IsInt.of [CharZero K] {d : Nat} {t : Fin n} {X p P : MvPolynomial (Fin n) K}
    (h : Cong d (MvPolynomial.pderiv t P) (MvPolynomial.pderiv t X + p))
    (h0 : ∀ f : Fin n →₀ ℕ, f.degree ≤ d + 1 → f t = 0 → P.coeff f = X.coeff f) :
    IsInt (d + 1) t X p P := by
  intro f hf
  by_cases ht : f t = 0
  · rw [h0 f hf ht, intCoeff, if_pos ht, add_zero]
  · have hd := degree_pred ht
    have h1 := h (f - Finsupp.single t 1) (by omega)
    have h2 : f - Finsupp.single t 1 + Finsupp.single t 1 = f :=
      tsub_add_cancel_of_le (Finsupp.single_le_iff.2 (by omega))
    have h3 : (((f - Finsupp.single t 1 : Fin n →₀ ℕ) t : ℕ) : K) + 1 = ((f t : ℕ) : K) := by
      rw [Finsupp.tsub_apply, Finsupp.single_eq_same]
      exact_mod_cast congrArg (Nat.cast (R := K)) (show f t - 1 + 1 = f t by omega)
    rw [coeff_add, coeff_pderiv, coeff_pderiv, h2, h3] at h1
    rw [intCoeff, if_neg ht]
    have h4 : ((f t : ℕ) : K) ≠ 0 := by exact_mod_cast ht
    apply mul_right_cancel₀ h4
    rw [h1, add_mul, div_mul_cancel₀ _ h4]

/-! ### The iteration -/

variable [DecidableEq K]

/-- A vector of differentials whose components all have the degree of the vector. -/
structure URep (y : DVec m n K) (q : Fin m → MvPolynomial (Fin n) K) : Prop where
  comp : ∀ i, Rep (y.comp i) (q i)
  deg : ∀ i, (y.comp i).deg = y.deg

theorem URep.vrep {y : DVec m n K} {q : Fin m → MvPolynomial (Fin n) K} (h : URep y q)
    (hs : y.deg ≤ 65535) : VRep y q :=
  ⟨fun i => (h.comp i).at (by rw [h.deg i]), hs⟩

theorem composeV_spec {l : Nat} {x : DVec l m K} {y : DVec m n K} {p : Fin l → MvPolynomial (Fin m) K}
    {q : Fin m → MvPolynomial (Fin n) K} (hx : URep x p) (h1 : 1 ≤ x.deg) (hy : VRep y q) :
    ∃ r, composeV x y = some r ∧ r.deg = y.deg ∧ ∀ i, (r.comp i).deg = min x.deg y.deg ∧
      Rep (r.comp i) (bind₁ (fun j => center (q j)) (p i)) := by
  have key : ∀ i, ∃ r, (compose (x.comp i) y).1 = some r ∧ r.deg = min x.deg y.deg ∧
      Rep r (bind₁ (fun j => center (q j)) (p i)) := by
    intro i
    have := (C44_compose_partial (x.comp i) y (p i) q (hx.comp i) (by rw [hx.deg]; exact h1) hy).1
    rw [hx.deg] at this
    exact this
  have hs : ∀ i, (compose (x.comp i) y).1.isSome = true := by
    intro i
    obtain ⟨r, e, -⟩ := key i
    rw [e]; rfl
  have hg : ∀ i, ((compose (x.comp i) y).1.get (hs i)).deg = min x.deg y.deg ∧
      Rep ((compose (x.comp i) y).1.get (hs i)) (bind₁ (fun j => center (q j)) (p i)) := by
    intro i
    obtain ⟨r, e, h⟩ := key i
    have : (compose (x.comp i) y).1.get (hs i) = r := Option.get_of_eq_some (hs i) e
    rw [this]; exact h
  refine ⟨⟨y.deg, fun i => (compose (x.comp i) y).1.get (hs i)⟩, ?_, rfl, hg⟩
  unfold composeV
  rw [dif_pos hs, if_pos (fun i => (hg i).1)]

/-- What the iteration computes, for any treatment of the other arguments. -/
theorem picard_spec [CharZero K] {l : Nat} {df : DVec (l + 1) m K}
    {F : Fin (l + 1) → MvPolynomial (Fin m) K} (hF : URep df F) (h1 : 1 ≤ df.deg)
    {dx0 : DVec (l + 1) n K} {X0 : Fin (l + 1) → MvPolynomial (Fin n) K} {D : Nat}
    (hX : ∀ i, Rep (dx0.comp i) (X0 i)) (hD : ∀ i, (dx0.comp i).deg = D)
    {args : DVec (l + 1) n K → DVec m n K} {E : Nat}
    {A : (Fin (l + 1) → MvPolynomial (Fin n) K) → Fin m → MvPolynomial (Fin n) K}
    (hargs : ∀ phi P, URep phi P → phi.deg ≤ 65535 → phi.deg ≤ E →
      VRep (args phi) (A P) ∧ (args phi).deg = phi.deg)
    (hA : ∀ d P Q, (∀ i, Cong d (center (P i)) (center (Q i))) →
      ∀ j, Cong d (center (A P j)) (center (A Q j))) (t : Fin n) (k : Nat) (hkD : k ≤ D)
    (hkd : k ≤ min df.deg E + 1) :
    ∃ phi, picard df args dx0 t k = some phi ∧ phi.deg = k ∧
      (∀ i, WF (phi.comp i) ∧ (phi.comp i).deg = k) ∧
      (1 ≤ k → ∀ i, IsInt k t (X0 i)
        (bind₁ (fun j => center (A (fun i => poly (phi.comp i)) j)) (F i)) (poly (phi.comp i))) := by
  have hD' : D ≤ 65535 := by rw [← hD 0]; exact (hX 0).1.small
  induction k with
  | zero =>
    exact ⟨_, rfl, rfl, fun i => ⟨(rep_zero (by omega)).1, rfl⟩, fun h => by omega⟩
  | succ k ih =>
    obtain ⟨phi, e, hd, hw, hI⟩ := ih (by omega) (by omega)
    have hU : URep phi (fun i => poly (phi.comp i)) :=
      ⟨fun i => (hw i).1.rep, fun i => by rw [(hw i).2, hd]⟩
    obtain ⟨hV, hVd⟩ := hargs phi _ hU (by omega) (by omega)
    obtain ⟨c, ec, hcd, hc⟩ := composeV_spec hF h1 hV
    rw [hVd, hd] at hcd
    have hck : ∀ i, (c.comp i).deg = k := by
      intro i
      rw [(hc i).1, hVd, hd]; omega
    have ha := fun i => anti_spec (hc i).2.1 (by rw [hck i]; omega) t
    have eA : antiV c t = some ⟨k + 1, fun i => anti (c.comp i) t⟩ := by
      have hwrap : wrap (c.deg + 1) = k + 1 := by rw [hcd]; exact wrap_small (by omega)
      unfold antiV
      rw [hwrap, if_pos (fun i => by rw [(ha i).2.1, hck i])]
    have hnew := fun i => C44_add (dx0.comp i) (anti (c.comp i) t) _ _ (hX i) (ha i).1.rep
    have hdeg : ∀ i, (add (dx0.comp i) (anti (c.comp i) t)).deg = k + 1 := by
      intro i
      rw [(hnew i).2, hD, (ha i).2.1, hck i]; omega
    refine ⟨ofComps (fun i => add (dx0.comp i) (anti (c.comp i) t)), ?_, hdeg 0, fun i => ⟨(hnew i).1.1, hdeg i⟩, fun _ => ?_⟩
    · rw [picard, e]
      show (composeV df (args phi)).bind _ = _
      rw [ec]
      show (antiV c t).bind _ = _
      rw [eA]
      rfl
    · have hI1 : ∀ i, IsInt (k + 1) t (X0 i)
          (bind₁ (fun j => center (A (fun i => poly (phi.comp i)) j)) (F i))
          (poly (add (dx0.comp i) (anti (c.comp i) t))) := by
        intro i f hf
        have h2 := (hnew i).1.2 f (by rw [hdeg i]; exact hf)
        rw [h2, coeff_add, (ha i).2.2]
        congr 1
        have h3 := (hc i).2.2
        rw [hck i] at h3
        exact intCoeff_congr h3 t hf
      have hcen : ∀ i, Cong k (center (poly (phi.comp i)))
          (center (poly (add (dx0.comp i) (anti (c.comp i) t)))) := by
        intro i
        by_cases hk : k = 0
        · intro f hf
          rw [ord_center _ f (by omega), ord_center _ f (by omega)]
        · apply Cong.center
          intro f hf
          rw [hI (by omega) i f hf, hI1 i f (by omega)]
      intro i f hf
      show (poly (add (dx0.comp i) (anti (c.comp i) t))).coeff f = _
      rw [hI1 i f hf]
      congr 1
      exact intCoeff_congr (Cong.bind_inner (hA k _ _ hcen) (F i)) t hf

/-- Polynomials with the same initial terms which satisfy the same differential equation agree. -/
theorem flow_unique {l : Nat} {F : Fin (l + 1) → MvPolynomial (Fin m) K}
    {X0 : Fin (l + 1) → MvPolynomial (Fin n) K}
    {A : (Fin (l + 1) → MvPolynomial (Fin n) K) → Fin m → MvPolynomial (Fin n) K}
    (hA : ∀ d P Q, (∀ i, Cong d (center (P i)) (center (Q i))) →
      ∀ j, Cong d (center (A P j)) (center (A Q j))) (t : Fin n) (k : Nat)
    (P Q : Fin (l + 1) → MvPolynomial (Fin n) K)
    (hP : ∀ i, IsInt k t (X0 i) (bind₁ (fun j => center (A P j)) (F i)) (P i))
    (hQ : ∀ i, IsInt k t (X0 i) (bind₁ (fun j => center (A Q j)) (F i)) (Q i)) :
    ∀ i, Cong k (P i) (Q i) := by
  have key : ∀ d, d ≤ k → ∀ i, Cong d (P i) (Q i) := by
    intro d
    induction d with
    | zero =>
      intro _ i f hf
      have : f = 0 := (Finsupp.degree_eq_zero_iff f).1 (by omega)
      subst this
      rw [(hP i).initial (by rw [map_zero]; omega) rfl, (hQ i).initial (by rw [map_zero]; omega) rfl]
    | succ d ih =>
      intro hd i f hf
      rw [hP i f (by omega), hQ i f (by omega)]
      congr 1
      exact intCoeff_congr (Cong.bind_inner (hA d _ _ (fun i => (ih (by omega) i).center)) (F i)) t hf
  exact key k (le_refl _)

/-! ### The flow of an autonomous system -/

/-- The initial state: the variables around `x0`. -/
theorem dx0_rep {l d : Nat} (h1 : 1 ≤ d) (hd : d ≤ 65535) (x0 : Fin l → K) (v : Fin l → Fin n)
    (i : Fin l) : Rep (var d (x0 i) (v i)) (C (x0 i) + X (v i)) := rep_var h1 hd _ _

omit [DecidableEq K] in
theorem pderiv_var {t j : Fin n} (h : j ≠ t) (c : K) :
    pderiv t (C c + X j : MvPolynomial (Fin n) K) = 0 := by
  rw [map_add, pderiv_C, pderiv_X_of_ne h, add_zero]

omit [DecidableEq K] in
theorem coeff_zero_var (j : Fin n) (c : K) :
    (C c + X j : MvPolynomial (Fin n) K).coeff 0 = c := by
  rw [coeff_add, coeff_C, if_pos rfl, coeff_zero_X, add_zero]

/-- **C44** (flow): for the differential of `f` at `x0`, of degree `d`, the result of degree `d+1` is
the Taylor polynomial of the flow: its derivative with respect to time, which is the last variable,
is `f` composed with it to degree `d`; its terms without time are those of the initial state; and it
is the only polynomial of which this holds, to degree `d+1`. -/
theorem C44_flow_partial [CharZero K] {l : Nat} (df : DVec (l + 1) (l + 1) K)
    (F : Fin (l + 1) → MvPolynomial (Fin (l + 1)) K) (hF : URep df F) (h1 : 1 ≤ df.deg)
    (h2 : df.deg < 65535) (x0 : Fin (l + 1) → K) :
    ∃ phi, flow df x0 = some phi ∧ phi.deg = df.deg + 1 ∧
      (∀ i, WF (phi.comp i) ∧ (phi.comp i).deg = df.deg + 1) ∧
      (∀ i, Cong df.deg (pderiv (Fin.last (l + 1)) (poly (phi.comp i)))
        (bind₁ (fun j => poly (phi.comp j) - C (x0 j)) (F i))) ∧
      (∀ i f, f.degree ≤ df.deg + 1 → f (Fin.last (l + 1)) = 0 →
        (poly (phi.comp i)).coeff f = (C (x0 i) + X i.castSucc).coeff f) ∧
      ∀ Q : Fin (l + 1) → MvPolynomial (Fin (l + 2)) K,
        (∀ i, Cong df.deg (pderiv (Fin.last (l + 1)) (Q i))
          (bind₁ (fun j => Q j - C (x0 j)) (F i))) →
        (∀ i f, f.degree ≤ df.deg + 1 → f (Fin.last (l + 1)) = 0 →
          (Q i).coeff f = (C (x0 i) + X i.castSucc).coeff f) →
        ∀ i, Rep (phi.comp i) (Q i) := by
  have hw : wrap (df.deg + 1) = df.deg + 1 := wrap_small (by omega)
  have hne : ∀ i : Fin (l + 1), i.castSucc ≠ Fin.last (l + 1) := fun i => (Fin.castSucc_lt_last i).ne
  have hid : ∀ d (P Q : Fin (l + 1) → MvPolynomial (Fin (l + 2)) K),
      (∀ i, Cong d (center (P i)) (center (Q i))) →
      ∀ j, Cong d (center (id P j)) (center (id Q j)) := fun _ _ _ h => h
  obtain ⟨phi, e, hd, hwf, hI⟩ := picard_spec hF h1
    (dx0 := ofComps (fun i => var (wrap (df.deg + 1)) (x0 i) i.castSucc))
    (X0 := fun i => C (x0 i) + X i.castSucc) (D := df.deg + 1)
    (fun i => rep_var (by rw [hw]; omega) (by rw [hw]; omega) _ _) (fun i => hw)
    (args := id) (E := 65535) (A := id) (fun phi P h hs _ => ⟨h.vrep hs, rfl⟩)
    hid (Fin.last (l + 1)) (df.deg + 1) (le_refl _) (by omega)
  have hI := hI (by omega)
  have h0 : ∀ i, (poly (phi.comp i)).coeff 0 = x0 i := by
    intro i
    rw [(hI i).initial (by rw [map_zero]; omega) rfl, coeff_zero_var]
  have hcen : (fun j => center (id (fun i => poly (phi.comp i)) j)) =
      fun j => poly (phi.comp j) - C (x0 j) := by
    funext j
    show poly (phi.comp j) - C ((poly (phi.comp j)).coeff 0) = _
    rw [h0]
  refine ⟨phi, e, hd, hwf, fun i => ?_, fun i f hf ht => (hI i).initial hf ht, ?_⟩
  · have := (hI i).pderiv
    rwa [pderiv_var (hne i), zero_add, hcen] at this
  · intro Q hQ hQ0 i
    have hq0 : ∀ i, (Q i).coeff 0 = x0 i := by
      intro i
      rw [hQ0 i 0 (by rw [map_zero]; omega) rfl, coeff_zero_var]
    have hqcen : (fun j => center (id Q j)) = fun j => Q j - C (x0 j) := by
      funext j
      show Q j - C ((Q j).coeff 0) = _
      rw [hq0]
    refine ⟨(hwf i).1, ?_⟩
    rw [(hwf i).2]
    refine flow_unique (F := F) (X0 := fun i => C (x0 i) + X i.castSucc) hid (Fin.last (l + 1))
      (df.deg + 1) _ Q hI (fun i => IsInt.of ?_ (hQ0 i)) i
    rw [pderiv_var (hne i), zero_add, hqcen]
    exact hQ i

/-- What is missing from `C44_flow_partial`: a differential of degree zero throws, although its flow to
degree one is `x0 + f(x0) t`. -/
theorem C44_flow_degree_zero {l : Nat} (df : DVec (l + 1) (l + 1) K) (h : df.deg = 0)
    (hc : (df.comp 0).deg = 0) (x0 : Fin (l + 1) → K) : flow df x0 = none := by
  unfold flow
  rw [h]
  have hn : ∀ phi, composeV df (id phi : DVec (l + 1) (l + 2) K) = none := by
    intro phi
    unfold composeV
    rw [dif_neg]
    intro hall
    have := hall 0
    rw [C44_compose_degree_zero _ _ hc] at this
    cases this
  rw [picard]
  show (composeV df (id _)).bind _ = none
  rw [hn]
  rfl

/-! ### Systems with time and parameters -/

/-- The arguments of a system with other inputs. -/
theorem join_args {l k E : Nat} (b : DVec (k + 1) n K) (T : Fin (k + 1) → MvPolynomial (Fin n) K)
    (hT : ∀ j, Rep (b.comp j) (T j)) (hE : ∀ j, E ≤ (b.comp j).deg) (phi : DVec (l + 1) n K)
    (P : Fin (l + 1) → MvPolynomial (Fin n) K) (h : URep phi P) (hs : phi.deg ≤ 65535)
    (he : phi.deg ≤ E) :
    VRep (joinV phi b) (Fin.append P T) ∧ (joinV phi b).deg = phi.deg := by
  have hd : (joinV phi b).deg = phi.deg := h.deg 0
  refine ⟨⟨fun i => ?_, by rw [hd]; exact hs⟩, hd⟩
  rw [hd]
  refine Fin.addCases (fun i => ?_) (fun j => ?_) i
  · show RepAt _ (Fin.append phi.comp b.comp _) _
    rw [Fin.append_left, Fin.append_left]
    exact (h.comp i).at (by rw [h.deg])
  · show RepAt _ (Fin.append phi.comp b.comp _) _
    rw [Fin.append_right, Fin.append_right]
    exact (hT j).at (he.trans (hE j))

omit [DecidableEq K] in
theorem join_cong {l k : Nat} (T : Fin (k + 1) → MvPolynomial (Fin n) K) (d : Nat)
    (P Q : Fin (l + 1) → MvPolynomial (Fin n) K)
    (h : ∀ i, Cong d (center (P i)) (center (Q i))) (j : Fin (l + 1 + (k + 1))) :
    Cong d (center (Fin.append P T j)) (center (Fin.append Q T j)) := by
  refine Fin.addCases (fun i => ?_) (fun j => ?_) j
  · rw [Fin.append_left, Fin.append_left]; exact h i
  · rw [Fin.append_right, Fin.append_right]; exact Cong.refl _

omit [DecidableEq K] in
theorem center_append {l k : Nat} (P : Fin l → MvPolynomial (Fin n) K)
    (T : Fin k → MvPolynomial (Fin n) K) :
    (fun j => center (Fin.append P T j)) =
      Fin.append (fun i => center (P i)) (fun j => center (T j)) := by
  funext j
  refine Fin.addCases (fun i => ?_) (fun j => ?_) j
  · rw [Fin.append_left, Fin.append_left]
  · rw [Fin.append_right, Fin.append_right]

omit [DecidableEq K] in
theorem center_var (j : Fin n) (c : K) :
    center (C c + X j : MvPolynomial (Fin n) K) = X j := by
  rw [center, coeff_zero_var, add_sub_cancel_left]

/-- The flow with other inputs, the `j`-th of which is the variable `w j` around `a j`. -/
theorem flowJoin_spec [CharZero K] {l k : Nat} (df : DVec (l + 1) (l + 1 + (k + 1)) K)
    (F : Fin (l + 1) → MvPolynomial (Fin (l + 1 + (k + 1))) K) (hF : URep df F) (h1 : 1 ≤ df.deg)
    (h2 : df.deg < 65535) (x0 : Fin (l + 1) → K) (a : Fin (k + 1) → K) (v : Fin (l + 1) → Fin n)
    (w : Fin (k + 1) → Fin n) (t : Fin n) (hne : ∀ i, v i ≠ t) :
    ∃ phi, flowJoin df (ofComps (fun i => var (wrap (df.deg + 1)) (x0 i) (v i)))
        (ofComps (fun j => var (wrap (df.deg + 1)) (a j) (w j))) t = some phi ∧
      phi.deg = df.deg + 1 ∧
      (∀ i, WF (phi.comp i) ∧ (phi.comp i).deg = df.deg + 1) ∧
      (∀ i, Cong df.deg (pderiv t (poly (phi.comp i)))
        (bind₁ (Fin.append (fun j => poly (phi.comp j) - C (x0 j)) (fun j => X (w j))) (F i))) ∧
      (∀ i f, f.degree ≤ df.deg + 1 → f t = 0 →
        (poly (phi.comp i)).coeff f = (C (x0 i) + X (v i)).coeff f) ∧
      ∀ Q : Fin (l + 1) → MvPolynomial (Fin n) K,
        (∀ i, Cong df.deg (pderiv t (Q i))
          (bind₁ (Fin.append (fun j => Q j - C (x0 j)) (fun j => X (w j))) (F i))) →
        (∀ i f, f.degree ≤ df.deg + 1 → f t = 0 →
          (Q i).coeff f = (C (x0 i) + X (v i)).coeff f) →
        ∀ i, Rep (phi.comp i) (Q i) := by
  have hw : wrap (df.deg + 1) = df.deg + 1 := wrap_small (by omega)
  rw [hw]
  have hrep : ∀ (c : K) (j : Fin n), Rep (var (df.deg + 1) c j) (C c + X j) :=
    fun c j => rep_var (by omega) (by omega) c j
  have hk : min (min df.deg (ofComps (fun j => var (df.deg + 1) (a j) (w j))).deg + 1)
      (ofComps (fun i => var (df.deg + 1) (x0 i) (v i))).deg = df.deg + 1 := by
    show min (min df.deg (df.deg + 1) + 1) (df.deg + 1) = _
    omega
  have hargs := join_args (l := l) (E := df.deg + 1)
    (ofComps (fun j => var (df.deg + 1) (a j) (w j))) (fun j => C (a j) + X (w j))
    (fun j => hrep _ _) (fun j => Nat.le_refl _)
  obtain ⟨phi, e, hd, hwf, hI⟩ := picard_spec hF h1
    (dx0 := ofComps (fun i => var (df.deg + 1) (x0 i) (v i)))
    (X0 := fun i => C (x0 i) + X (v i)) (D := df.deg + 1)
    (fun i => hrep _ _) (fun i => rfl)
    (args := fun phi => joinV phi (ofComps (fun j => var (df.deg + 1) (a j) (w j))))
    (E := df.deg + 1) (A := fun P => Fin.append P (fun j => C (a j) + X (w j)))
    hargs (join_cong _) t (df.deg + 1) (le_refl _) (by omega)
  have hI := hI (by omega)
  have hcen : ∀ Q : Fin (l + 1) → MvPolynomial (Fin n) K, (∀ i, (Q i).coeff 0 = x0 i) →
      (fun j => center (Fin.append Q (fun j => C (a j) + X (w j)) j)) =
      Fin.append (fun j => Q j - C (x0 j)) (fun j => X (w j)) := by
    intro Q hQ
    rw [center_append]
    congr 1
    · funext j
      rw [center, hQ]
    · funext j
      rw [center_var]
  refine ⟨phi, ?_, hd, hwf, fun i => ?_, fun i f hf ht => (hI i).initial hf ht, ?_⟩
  · rw [flowJoin, hk]; exact e
  · have := (hI i).pderiv
    rwa [pderiv_var (hne i), zero_add, hcen] at this
    intro i
    rw [(hI i).initial (by rw [map_zero]; omega) rfl, coeff_zero_var]
  · intro Q hQ hQ0 i
    refine ⟨(hwf i).1, ?_⟩
    rw [(hwf i).2]
    refine flow_unique (F := F) (X0 := fun i => C (x0 i) + X (v i)) (join_cong _) t
      (df.deg + 1) _ Q hI (fun i => IsInt.of ?_ (hQ0 i)) i
    rw [pderiv_var (hne i), zero_add, hcen]
    · exact hQ i
    · intro i
      rw [hQ0 i 0 (by rw [map_zero]; omega) rfl, coeff_zero_var]

/-- **C44** (flow of a system depending on time and parameters): as `C44_flow_partial`, with time and
the parameters, which are the variables after the states, as further arguments of `f`. -/
theorem C44_flow_time_partial [CharZero K] {l k : Nat} (df : DVec (l + 1) (l + 1 + (k + 1)) K)
    (F : Fin (l + 1) → MvPolynomial (Fin (l + 1 + (k + 1))) K) (hF : URep df F) (h1 : 1 ≤ df.deg)
    (h2 : df.deg < 65535) (x0 : Fin (l + 1) → K) (ta : Fin (k + 1) → K) :
    ∃ phi, flowTime df x0 ta = some phi ∧ phi.deg = df.deg + 1 ∧
      (∀ i, WF (phi.comp i) ∧ (phi.comp i).deg = df.deg + 1) ∧
      (∀ i, Cong df.deg (pderiv (Fin.natAdd (l + 1) 0) (poly (phi.comp i)))
        (bind₁ (Fin.append (fun j => poly (phi.comp j) - C (x0 j))
          (fun j => X (Fin.natAdd (l + 1) j))) (F i))) ∧
      (∀ i f, f.degree ≤ df.deg + 1 → f (Fin.natAdd (l + 1) 0) = 0 →
        (poly (phi.comp i)).coeff f = (C (x0 i) + X (Fin.castAdd (k + 1) i)).coeff f) ∧
      ∀ Q : Fin (l + 1) → MvPolynomial (Fin (l + 1 + (k + 1))) K,
        (∀ i, Cong df.deg (pderiv (Fin.natAdd (l + 1) 0) (Q i))
          (bind₁ (Fin.append (fun j => Q j - C (x0 j)) (fun j => X (Fin.natAdd (l + 1) j))) (F i))) →
        (∀ i f, f.degree ≤ df.deg + 1 → f (Fin.natAdd (l + 1) 0) = 0 →
          (Q i).coeff f = (C (x0 i) + X (Fin.castAdd (k + 1) i)).coeff f) →
        ∀ i, Rep (phi.comp i) (Q i) :=
  flowJoin_spec df F hF h1 h2 x0 ta (Fin.castAdd (k + 1)) (Fin.natAdd (l + 1)) (Fin.natAdd (l + 1) 0)
    (fun i h => by
      have := congrArg Fin.val h
      simp at this
      omega)

/-- The code disagrees with the property for a system with parameters and without time: for
`f(x,a) = a` at `x0 = 0`, `a = 0` the Taylor polynomial of the flow is `x + a t`, but the parameter is
replaced by time and the result is `x + t²/2`.  The variables are `x`, `t`, `a` in this order. -/
theorem C44_flow_parameters_wrong :
    (flowParam (K := ℚ) (l := 0) (k := 0) ⟨1, fun _ => var 1 0 1⟩ (fun _ => 0) (fun _ => 0)).map
        (fun phi => (coef (phi.comp 0) ⟨[0, 1, 1], rfl⟩, coef (phi.comp 0) ⟨[0, 2, 0], rfl⟩)) =
      some (0, 1 / 2) := by
  decide +kernel

end Verif.Differential
