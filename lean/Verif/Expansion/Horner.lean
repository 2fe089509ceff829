import Verif.Expansion.Props
import Mathlib.Tactic.Ring
import Mathlib.Tactic.NormNum

/-!
# Evaluation of polynomials: Horner's rule and the power form

Model of `source/algebra/evaluate.tpl.hpp` (lines 47-189) and Property C53.  The algorithms are
written over any type `Y` with an addition and a multiplication, as the templates are; the theorems
are about any relation between `Y` and an exact commutative ring that the operations respect
(equality for exact evaluation, enclosure for interval or Taylor model evaluation).
-/

namespace Verif.Expansion

section Model

variable {X Y : Type*} (add mul : Y → Y → Y) (coef : X → Y) (z : Y)

/-- The loops `for(ii=0; ii!=m; ++ii) { t=t*x; }`, e.g. lines 76-78. -/
def mulTimes (t x : Y) : Nat → Y
  | 0 => t
  | m + 1 => mul (mulTimes t x m) x

/-- `k=n-1; while(a[k]==na[k]) { --k; }`, lines 67-68; `none` when the indices are equal, where the
loop runs below zero. -/
def lastDiff : List Nat → List Nat → Option Nat
  | x :: a, y :: b =>
    match lastDiff a b with
    | some k => some (k + 1)
    | none => if x = y then none else some 0
  | _, _ => none

/-- Lines 74-93: the registers after the term with coefficient register `t` and index `a` has been
absorbed into register `k`; `i` is the position of the head of the lists. -/
def stepRegs (j k : Nat) : Nat → List Nat → List Nat → List Y → List Y → Y → List Y
  | i, ai :: a, nai :: na, xi :: x, ri :: r, t =>
    if i < k then
      if i < min j k then ri :: stepRegs j k (i + 1) a na x r (mulTimes mul t xi ai)
      else z :: stepRegs j k (i + 1) a na x r (mulTimes mul (add t ri) xi ai)
    else mulTimes mul (if j ≤ k then add t ri else t) xi (ai - nai) :: r
  | _, _, _, _, r, _ => r

/-- Lines 101-112: the final sweep through the registers. -/
def hornerFinish (j : Nat) : Nat → List Nat → List Y → List Y → Y → Y
  | i, ai :: a, xi :: x, ri :: r, t =>
    if i < j then hornerFinish j (i + 1) a x r (mulTimes mul t xi ai)
    else hornerFinish j (i + 1) a x r (mulTimes mul (add t ri) xi ai)
  | _, _, _, _, t => t

/-- The loop of `horner_evaluate`, lines 65-99; `none` is the failed assertion on line 71 or the
loop on line 68 running below zero. -/
def hornerLoop (x : List Y) : Terms (List Nat) X → List Nat → X → Nat → List Y → Option Y
  | [], a, c, j, r => some (hornerFinish add mul j 0 a x r (coef c))
  | (na, c') :: e, a, c, j, r =>
    match lastDiff a na with
    | none => none
    | some k =>
      if a.getD k 0 > na.getD k 0 then
        hornerLoop x e na c' k (stepRegs add mul z j k 0 a na x r (coef c))
      else none

/-- `horner_evaluate(Expansion<MultiIndex,X>,Vector<Y>)`, lines 47-116, in `n` variables. -/
def hornerEvaluate (n : Nat) (e : Terms (List Nat) X) (x : List Y) : Option Y :=
  match e with
  | [] => some z
  | (a, c) :: e => hornerLoop add mul coef z x e a c n (List.replicate n z)

/-- The loop of the univariate `horner_evaluate`, lines 132-146; `none` is the failed assertion. -/
def hornerUniLoop (x : Y) : Terms Nat X → Nat → Y → Option Y
  | [], _, r => some r
  | (na, c) :: e, a, r =>
    if a > na then hornerUniLoop x e na (add (mulTimes mul r x (a - na)) (coef c)) else none

/-- `horner_evaluate(Expansion<UniIndex,X>,Y)`, lines 118-148. -/
def hornerUni (e : Terms Nat X) (x : Y) : Option Y :=
  match e with
  | [] => some z
  | (a, c) :: e => hornerUniLoop add mul coef x e a (coef c)

/-- The product of powers on lines 166-170 of `power_evaluate`. -/
def powerTerm : List Nat → List Y → Y → Y
  | ai :: a, xi :: x, t => powerTerm a x (mulTimes mul t xi ai)
  | _, _, t => t

/-- `power_evaluate` (and `evaluate`, `simple_evaluate`), lines 150-189; `one` is `zero+1`. -/
def powerEvaluate (one : Y) (e : Terms (List Nat) X) (x : List Y) : Y :=
  e.foldl (fun r t => add r (mul (powerTerm mul t.1 x one) (coef t.2))) z

end Model

/-! ## Correctness -/

section Correct

variable {X Y K : Type*} [CommRing K]

/-- What a family of relations `Q s`, indexed by how many more multiplications are allowed, must
satisfy for evaluation to respect it. -/
structure Respects (add mul : Y → Y → Y) (coef : X → Y) (z : Y) (val : X → K)
    (Q : Nat → Y → K → Prop) (P : Y → K → Prop) (M : Nat) : Prop where
  add : ∀ s t r v w, Q s t v → Q s r w → Q s (add t r) (v + w)
  mul : ∀ s t v x ξ, Q (s + 1) t v → P x ξ → Q s (mul t x) (v * ξ)
  coef : ∀ s c, s ≤ M → Q s (coef c) (val c)
  zero : ∀ s, s ≤ M → Q s z 0

variable {add mul : Y → Y → Y} {coef : X → Y} {z : Y} {val : X → K}
  {Q : Nat → Y → K → Prop} {P : Y → K → Prop} {M : Nat}

theorem mulTimes_rel (h : Respects add mul coef z val Q P M) {x : Y} {ξ : K} (hx : P x ξ)
    (m s : Nat) (t : Y) (v : K) (ht : Q (s + m) t v) : Q s (mulTimes mul t x m) (v * ξ ^ m) := by
  induction m generalizing s with
  | zero => simpa [mulTimes] using ht
  | succ m ih =>
    have := h.mul s _ _ x ξ (ih (s + 1) (by rwa [Nat.add_assoc, Nat.add_comm 1 m])) hx
    rw [mulTimes, pow_succ, ← mul_assoc]
    exact this

/-- The exact content of the registers: register `i` is multiplied by the powers of the variables
from `i` upwards. -/
def regsValue : List Nat → List K → List K → K
  | ai :: a, xi :: x, vi :: v => vi * monomial (xi :: x) (ai :: a) + regsValue a x v
  | _, _, _ => 0

/-- Registers and their exact contents; the allowance of register `i` is the total of the exponents
from `i` upwards.  Registers below position `j` are zero. -/
def RegRel (z : Y) (Q : Nat → Y → K → Prop) (j : Nat) : Nat → List Nat → List Y → List K → Prop
  | i, ai :: a, r :: rs, v :: vs =>
    ((r = z ∧ v = 0) ∨ (j ≤ i ∧ Q (ai :: a).sum r v)) ∧ RegRel z Q j (i + 1) a rs vs
  | _, [], [], [] => True
  | _, _, _, _ => False

theorem monomial_cons' (y : K) (x : List K) (k : Nat) (a : List Nat) :
    monomial (y :: x) (k :: a) = y ^ k * monomial x a := by simp [monomial]

theorem regRel_q (h : Respects add mul coef z val Q P M) {j i : Nat} {r : Y} {v : K} {s : Nat}
    (hs : s ≤ M) (hr : (r = z ∧ v = 0) ∨ (j ≤ i ∧ Q s r v)) : Q s r v := by
  rcases hr with ⟨rfl, rfl⟩ | ⟨_, hr⟩
  · exact h.zero s hs
  · exact hr

theorem finish_rel (h : Respects add mul coef z val Q P M) (j : Nat) (a : List Nat) :
    ∀ (i : Nat) (x : List Y) (ξ : List K) (r : List Y) (v : List K) (t : Y) (u : K),
    a.sum ≤ M → List.Forall₂ P x ξ → x.length = a.length → RegRel z Q j i a r v → Q a.sum t u →
    Q 0 (hornerFinish add mul j i a x r t) (u * monomial ξ a + regsValue a ξ v) := by
  induction a with
  | nil =>
    intro i x ξ r v t u _ hx hl hr ht
    have : x = [] := List.length_eq_zero_iff.1 hl
    subst this
    cases hx
    simp [hornerFinish, monomial, regsValue]
    simpa using ht
  | cons ai a ih =>
    intro i x ξ r v t u hs hx hl hr ht
    match x, ξ, hx with
    | [], _, _ => simp at hl
    | xi :: x, _, List.Forall₂.cons (b := ξi) (l₂ := ξ) hp hx =>
      match r, v, hr with
      | ri :: r, vi :: v, ⟨h1, h2⟩ =>
        unfold hornerFinish
        simp only [List.length_cons, Nat.add_right_cancel_iff] at hl
        rw [List.sum_cons] at hs ht
        by_cases hi : i < j
        · rw [if_pos hi]
          have hv : vi = 0 := by
            rcases h1 with ⟨_, h1⟩ | ⟨h1, _⟩
            · exact h1
            · omega
          have := ih (i + 1) x ξ r v _ _ (by omega) hx hl h2
            (mulTimes_rel h hp ai a.sum t u (by rwa [Nat.add_comm]))
          rw [monomial_cons', regsValue, hv, zero_mul, zero_add, ← mul_assoc]
          exact this
        · rw [if_neg hi]
          have hq := regRel_q h (by rw [List.sum_cons]; exact hs) h1
          rw [List.sum_cons] at hq
          have := ih (i + 1) x ξ r v _ _ (by omega) hx hl h2
            (mulTimes_rel h hp ai a.sum (add t ri) (u + vi)
              (by rw [Nat.add_comm]; exact h.add _ _ _ _ _ ht hq))
          have e : u * monomial (ξi :: ξ) (ai :: a) + regsValue (ai :: a) (ξi :: ξ) (vi :: v) =
              (u + vi) * ξi ^ ai * monomial ξ a + regsValue a ξ v := by
            rw [regsValue, monomial_cons']; ring
          rw [e]
          exact this

/-- Above position `k` the indices agree, and at position `k` the first is larger. -/
def Drops : Nat → List Nat → List Nat → Prop
  | 0, x :: a, y :: b => y < x ∧ a = b
  | k + 1, _ :: a, _ :: b => Drops k a b
  | _, _, _ => False

theorem lastDiff_none {a b : List Nat} (hl : a.length = b.length) :
    lastDiff a b = none ↔ a = b := by
  induction a generalizing b with
  | nil => cases b with
    | nil => simp [lastDiff]
    | cons => simp at hl
  | cons x a ih =>
    cases b with
    | nil => simp at hl
    | cons y b =>
      simp only [List.length_cons, Nat.add_right_cancel_iff] at hl
      have := ih hl
      unfold lastDiff
      cases h : lastDiff a b with
      | some k =>
        rw [h] at this
        simp at this
        simp [this]
      | none =>
        have hab := this.1 h
        subst hab
        by_cases hxy : x = y <;> simp [hxy]

theorem lastDiff_drops {a b : List Nat} (hl : a.length = b.length) {k : Nat}
    (h : lastDiff a b = some k) (hgt : a.getD k 0 > b.getD k 0) : Drops k a b := by
  induction a generalizing b k with
  | nil => simp [lastDiff] at h
  | cons x a ih =>
    cases b with
    | nil => simp at hl
    | cons y b =>
      simp only [List.length_cons, Nat.add_right_cancel_iff] at hl
      unfold lastDiff at h
      cases h' : lastDiff a b with
      | some m =>
        rw [h'] at h
        simp only [Option.some.injEq] at h
        subst h
        exact ih hl h' (by simpa using hgt)
      | none =>
        rw [h'] at h
        simp only at h
        have hab := (lastDiff_none hl).1 h'
        split_ifs at h with hxy
        simp only [Option.some.injEq] at h
        subst h
        exact ⟨by simpa using hgt, hab⟩

theorem regRel_weaken {j j' i : Nat} {a : List Nat} {r : List Y} {v : List K} (hj : j ≤ i)
    (h : RegRel z Q j' i a r v) : RegRel z Q j i a r v := by
  induction a generalizing i r v with
  | nil =>
    match r, v, h with
    | [], [], _ => trivial
  | cons ai a ih =>
    match r, v, h with
    | ri :: r, vi :: v, ⟨h1, h2⟩ =>
      refine ⟨?_, ih (by omega) h2⟩
      rcases h1 with h1 | ⟨_, h1⟩
      · exact Or.inl h1
      · exact Or.inr ⟨hj, h1⟩

theorem step_rel (h : Respects add mul coef z val Q P M) (j k : Nat) (a : List Nat) :
    ∀ (i d : Nat) (na : List Nat) (x : List Y) (ξ : List K) (r : List Y) (v : List K) (t : Y) (u : K),
    k = i + d → Drops d a na → a.length = na.length → a.sum ≤ M → List.Forall₂ P x ξ →
    x.length = a.length → RegRel z Q j i a r v → Q a.sum t u →
    ∃ v', RegRel z Q k i na (stepRegs add mul z j k i a na x r t) v' ∧
      regsValue na ξ v' = u * monomial ξ a + regsValue a ξ v := by
  induction a with
  | nil =>
    intro i d na x ξ r v t u _ hd
    cases d <;> simp [Drops] at hd
  | cons ai a ih =>
    intro i d na x ξ r v t u hk hd hlen hs hx hl hr ht
    match na, x, ξ, hx, r, v, hr with
    | [], _, _, _, _, _, _ => simp at hlen
    | _, [], _, _, _, _, _ => simp at hl
    | nai :: na, xi :: x, _, List.Forall₂.cons (b := ξi) (l₂ := ξ) hp hx, ri :: r, vi :: v,
        ⟨h1, h2⟩ =>
      simp only [List.length_cons, Nat.add_right_cancel_iff] at hl hlen
      rw [List.sum_cons] at hs ht
      unfold stepRegs
      cases d with
      | zero =>
        obtain ⟨hlt, hab⟩ := hd
        subst hab
        have hik : ¬ i < k := by omega
        rw [if_neg hik]
        have hpow : ∀ w : K, w * ξi ^ (ai - nai) * ξi ^ nai = w * ξi ^ ai := by
          intro w
          rw [mul_assoc, ← pow_add]
          congr 2
          omega
        by_cases hjk : j ≤ k
        · rw [if_pos hjk]
          have hq := regRel_q h (by rw [List.sum_cons]; exact hs) h1
          rw [List.sum_cons] at hq
          refine ⟨(u + vi) * ξi ^ (ai - nai) :: v, ⟨Or.inr ⟨by omega, ?_⟩, ?_⟩, ?_⟩
          · apply mulTimes_rel h hp (ai - nai)
            rw [List.sum_cons]
            have : nai + a.sum + (ai - nai) = ai + a.sum := by omega
            rw [this]
            exact h.add _ _ _ _ _ ht hq
          · exact regRel_weaken (by omega) h2
          · rw [regsValue, regsValue, monomial_cons', monomial_cons']
            have := hpow (u + vi)
            calc (u + vi) * ξi ^ (ai - nai) * (ξi ^ nai * monomial ξ a) + regsValue a ξ v
                = ((u + vi) * ξi ^ (ai - nai) * ξi ^ nai) * monomial ξ a + regsValue a ξ v := by
                  ring
              _ = _ := by rw [this]; ring
        · rw [if_neg hjk]
          have hv : vi = 0 := by
            rcases h1 with ⟨_, h1⟩ | ⟨h1, _⟩
            · exact h1
            · omega
          refine ⟨u * ξi ^ (ai - nai) :: v, ⟨Or.inr ⟨by omega, ?_⟩, ?_⟩, ?_⟩
          · apply mulTimes_rel h hp (ai - nai)
            rw [List.sum_cons]
            have : nai + a.sum + (ai - nai) = ai + a.sum := by omega
            rw [this]
            exact ht
          · exact regRel_weaken (by omega) h2
          · rw [regsValue, regsValue, monomial_cons', monomial_cons', hv]
            have := hpow u
            calc u * ξi ^ (ai - nai) * (ξi ^ nai * monomial ξ a) + regsValue a ξ v
                = (u * ξi ^ (ai - nai) * ξi ^ nai) * monomial ξ a + regsValue a ξ v := by ring
              _ = _ := by rw [this]; ring
      | succ d =>
        have hik : i < k := by omega
        rw [if_pos hik]
        by_cases hij : i < min j k
        · rw [if_pos hij]
          have hz : ri = z ∧ vi = 0 := by
            rcases h1 with h1 | ⟨h1, _⟩
            · exact h1
            · omega
          obtain ⟨v', e1, e2⟩ := ih (i + 1) d na x ξ r v (mulTimes mul t xi ai) (u * ξi ^ ai)
            (by omega) hd hlen (by omega) hx hl h2
            (mulTimes_rel h hp ai a.sum t u (by rwa [Nat.add_comm]))
          refine ⟨0 :: v', ⟨Or.inl ⟨hz.1, rfl⟩, e1⟩, ?_⟩
          rw [regsValue, regsValue, e2, monomial_cons' ξi ξ ai a, hz.2]
          ring
        · rw [if_neg hij]
          have hq := regRel_q h (by rw [List.sum_cons]; exact hs) h1
          rw [List.sum_cons] at hq
          obtain ⟨v', e1, e2⟩ := ih (i + 1) d na x ξ r v (mulTimes mul (add t ri) xi ai)
            ((u + vi) * ξi ^ ai) (by omega) hd hlen (by omega) hx hl h2
            (mulTimes_rel h hp ai a.sum _ _ (by rw [Nat.add_comm]; exact h.add _ _ _ _ _ ht hq))
          refine ⟨0 :: v', ⟨Or.inl ⟨rfl, rfl⟩, e1⟩, ?_⟩
          rw [regsValue, regsValue, e2, monomial_cons' ξi ξ ai a]
          ring

theorem loop_rel (h : Respects add mul coef z val Q P M) (x : List Y) (ξ : List K)
    (hx : List.Forall₂ P x ξ) (e : Terms (List Nat) X) :
    ∀ (a : List Nat) (c : X) (j : Nat) (r : List Y) (v : List K) (y : Y),
    a.length = x.length → a.sum ≤ M → (∀ t ∈ e, t.1.length = x.length ∧ t.1.sum ≤ M) →
    RegRel z Q j 0 a r v → hornerLoop add mul coef z x e a c j r = some y →
    Q 0 y (val c * monomial ξ a + regsValue a ξ v +
      (e.map (fun t => val t.2 * monomial ξ t.1)).sum) := by
  induction e with
  | nil =>
    intro a c j r v y ha hs _ hr hy
    simp only [hornerLoop, Option.some.injEq] at hy
    subst hy
    simpa using finish_rel h j a 0 x ξ r v (coef c) (val c) hs hx ha.symm hr (h.coef _ _ hs)
  | cons t e ih =>
    intro a c j r v y ha hs he hr hy
    obtain ⟨na, c'⟩ := t
    obtain ⟨hna, hns⟩ := he (na, c') (by simp)
    simp only at hna hns
    unfold hornerLoop at hy
    cases hk : lastDiff a na with
    | none => rw [hk] at hy; simp at hy
    | some k =>
      rw [hk] at hy
      simp only at hy
      by_cases hgt : a.getD k 0 > na.getD k 0
      · rw [if_pos hgt] at hy
        obtain ⟨v', h1, h2⟩ := step_rel h j k a 0 k na x ξ r v (coef c) (val c) (by omega)
          (lastDiff_drops (ha.trans hna.symm) hk hgt) (ha.trans hna.symm) hs hx ha.symm hr
          (h.coef _ _ hs)
        have := ih na c' k _ v' y hna hns (fun t ht => he t (by simp [ht])) h1 hy
        rw [h2] at this
        rw [List.map_cons, List.sum_cons]
        have e1 : val c * monomial ξ a + regsValue a ξ v + (val c' * monomial ξ na +
            (e.map (fun t => val t.2 * monomial ξ t.1)).sum) =
          val c' * monomial ξ na + (val c * monomial ξ a + regsValue a ξ v) +
            (e.map (fun t => val t.2 * monomial ξ t.1)).sum := by ring
        simp only
        rw [e1]
        exact this
      · rw [if_neg hgt] at hy
        simp at hy

/-- Horner's rule respects any relation that the operations respect. -/
theorem horner_rel (h : Respects add mul coef z val Q P M) (n : Nat) (e : Terms (List Nat) X)
    (he : ∀ t ∈ e, t.1.length = n ∧ t.1.sum ≤ M) (x : List Y) (ξ : List K) (hn : x.length = n)
    (hx : List.Forall₂ P x ξ) (y : Y) (hy : hornerEvaluate add mul coef z n e x = some y) :
    Q 0 y (e.map (fun t => val t.2 * monomial ξ t.1)).sum := by
  cases e with
  | nil =>
    simp only [hornerEvaluate, Option.some.injEq] at hy
    subst hy
    exact h.zero 0 (Nat.zero_le _)
  | cons t e =>
    obtain ⟨a, c⟩ := t
    obtain ⟨ha, hs⟩ := he (a, c) (by simp)
    simp only at ha hs
    unfold hornerEvaluate at hy
    have hr : ∀ (a : List Nat) (i j : Nat), RegRel z Q j i a (List.replicate a.length z)
        (List.replicate a.length (0 : K)) := by
      intro a
      induction a with
      | nil => intro i j; simp [RegRel]
      | cons ai a ih =>
        intro i j
        simp only [List.length_cons, List.replicate_succ]
        exact ⟨Or.inl ⟨rfl, rfl⟩, ih _ _⟩
    have hv : ∀ (a : List Nat) (ξ : List K), regsValue a ξ (List.replicate a.length 0) = 0 := by
      intro a
      induction a with
      | nil => intro ξ; simp [regsValue]
      | cons ai a ih =>
        intro ξ
        cases ξ with
        | nil => simp [regsValue]
        | cons ξi ξ => simp [regsValue, List.replicate_succ, ih]
    have := loop_rel h x ξ hx e a c n (List.replicate n z) (List.replicate n 0) y (ha.trans hn.symm)
      hs (fun t ht => by rw [hn]; exact he t (by simp [ht])) (by rw [← ha]; exact hr a 0 _) hy
    rw [← ha, hv, add_zero] at this
    simpa using this

/-- Strictly sorted terms never fail. -/
theorem lastDiff_of_revLex {a b : List Nat} (hl : a.length = b.length) (h : revLexLess a b = true) :
    ∃ k, lastDiff a b = some k ∧ a.getD k 0 > b.getD k 0 := by
  induction a generalizing b with
  | nil =>
    cases b with
    | nil => simp [revLexLess, firstGreater] at h
    | cons => simp at hl
  | cons x a ih =>
    cases b with
    | nil => simp at hl
    | cons y b =>
      simp only [List.length_cons, Nat.add_right_cancel_iff] at hl
      -- appending at the end of the reversed lists
      have key : ∀ (u w : List Nat), u.length = w.length →
          firstGreater (u ++ [x]) (w ++ [y]) = true →
          firstGreater u w = true ∨ (u = w ∧ x > y) := by
        intro u
        induction u with
        | nil =>
          intro w hw hg
          have : w = [] := List.length_eq_zero_iff.1 (by simpa using hw.symm)
          subst this
          right
          simp [firstGreater] at hg
          exact ⟨rfl, hg.2⟩
        | cons p u ihu =>
          intro w hw hg
          cases w with
          | nil => simp at hw
          | cons q w =>
            simp only [List.length_cons, Nat.add_right_cancel_iff] at hw
            simp only [List.cons_append, firstGreater] at hg ⊢
            by_cases hpq : p ≠ q
            · rw [if_pos hpq] at hg ⊢
              exact Or.inl hg
            · rw [if_neg hpq] at hg ⊢
              rcases ihu w hw hg with h1 | ⟨h1, h2⟩
              · exact Or.inl h1
              · exact Or.inr ⟨by rw [not_not.1 hpq, h1], h2⟩
      unfold revLexLess at h
      rw [List.reverse_cons, List.reverse_cons] at h
      rcases key a.reverse b.reverse (by simpa using hl) h with h1 | ⟨h1, h2⟩
      · obtain ⟨k, e1, e2⟩ := ih hl h1
        exact ⟨k + 1, by simp [lastDiff, e1], by simpa using e2⟩
      · have hab : a = b := List.reverse_injective h1
        subst hab
        refine ⟨0, ?_, by simpa using h2⟩
        have hn : lastDiff a a = none := (lastDiff_none rfl).2 rfl
        simp only [lastDiff, hn]
        rw [if_neg (by omega)]

theorem horner_total (add mul : Y → Y → Y) (coef : X → Y) (z : Y) (n : Nat)
    (e : Terms (List Nat) X) (he : ∀ t ∈ e, t.1.length = n) (hs : Sorted revLexLess e) (x : List Y) :
    (hornerEvaluate add mul coef z n e x).isSome = true := by
  have key : ∀ (e : Terms (List Nat) X) (a : List Nat) (c : X) (j : Nat) (r : List Y),
      a.length = n → (∀ t ∈ e, t.1.length = n) → Sorted revLexLess ((a, c) :: e) →
      (hornerLoop add mul coef z x e a c j r).isSome = true := by
    intro e
    induction e with
    | nil => intros; simp [hornerLoop]
    | cons t e ih =>
      intro a c j r ha he hs
      obtain ⟨na, c'⟩ := t
      obtain ⟨h1, h2⟩ := List.pairwise_cons.1 hs
      obtain ⟨k, e1, e2⟩ := lastDiff_of_revLex (ha.trans (he (na, c') (by simp)).symm)
        (h1 (na, c') (by simp))
      unfold hornerLoop
      rw [e1]
      simp only
      rw [if_pos e2]
      exact ih na c' _ _ (he (na, c') (by simp)) (fun t ht => he t (by simp [ht])) h2
  cases e with
  | nil => rfl
  | cons t e =>
    exact key e t.1 t.2 n _ (he t (by simp)) (fun u hu => he u (by simp [hu])) hs

/-- **C53** (Horner's rule, exact): for terms in strict reverse lexicographic order, the evaluation
never fails and returns the value of the polynomial. -/
theorem C53_horner (n : Nat) (e : Terms (List Nat) K) (he : ∀ t ∈ e, t.1.length = n)
    (hs : Sorted revLexLess e) (ξ : List K) (hξ : ξ.length = n) :
    hornerEvaluate (· + ·) (· * ·) id 0 n e ξ = some (value (monomial ξ) e) := by
  have h1 := horner_total (· + ·) (· * ·) id (0 : K) n e he hs ξ
  obtain ⟨y, hy⟩ := Option.isSome_iff_exists.1 h1
  have hbound : ∀ t ∈ e, t.1.sum ≤ (e.map (fun t => t.1.sum)).sum := by
    intro t ht
    clear hs hy h1 he
    induction e with
    | nil => simp at ht
    | cons u e ih =>
      rw [List.map_cons, List.sum_cons]
      rcases List.mem_cons.1 ht with rfl | ht
      · omega
      · have := ih ht; omega
  have h2 : Respects (fun a b : K => a + b) (fun a b => a * b) id 0 id (fun _ y v => y = v)
      (fun y v => y = v) (e.map (fun t => t.1.sum)).sum :=
    ⟨fun _ _ _ _ _ h1 h2 => by rw [h1, h2], fun _ _ _ _ _ h1 h2 => by rw [h1, h2],
      fun _ _ _ => rfl, fun _ _ => rfl⟩
  have hself : ∀ l : List K, List.Forall₂ (fun y v => y = v) l l := by
    intro l
    induction l with
    | nil => exact .nil
    | cons a l ih => exact .cons rfl ih
  have h3 := horner_rel h2 n e (fun t ht => ⟨he t ht, hbound t ht⟩) ξ ξ hξ (hself ξ) y hy
  rw [hy]
  simpa [value] using h3

/-- **C53** (Horner's rule, enclosures): if the operations on `Y` respect an enclosure relation, the
result encloses the value of the polynomial at every enclosed argument. -/
theorem C53_horner_encloses {add mul : Y → Y → Y} {coef : X → Y} {z : Y} {val : X → K}
    {In : K → Y → Prop} (hadd : ∀ v w t r, In v t → In w r → In (v + w) (add t r))
    (hmul : ∀ v w t r, In v t → In w r → In (v * w) (mul t r)) (hcoef : ∀ c, In (val c) (coef c))
    (hz : In 0 z) (n : Nat) (e : Terms (List Nat) X) (he : ∀ t ∈ e, t.1.length = n)
    (hs : Sorted revLexLess e) (x : List Y) (ξ : List K) (hn : x.length = n)
    (hx : List.Forall₂ (fun y v => In v y) x ξ) :
    ∃ y, hornerEvaluate add mul coef z n e x = some y ∧
      In (value (monomial ξ) (e.map (fun t => (t.1, val t.2)))) y := by
  obtain ⟨y, hy⟩ := Option.isSome_iff_exists.1 (horner_total add mul coef z n e he hs x)
  refine ⟨y, hy, ?_⟩
  have hbound : ∀ t ∈ e, t.1.sum ≤ (e.map (fun t => t.1.sum)).sum := by
    intro t ht
    clear hs hy he
    induction e with
    | nil => simp at ht
    | cons u e ih =>
      rw [List.map_cons, List.sum_cons]
      rcases List.mem_cons.1 ht with rfl | ht
      · omega
      · have := ih ht; omega
  have h2 : Respects add mul coef z val (fun _ y v => In v y) (fun y v => In v y)
      (e.map (fun t => t.1.sum)).sum :=
    ⟨fun _ _ _ _ _ h1 h2 => hadd _ _ _ _ h1 h2, fun _ _ _ _ _ h1 h2 => hmul _ _ _ _ h1 h2,
      fun _ c _ => hcoef c, fun _ _ => hz⟩
  have h3 := horner_rel h2 n e (fun t ht => ⟨he t ht, hbound t ht⟩) x ξ hn hx y hy
  unfold value
  rw [List.map_map]
  simpa [Function.comp_def] using h3

/-! ### The power form -/

theorem mulTimes_eq (t x : K) (m : Nat) : mulTimes (fun a b => a * b) t x m = t * x ^ m := by
  induction m with
  | zero => simp [mulTimes]
  | succ m ih => rw [mulTimes, ih, pow_succ]; ring

theorem powerTerm_eq (a : List Nat) (ξ : List K) (t : K) :
    powerTerm (fun a b => a * b) a ξ t = t * monomial ξ a := by
  induction a generalizing ξ t with
  | nil => simp [powerTerm, monomial]
  | cons k a ih =>
    cases ξ with
    | nil => simp [powerTerm, monomial]
    | cons y ξ => rw [powerTerm, ih, mulTimes_eq, monomial_cons']; ring

/-- **C53** (power form): `evaluate` returns the value of the polynomial, whatever the order of the
terms and even if indices are repeated. -/
theorem C53_power (e : Terms (List Nat) K) (ξ : List K) :
    powerEvaluate (· + ·) (· * ·) id 0 1 e ξ = value (monomial ξ) e := by
  have key : ∀ (e : Terms (List Nat) K) (r : K),
      e.foldl (fun r t => r + powerTerm (fun a b => a * b) t.1 ξ 1 * id t.2) r =
        r + value (monomial ξ) e := by
    intro e
    induction e with
    | nil => intro r; simp [value]
    | cons t e ih =>
      intro r
      rw [List.foldl_cons, ih, powerTerm_eq]
      simp only [value, List.map_cons, List.sum_cons, id]
      ring
  have := key e 0
  rw [zero_add] at this
  exact this

theorem mulTimes_in {mul : Y → Y → Y} {In : K → Y → Prop}
    (hmul : ∀ v w t r, In v t → In w r → In (v * w) (mul t r)) {x : Y} {ξ : K} (hx : In ξ x)
    (m : Nat) {t : Y} {v : K} (ht : In v t) : In (v * ξ ^ m) (mulTimes mul t x m) := by
  induction m with
  | zero => simpa [mulTimes] using ht
  | succ m ih => rw [mulTimes, pow_succ, ← mul_assoc]; exact hmul _ _ _ _ ih hx

/-- **C53** (power form, enclosures). -/
theorem C53_power_encloses {add mul : Y → Y → Y} {coef : X → Y} {z one : Y} {val : X → K}
    {In : K → Y → Prop} (hadd : ∀ v w t r, In v t → In w r → In (v + w) (add t r))
    (hmul : ∀ v w t r, In v t → In w r → In (v * w) (mul t r)) (hcoef : ∀ c, In (val c) (coef c))
    (hz : In 0 z) (hone : In 1 one) (e : Terms (List Nat) X) (x : List Y) (ξ : List K)
    (hx : List.Forall₂ (fun y v => In v y) x ξ) :
    In (value (monomial ξ) (e.map (fun t => (t.1, val t.2)))) (powerEvaluate add mul coef z one e x) := by
  have hterm : ∀ (a : List Nat) (x : List Y) (ξ : List K) (t : Y) (v : K),
      List.Forall₂ (fun y v => In v y) x ξ → In v t →
      In (v * monomial ξ a) (powerTerm mul a x t) := by
    intro a
    induction a with
    | nil => intro x ξ t v _ ht; simpa [powerTerm, monomial] using ht
    | cons k a ih =>
      intro x ξ t v hx ht
      cases hx with
      | nil => simpa [powerTerm, monomial] using ht
      | @cons y w x ξ h1 h2 =>
        rw [powerTerm, monomial_cons', ← mul_assoc]
        exact ih x ξ _ _ h2 (mulTimes_in hmul h1 k ht)
  have key : ∀ (e : Terms (List Nat) X) (r : Y) (v : K), In v r →
      In (v + value (monomial ξ) (e.map (fun t => (t.1, val t.2))))
        (e.foldl (fun r t => add r (mul (powerTerm mul t.1 x one) (coef t.2))) r) := by
    intro e
    induction e with
    | nil => intro r v h; simpa [value] using h
    | cons t e ih =>
      intro r v h
      rw [List.foldl_cons]
      have h1 := hterm t.1 x ξ one 1 hx hone
      rw [one_mul] at h1
      have := ih _ _ (hadd _ _ _ _ h (hmul _ _ _ _ h1 (hcoef t.2)))
      simp only [value, List.map_cons, List.sum_cons] at this ⊢
      rw [← add_assoc, mul_comm (val t.2)]
      exact this
  have := key e z 0 hz
  rwa [zero_add] at this

/-! ### The univariate form -/

/-- What the univariate Horner evaluation returns: the value of the polynomial with every exponent
reduced by the last one. -/
theorem hornerUniLoop_eq (e : Terms Nat K) (a : Nat) (c x : K) (l : Nat) (y : K)
    (hl : ((a, c) :: e).getLast?.map Prod.fst = some l)
    (h : hornerUniLoop (· + ·) (· * ·) id x e a c = some y) :
    y * x ^ l = c * x ^ a + (e.map (fun t => t.2 * x ^ t.1)).sum := by
  induction e generalizing a c with
  | nil =>
    simp only [hornerUniLoop, Option.some.injEq] at h
    simp at hl
    subst h hl
    simp
  | cons t e ih =>
    obtain ⟨na, c'⟩ := t
    unfold hornerUniLoop at h
    by_cases hgt : a > na
    · rw [if_pos hgt, mulTimes_eq] at h
      have hl' : ((na, c * x ^ (a - na) + id c') :: e).getLast?.map Prod.fst = some l := by
        rw [← hl]
        cases e with
        | nil => rfl
        | cons u e => rfl
      have := ih na _ hl' h
      rw [this, List.map_cons, List.sum_cons]
      simp only [id]
      have e1 : x ^ a = x ^ (a - na) * x ^ na := by rw [← pow_add]; congr 1; omega
      rw [e1]
      ring
    · rw [if_neg hgt] at h
      simp at h

/-- **C53** (univariate, partial): the univariate evaluation returns the value of the polynomial
when the last term is the constant one.  Without that hypothesis the statement is false:
`C53_univariate_counterexample`. -/
theorem C53_univariate_partial (e : Terms Nat K) (x : K)
    (hlast : ∀ t, e.getLast? = some t → t.1 = 0) (y : K)
    (h : hornerUni (· + ·) (· * ·) id 0 e x = some y) :
    y = (e.map (fun t => t.2 * x ^ t.1)).sum := by
  cases e with
  | nil =>
    simp only [hornerUni, Option.some.injEq] at h
    simp [← h]
  | cons t e =>
    obtain ⟨a, c⟩ := t
    unfold hornerUni at h
    obtain ⟨u, hu⟩ : ∃ u, ((a, c) :: e).getLast? = some u :=
      ⟨_, List.getLast?_eq_some_getLast (by simp)⟩
    have := hornerUniLoop_eq e a c x 0 y (by rw [hu, Option.map_some, hlast u hu]) h
    rw [pow_zero, mul_one] at this
    simpa using this

/-- **C53** (univariate, quantitative): in general the result times `x` to the lowest exponent is
the value of the polynomial. -/
theorem C53_univariate_shifted (e : Terms Nat K) (x : K) (u : Nat × K)
    (hu : e.getLast? = some u) (y : K)
    (h : hornerUni (· + ·) (· * ·) id 0 e x = some y) :
    y * x ^ u.1 = (e.map (fun t => t.2 * x ^ t.1)).sum := by
  cases e with
  | nil => simp at hu
  | cons t e =>
    obtain ⟨a, c⟩ := t
    unfold hornerUni at h
    have := hornerUniLoop_eq e a c x u.1 y (by rw [hu, Option.map_some]) h
    simpa using this

end Correct

/-- **C53** fails for univariate polynomials without constant term: `3x²` at `2` gives `3`. -/
theorem C53_univariate_counterexample :
    hornerUni (· + ·) (· * ·) id 0 [(2, (3 : ℚ))] 2 = some 3 ∧
      (([(2, (3 : ℚ))] : Terms Nat ℚ).map (fun t => t.2 * (2 : ℚ) ^ t.1)).sum = 12 := by
  refine ⟨rfl, by norm_num⟩

/-- Non-vacuity of C53: a polynomial in three variables with registers in use at all levels. -/
example : hornerEvaluate (· + ·) (· * ·) id 0 3
    [([1, 0, 2], (2 : ℤ)), ([0, 2, 1], 3), ([2, 1, 1], 5), ([1, 1, 0], 7), ([0, 0, 0], 11)]
      [2, 3, 5] = some 588 ∧
    Sorted revLexLess ([([1, 0, 2], (2 : ℤ)), ([0, 2, 1], 3), ([2, 1, 1], 5), ([1, 1, 0], 7),
      ([0, 0, 0], 11)] : Terms (List Nat) ℤ) ∧
    hornerEvaluate (· + ·) (· * ·) id 0 1 [([0], (2 : ℤ)), ([1], 3)] [1] = none := by
  refine ⟨by decide +kernel, ?_, by decide +kernel⟩
  simp only [Sorted, List.pairwise_cons]
  decide

end Verif.Expansion
