import Verif.Logical.Spec
/-!
# Properties C01-C04: logical values, lazy logical expressions, choice
-/
namespace Ariadne.Logical
open LV

/-! ## C01 connectives -/

/-- C01: negation is sound. -/
theorem C01_not_sound (v : LV) (P : Prop) (h : Describes v P) : Describes (not_ v) (¬ P) := by
  cases v <;> simp_all [Describes, not_]

/-- C01: conjunction is sound. -/
theorem C01_and_sound (v w : LV) (P Q : Prop) (hv : Describes v P) (hw : Describes w Q) :
    Describes (and_ v w) (P ∧ Q) := by
  cases v <;> cases w <;> simp_all [Describes, and_, code]

/-- C01: disjunction is sound. -/
theorem C01_or_sound (v w : LV) (P Q : Prop) (hv : Describes v P) (hw : Describes w Q) :
    Describes (or_ v w) (P ∨ Q) := by
  cases v <;> cases w <;> simp_all [Describes, or_, code]

/-- C01: equality is sound. -/
theorem C01_eq_sound (v w : LV) (P Q : Prop) (hv : Describes v P) (hw : Describes w Q) :
    Describes (eq_ v w) (P ↔ Q) := by
  cases v <;> cases w <;> simp_all [Describes, eq_, not_]

/-- C01: exclusive or is sound. -/
theorem C01_xor_sound (v w : LV) (P Q : Prop) (hv : Describes v P) (hw : Describes w Q) :
    Describes (xor_ v w) (¬ (P ↔ Q)) :=
  C01_not_sound _ _ (C01_eq_sound v w P Q hv hw)

/-- C01: the connectives are as decisive as their operands permit (so that soundness is not
obtained by always answering `indeterminate`). -/
theorem C01_decisive (v w : LV) :
    (not_ v = true_ ↔ v = false_) ∧ (not_ v = false_ ↔ v = true_) ∧
    (and_ v w = true_ ↔ v = true_ ∧ w = true_) ∧ (and_ v w = false_ ↔ v = false_ ∨ w = false_) ∧
    (or_ v w = true_ ↔ v = true_ ∨ w = true_) ∧ (or_ v w = false_ ↔ v = false_ ∧ w = false_) ∧
    (eq_ v w = true_ ↔ (v = true_ ∧ w = true_) ∨ (v = false_ ∧ w = false_)) ∧
    (eq_ v w = false_ ↔ (v = true_ ∧ w = false_) ∨ (v = false_ ∧ w = true_)) ∧
    (xor_ v w = true_ ↔ (v = true_ ∧ w = false_) ∨ (v = false_ ∧ w = true_)) := by
  cases v <;> cases w <;> decide

/-- C01: on definite values the connectives are exactly the Boolean connectives. -/
theorem C01_boolean (a b : Bool) :
    not_ (ofBool a) = ofBool (!a) ∧ and_ (ofBool a) (ofBool b) = ofBool (a && b) ∧
    or_ (ofBool a) (ofBool b) = ofBool (a || b) ∧ eq_ (ofBool a) (ofBool b) = ofBool (a == b) ∧
    xor_ (ofBool a) (ofBool b) = ofBool (a ^^ b) := by
  cases a <;> cases b <;> decide

/-- C01: likelihood judgements (`probably`, `possibly`, `decide`) commute with the lattice connectives. -/
theorem C01_probably (v w : LV) :
    probably (and_ v w) = (probably v && probably w) ∧ probably (or_ v w) = (probably v || probably w) ∧
    possibly (and_ v w) = (possibly v && possibly w) ∧ possibly (or_ v w) = (possibly v || possibly w) ∧
    definitely (and_ v w) = (definitely v && definitely w) ∧
    definitely (or_ v w) = (definitely v || definitely w) ∧
    possibly (not_ v) = !(definitely v) ∧ decide_ v = probably v ∧
    (definitely v = true → probably v = true) ∧ (probably v = true → possibly v = true) ∧
    isIndeterminate v = !(isDeterminate v) := by
  cases v <;> cases w <;> decide

/-- C01: De Morgan, double negation, commutativity, associativity, idempotence, distributivity. -/
theorem C01_lattice_laws (u v w : LV) :
    not_ (and_ v w) = or_ (not_ v) (not_ w) ∧ not_ (or_ v w) = and_ (not_ v) (not_ w) ∧
    not_ (not_ v) = v ∧
    and_ v w = and_ w v ∧ or_ v w = or_ w v ∧ eq_ v w = eq_ w v ∧ xor_ v w = xor_ w v ∧
    and_ (and_ u v) w = and_ u (and_ v w) ∧ or_ (or_ u v) w = or_ u (or_ v w) ∧
    eq_ (eq_ u v) w = eq_ u (eq_ v w) ∧
    and_ v v = v ∧ or_ v v = v ∧
    and_ u (or_ v w) = or_ (and_ u v) (and_ u w) ∧ or_ u (and_ v w) = and_ (or_ u v) (or_ u w) := by
  cases u <;> cases v <;> cases w <;> decide

/-- C01: the connectives are monotone in information: more definite operands never retract a
definite result. -/
theorem C01_information_monotone (v v' w w' : LV) (hv : Refines v' v) (hw : Refines w' w) :
    Refines (not_ v') (not_ v) ∧ Refines (and_ v' w') (and_ v w) ∧ Refines (or_ v' w') (or_ v w) ∧
    Refines (eq_ v' w') (eq_ v w) ∧ Refines (xor_ v' w') (xor_ v w) := by
  cases v <;> cases v' <;> cases w <;> cases w' <;> simp_all [Refines] <;> decide

/-- C01: clamping to the lower (upper, approximate) types keeps soundness, keeps definite truth
(falsity) and never asserts falsity (truth, either). -/
theorem C01_clamp_sound (v : LV) (P : Prop) (h : Describes v P) :
    Describes (toLower v) P ∧ Describes (toUpper v) P ∧ Describes (toApprox v) P ∧
    (toLower v = true_ ↔ v = true_) ∧ toLower v ≠ false_ ∧
    (toUpper v = false_ ↔ v = false_) ∧ toUpper v ≠ true_ ∧
    toApprox v ≠ true_ ∧ toApprox v ≠ false_ ∧ probably (toApprox v) = probably v := by
  cases v <;> simp_all [Describes, toLower, toUpper, toApprox, or_, and_, code, probably]

/-- Non-vacuity: an indeterminate value describes both truth values, a definite one exactly one. -/
example : Describes indeterminate True ∧ Describes indeterminate False ∧
    Describes true_ True ∧ ¬ Describes true_ False ∧ ¬ Describes false_ True := by
  simp [Describes]

/-! ## C02 checking at any effort -/

theorem scan_eq_true {f : Nat → Bool} {n : Nat} : scan f n = true ↔ ∃ k, k < n ∧ f k = true := by
  induction n with
  | zero => simp [scan]
  | succ n ih =>
    simp only [scan, Bool.or_eq_true, ih]
    constructor
    · rintro (⟨k, hk, h⟩ | h)
      · exact ⟨k, by omega, h⟩
      · exact ⟨n, by omega, h⟩
    · rintro ⟨k, hk, h⟩
      by_cases hkn : k = n
      · subst hkn; exact Or.inr h
      · exact Or.inl ⟨k, by omega, h⟩

theorem definitely_toLower {v : LV} : definitely (toLower v) = true ↔ v = true_ := by
  cases v <;> decide

theorem definitely_not_toUpper {v : LV} :
    definitely (toLower (not_ (toUpper v))) = true ↔ v = false_ := by
  cases v <;> decide

/-- C02: checking any logical expression at any effort is sound, provided the leaf verdicts are. -/
theorem C02_check_sound {ι : Type} (leaf : ι → Nat → LV) (tv : ι → Prop) (cst : LV → Prop)
    (hleaf : ∀ i n, Describes (leaf i n) (tv i)) (hcst : ∀ v, Describes v (cst v))
    (e : Expr ι) (eff : Nat) : Describes (e.check leaf eff) (e.Truth tv cst) := by
  induction e with
  | const v => exact hcst v
  | atom i => exact hleaf i eff
  | not e ih => exact C01_not_sound _ _ ih
  | and a b iha ihb => exact C01_and_sound _ _ _ _ iha ihb
  | or a b iha ihb => exact C01_or_sound _ _ _ _ iha ihb
  | eq a b iha ihb => exact C01_eq_sound _ _ _ _ iha ihb
  | xor a b iha ihb => exact C01_xor_sound _ _ _ _ iha ihb
  | seqOr es ih =>
    simp only [Expr.check, Expr.Truth]
    split
    next h =>
      obtain ⟨k, _, hk⟩ := scan_eq_true.1 h
      rw [definitely_toLower] at hk
      exact ⟨fun _ => ⟨k, (ih k).1 hk⟩, fun h => by cases h⟩
    next h => simp [Describes]
  | seqAnd es ih =>
    simp only [Expr.check, Expr.Truth]
    split
    next h =>
      obtain ⟨k, _, hk⟩ := scan_eq_true.1 h
      rw [definitely_not_toUpper] at hk
      exact ⟨fun h => (by cases h), fun _ hall => (ih k).2 hk (hall k)⟩
    next h => simp [Describes]

/-- C02: more effort never retracts a definite verdict. -/
theorem C02_check_monotone {ι : Type} (leaf : ι → Nat → LV)
    (hmono : ∀ i m n, m ≤ n → Refines (leaf i n) (leaf i m))
    (e : Expr ι) (m n : Nat) (hmn : m ≤ n) : Refines (e.check leaf n) (e.check leaf m) := by
  have refl : ∀ v, Refines v v := fun v => ⟨id, id⟩
  induction e with
  | const v => exact refl v
  | atom i => exact hmono i m n hmn
  | not e ih => exact (C01_information_monotone _ _ _ _ ih (refl true_)).1
  | and a b iha ihb => exact (C01_information_monotone _ _ _ _ iha ihb).2.1
  | or a b iha ihb => exact (C01_information_monotone _ _ _ _ iha ihb).2.2.1
  | eq a b iha ihb => exact (C01_information_monotone _ _ _ _ iha ihb).2.2.2.1
  | xor a b iha ihb => exact (C01_information_monotone _ _ _ _ iha ihb).2.2.2.2
  | seqOr es ih =>
    simp only [Expr.check]
    by_cases h : scan (fun k => definitely (toLower ((es k).check leaf m))) m = true
    · have h' : scan (fun k => definitely (toLower ((es k).check leaf n))) n = true := by
        obtain ⟨k, hk, hd⟩ := scan_eq_true.1 h
        refine scan_eq_true.2 ⟨k, by omega, ?_⟩
        rw [definitely_toLower] at hd ⊢
        exact (ih k).1 hd
      simp [h, h', Refines]
    · simp only [Bool.not_eq_true] at h
      simp [h, Refines]
  | seqAnd es ih =>
    simp only [Expr.check]
    by_cases h : scan (fun k => definitely (toLower (not_ (toUpper ((es k).check leaf m))))) m = true
    · have h' : scan (fun k => definitely (toLower (not_ (toUpper ((es k).check leaf n))))) n = true := by
        obtain ⟨k, hk, hd⟩ := scan_eq_true.1 h
        refine scan_eq_true.2 ⟨k, by omega, ?_⟩
        rw [definitely_not_toUpper] at hd ⊢
        exact (ih k).2 hd
      simp [h, h', Refines]
    · simp only [Bool.not_eq_true] at h
      simp [h, Refines]

/-- C02: an infinite disjunction is confirmed at some effort iff some member is confirmed; with
verdicts that are monotone in effort. -/
theorem C02_disjunction_complete {ι : Type} (leaf : ι → Nat → LV)
    (hmono : ∀ i m n, m ≤ n → Refines (leaf i n) (leaf i m)) (es : Nat → Expr ι) :
    (∃ eff, (Expr.seqOr es).check leaf eff = true_) ↔ ∃ k eff, (es k).check leaf eff = true_ := by
  simp only [Expr.check]
  constructor
  · rintro ⟨eff, h⟩
    split at h
    next hs =>
      obtain ⟨k, _, hk⟩ := scan_eq_true.1 hs
      exact ⟨k, eff, definitely_toLower.1 hk⟩
    next => cases h
  · rintro ⟨k, eff, h⟩
    refine ⟨max (k+1) eff, ?_⟩
    have := (C02_check_monotone leaf hmono (es k) eff (max (k+1) eff) (Nat.le_max_right _ _)).1 h
    have hs : scan (fun j => definitely (toLower ((es j).check leaf (max (k+1) eff)))) (max (k+1) eff) = true :=
      scan_eq_true.2 ⟨k, by omega, definitely_toLower.2 this⟩
    simp [hs]

/-- C02: an infinite conjunction is refuted at some effort iff some member is refuted. -/
theorem C02_conjunction_complete {ι : Type} (leaf : ι → Nat → LV)
    (hmono : ∀ i m n, m ≤ n → Refines (leaf i n) (leaf i m)) (es : Nat → Expr ι) :
    (∃ eff, (Expr.seqAnd es).check leaf eff = false_) ↔ ∃ k eff, (es k).check leaf eff = false_ := by
  simp only [Expr.check]
  constructor
  · rintro ⟨eff, h⟩
    split at h
    next hs =>
      obtain ⟨k, _, hk⟩ := scan_eq_true.1 hs
      exact ⟨k, eff, definitely_not_toUpper.1 hk⟩
    next => cases h
  · rintro ⟨k, eff, h⟩
    refine ⟨max (k+1) eff, ?_⟩
    have := (C02_check_monotone leaf hmono (es k) eff (max (k+1) eff) (Nat.le_max_right _ _)).2 h
    have hs : scan (fun j => definitely (toLower (not_ (toUpper ((es j).check leaf (max (k+1) eff)))))) (max (k+1) eff) = true :=
      scan_eq_true.2 ⟨k, by omega, definitely_not_toUpper.2 this⟩
    simp [hs]

/-- Non-vacuity of C02: leaves "`n`-th natural is at least 3", confirmed from effort 2 on. -/
example : ∃ (leaf : Nat → Nat → LV) (tv : Nat → Prop) (e : Expr Nat),
    (∀ i n, Describes (leaf i n) (tv i)) ∧ (∀ i m n, m ≤ n → Refines (leaf i n) (leaf i m)) ∧
    e.check leaf 1 = indeterminate ∧ e.check leaf 5 = true_ := by
  refine ⟨fun i n => if i ≥ 3 then (if n ≥ 2 then true_ else likely) else (if n ≥ 2 then false_ else unlikely),
    fun i => i ≥ 3, Expr.seqOr (fun i => .and (.atom i) (.not (.atom 0))), ?_, ?_, by decide, by decide⟩
  · intro i n
    by_cases h : i ≥ 3 <;> by_cases h' : n ≥ 2 <;> simp [h, h', Describes] <;> omega
  · intro i m n hmn
    by_cases h : i ≥ 3 <;> by_cases h' : n ≥ 2 <;> by_cases h'' : m ≥ 2 <;>
      simp [h, h', h'', Refines] <;> omega

/-! ## C03 nondeterministic choice -/

theorem chooseAt_some {ps : List (Nat → LV)} {eff s i : Nat} (h : chooseAt ps eff s = some i) :
    ∃ d, i = s + d ∧ ∃ hi : d < ps.length, (ps[d]) eff = true_ ∧
      ∀ j (hj : j < d), (ps[j]'(Nat.lt_trans hj hi)) eff ≠ true_ := by
  induction ps generalizing s with
  | nil => simp [chooseAt] at h
  | cons p ps ih =>
    simp only [chooseAt] at h
    split at h
    next hd =>
      cases h
      exact ⟨0, rfl, by simp, definitely_toLower.1 hd, fun j hj => by omega⟩
    next hd =>
      obtain ⟨d, rfl, hi, h1, h2⟩ := ih h
      refine ⟨d+1, by omega, by simp; omega, ?_, ?_⟩
      · exact h1
      · intro j hj
        cases j with
        | zero => intro hc; exact hd (definitely_toLower.2 (by simpa using hc))
        | succ j => simp only [List.getElem_cons_succ]; exact h2 j (by omega)

theorem chooseAt_none {ps : List (Nat → LV)} {eff s : Nat} (h : chooseAt ps eff s = none) :
    ∀ p ∈ ps, p eff ≠ true_ := by
  induction ps generalizing s with
  | nil => simp
  | cons p ps ih =>
    simp only [chooseAt] at h
    split at h
    next => cases h
    next hd =>
      intro q hq
      rcases List.mem_cons.1 hq with rfl | hq
      · intro hc; exact hd (definitely_toLower.2 hc)
      · exact ih h q hq

/-- C03: the choice returns a valid case whose condition is definitely true at some effort; at that
effort no earlier case is, and at no smaller effort any case is (first come, first served). -/
theorem C03_choose_sound (ps : List (Nat → LV)) (fuel i : Nat)
    (h : chooseIndex ps fuel 0 = some i) :
    ∃ eff, ∃ hi : i < ps.length, (ps[i]) eff = true_ ∧
      (∀ j (hj : j < i), (ps[j]'(Nat.lt_trans hj hi)) eff ≠ true_) ∧
      ∀ e, e < eff → ∀ p ∈ ps, p e ≠ true_ := by
  suffices H : ∀ fuel s, chooseIndex ps fuel s = some i →
      ∃ eff, s ≤ eff ∧ ∃ hi : i < ps.length, (ps[i]) eff = true_ ∧
      (∀ j (hj : j < i), (ps[j]'(Nat.lt_trans hj hi)) eff ≠ true_) ∧
      ∀ e, s ≤ e → e < eff → ∀ p ∈ ps, p e ≠ true_ by
    obtain ⟨eff, _, hi, h1, h2, h3⟩ := H fuel 0 h
    exact ⟨eff, hi, h1, h2, fun e he => h3 e (Nat.zero_le _) he⟩
  intro fuel
  induction fuel with
  | zero => intro s h; simp [chooseIndex] at h
  | succ fuel ih =>
    intro s h
    simp only [chooseIndex] at h
    split at h
    next j hj =>
      cases h
      obtain ⟨d, hd, hi, h1, h2⟩ := chooseAt_some hj
      rw [Nat.zero_add] at hd
      subst hd
      exact ⟨s, Nat.le_refl _, hi, h1, h2, fun e h1 h2 => by omega⟩
    next hn =>
      obtain ⟨eff, hle, hi, h1, h2, h3⟩ := ih (s+1) h
      refine ⟨eff, by omega, hi, h1, h2, fun e hs he => ?_⟩
      by_cases hes : e = s
      · subst hes; exact chooseAt_none hn
      · exact h3 e (by omega) he

/-- C03: the choice returns as soon as some condition is confirmed at some effort. -/
theorem C03_choose_terminates (ps : List (Nat → LV)) (eff : Nat)
    (h : ∃ p ∈ ps, p eff = true_) : ∃ i, chooseIndex ps (eff+1) 0 = some i := by
  suffices H : ∀ d s, s + d = eff → ∃ i, chooseIndex ps (d+1) s = some i from
    H eff 0 (by omega)
  intro d
  induction d with
  | zero =>
    intro s hs
    simp only [chooseIndex]
    split
    next i _ => exact ⟨i, rfl⟩
    next hn =>
      obtain ⟨p, hp, hpe⟩ := h
      obtain rfl : s = eff := by omega
      exact absurd hpe (chooseAt_none hn p hp)
  | succ d ih =>
    intro s hs
    rw [chooseIndex]
    split
    next i _ => exact ⟨i, rfl⟩
    next hn => exact ih (s+1) (by omega)

/-- C03: binary choice returns `true` only if the first and `false` only if the second condition is
definitely true at some effort, and returns once either is confirmed. -/
theorem C03_choose_bool (p1 p2 : Nat → LV) :
    (∀ fuel s, chooseBool p1 p2 fuel s = some true → ∃ eff, s ≤ eff ∧ p1 eff = true_) ∧
    (∀ fuel s, chooseBool p1 p2 fuel s = some false → ∃ eff, s ≤ eff ∧ p2 eff = true_) ∧
    (∀ eff, (p1 eff = true_ ∨ p2 eff = true_) → (chooseBool p1 p2 (eff+1) 0).isSome) := by
  have aux : ∀ b fuel s, chooseBool p1 p2 fuel s = some b →
      ∃ eff, s ≤ eff ∧ (if b then p1 else p2) eff = true_ := by
    intro b fuel
    induction fuel with
    | zero => intro s h; simp [chooseBool] at h
    | succ fuel ih =>
      intro s h
      simp only [chooseBool] at h
      split at h
      next hd => cases h; exact ⟨s, Nat.le_refl _, by simpa using definitely_toLower.1 hd⟩
      next =>
        split at h
        next hd => cases h; exact ⟨s, Nat.le_refl _, by simpa using definitely_toLower.1 hd⟩
        next => obtain ⟨eff, hle, h'⟩ := ih (s+1) h; exact ⟨eff, by omega, h'⟩
  refine ⟨fun fuel s h => by simpa using aux true fuel s h,
    fun fuel s h => by simpa using aux false fuel s h, ?_⟩
  intro eff h
  suffices H : ∀ d s, s + d = eff → (chooseBool p1 p2 (d+1) s).isSome from H eff 0 (by omega)
  intro d
  induction d with
  | zero =>
    intro s hs
    obtain rfl : s = eff := by omega
    rcases h with h | h <;> by_cases h' : definitely (toLower (p1 s)) = true <;>
      simp_all [chooseBool, definitely_toLower]
  | succ d ih =>
    intro s hs
    rw [chooseBool]
    split
    · rfl
    · split
      · rfl
      · exact ih (s+1) (by omega)

/-- Non-vacuity of C03: three conditions, the second is confirmed at effort 2. -/
example : chooseIndex [fun _ => likely, fun e => if e ≥ 2 then true_ else likely, fun _ => false_] 3 0
    = some 1 := by decide

/-! ## C04 mixing with Booleans -/

/-- C04 fails: `Sierpinskian(false) || true`, used as a `Kleenean`, is definitely false although
the disjunction is true. -/
theorem C04_or_counterexample :
    ∃ (s : Expr Empty) (b : Bool) (leaf : Empty → Nat → LV), ∀ eff,
      ¬ Describes (checkKleenean leaf (sierpinskianOrBoolean s b) eff)
        (s.Truth (fun _ => False) (fun v => v = true_) ∨ b = true) := by
  refine ⟨.const false_, true, fun i => i.elim, fun eff => ?_⟩
  simp [checkKleenean, sierpinskianOrBoolean, Expr.check, Describes]

/-- C04 fails dually: `NegatedSierpinskian(true) && false`, used as a `Kleenean`, is definitely true. -/
theorem C04_and_counterexample :
    ∃ (s : Expr Empty) (b : Bool) (leaf : Empty → Nat → LV), ∀ eff,
      ¬ Describes (checkKleenean leaf (negatedSierpinskianAndBoolean s b) eff)
        (s.Truth (fun _ => False) (fun v => v = true_) ∧ b = true) := by
  refine ⟨.const true_, false, fun i => i.elim, fun eff => ?_⟩
  simp [checkKleenean, negatedSierpinskianAndBoolean, Expr.check, Describes]

/-- C04: also within the semidecidable type itself the overload loses the Boolean: `s || true` is
never confirmed when `s` is not. -/
theorem C04_or_incomplete :
    ∃ (s : Expr Empty) (leaf : Empty → Nat → LV), ∀ eff,
      checkSierpinskian leaf (sierpinskianOrBoolean s true) eff ≠ true_ := by
  refine ⟨.const indeterminate, fun i => i.elim, fun eff => ?_⟩
  simp [checkSierpinskian, sierpinskianOrBoolean, Expr.check, toLower, or_, code]

/-- C04, the part that holds: viewed as a (negated) Sierpinskian (whose verdicts are one-sided) the
result never asserts a falsehood, for every combination and operand order.  Missing from the full
statement: the Boolean's information is lost and conversion to `Kleenean` is unsound (see the
counterexamples above). -/
theorem C04_mixed_partial {ι : Type} (leaf : ι → Nat → LV) (tv : ι → Prop) (cst : LV → Prop)
    (hleaf : ∀ i n, Describes (leaf i n) (tv i)) (hcst : ∀ v, Describes v (cst v))
    (s : Expr ι) (b : Bool) (eff : Nat) :
    Describes (checkSierpinskian leaf (sierpinskianOrBoolean s b) eff) (s.Truth tv cst ∨ b = true) ∧
    Describes (checkSierpinskian leaf (booleanOrSierpinskian b s) eff) (b = true ∨ s.Truth tv cst) ∧
    Describes (checkNegatedSierpinskian leaf (negatedSierpinskianAndBoolean s b) eff)
      (s.Truth tv cst ∧ b = true) ∧
    Describes (checkNegatedSierpinskian leaf (booleanAndNegatedSierpinskian b s) eff)
      (b = true ∧ s.Truth tv cst) := by
  have h := C02_check_sound leaf tv cst hleaf hcst s eff
  have hc := C01_clamp_sound _ _ h
  refine ⟨⟨fun h1 => Or.inl (h.1 (hc.2.2.2.1.1 h1)), fun h1 => absurd h1 hc.2.2.2.2.1⟩,
    ⟨fun h1 => Or.inr (h.1 (hc.2.2.2.1.1 h1)), fun h1 => absurd h1 hc.2.2.2.2.1⟩,
    ⟨fun h1 => absurd h1 hc.2.2.2.2.2.2.1, fun h1 h2 => h.2 (hc.2.2.2.2.2.1.1 h1) h2.1⟩,
    ⟨fun h1 => absurd h1 hc.2.2.2.2.2.2.1, fun h1 h2 => h.2 (hc.2.2.2.2.2.1.1 h1) h2.2⟩⟩

end Ariadne.Logical
