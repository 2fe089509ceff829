import Verif.Tensor.Props

/-!
# C109: the solver for a string follows its recurrence after the initial time
-/

namespace Verif.Tensor

variable {K : Type} [Field K]

/-- The values which the scheme defines, at time `n` and point `i`: fixed ends, the initial data, the first step, and the steps
from two earlier times. -/
def scheme (Nx : ℕ) (a b C2 : K) (s : ℕ → ℕ → K) (ic : ℕ → K) : ℕ → ℕ → K
  | 0, i => if 1 ≤ i ∧ i + 1 < Nx then ic i else 0
  | 1, i => if 1 ≤ i ∧ i + 1 < Nx then
      scheme Nx a b C2 s ic 0 i - C2 * (scheme Nx a b C2 s ic 0 (i - 1) - 2 * scheme Nx a b C2 s ic 0 i +
        scheme Nx a b C2 s ic 0 (i + 1)) / 2 + s i 0
    else 0
  | n + 2, i => if 1 ≤ i ∧ i + 1 < Nx then
      a * (2 * scheme Nx a b C2 s ic (n + 1) i - scheme Nx a b C2 s ic n i + b * scheme Nx a b C2 s ic n i +
        C2 * (scheme Nx a b C2 s ic (n + 1) (i - 1) - 2 * scheme Nx a b C2 s ic (n + 1) i +
          scheme Nx a b C2 s ic (n + 1) (i + 1))) + s i (n + 1)
    else 0

theorem scheme_end {Nx : ℕ} {a b C2 : K} {s : ℕ → ℕ → K} {ic : ℕ → K} {i : ℕ} (h : ¬ (1 ≤ i ∧ i + 1 < Nx)) (n : ℕ) :
    scheme Nx a b C2 s ic n i = 0 := by
  match n with
  | 0 => rw [scheme, if_neg h]
  | 1 => rw [scheme, if_neg h]
  | n + 2 => rw [scheme, if_neg h]

/-- A tensor with given values. -/
def Has (Nx Nt : ℕ) (F : ℕ → ℕ → K) (u : Tensor K) : Prop :=
  u.ns = [Nx, Nt] ∧ Sized u ∧ ∀ i < Nx, ∀ n < Nt, get u [i, n] = some (F i n)

theorem Has.congr {Nx Nt : ℕ} {F G : ℕ → ℕ → K} {u : Tensor K} (h : Has Nx Nt F u) (e : ∀ i < Nx, ∀ n < Nt, F i n = G i n) :
    Has Nx Nt G u := ⟨h.1, h.2.1, fun i hi n hn => by rw [h.2.2 i hi n hn, e i hi n hn]⟩

theorem Has.set {Nx Nt : ℕ} {F : ℕ → ℕ → K} {u : Tensor K} (h : Has Nx Nt F u) {i n : ℕ} (hi : i < Nx) (hn : n < Nt) (x : K) :
    ∃ u', Tensor.set u [i, n] x = some u' ∧ Has Nx Nt (fun i' n' => if i' = i ∧ n' = n then x else F i' n') u' := by
  have hw : Within [i, n] u.ns := by rw [h.1]; exact .cons hi (.cons hn .nil)
  obtain ⟨-, u', h1, h2, h3, h4, h5⟩ := C109_elements u h.2.1 [i, n] hw x
  refine ⟨u', h1, h3.trans h.1, h2, fun i' hi' n' hn' => ?_⟩
  beta_reduce
  by_cases e : i' = i ∧ n' = n
  · rw [if_pos e, e.1, e.2]; exact h4
  · rw [if_neg e, h5 [i', n'] (by rw [h.1]; exact .cons hi' (.cons hn' .nil)) (by simpa using e)]
    exact h.2.2 i' hi' n' hn'

theorem loop_spec {A : Type} (body : A → ℕ → Option A) (P : ℕ → A → Prop) (m : ℕ)
    (hs : ∀ k < m, ∀ u, P k u → ∃ u', body u k = some u' ∧ P (k + 1) u') {u : A} (hu : P 0 u) :
    ∃ u', (List.range m).foldlM body u = some u' ∧ P m u' := by
  induction m with
  | zero => exact ⟨u, rfl, hu⟩
  | succ m ih =>
    obtain ⟨v, h1, h2⟩ := ih fun k hk => hs k (by omega)
    obtain ⟨w, h3, h4⟩ := hs m (by omega) v h2
    refine ⟨w, ?_, h4⟩
    rw [List.range_succ, List.foldlM_append, h1]
    simp only [Option.bind_eq_bind, Option.bind_some, List.foldlM_cons, List.foldlM_nil]
    rw [h3]; rfl

section
variable {Nx Nt : ℕ} {a b C2 : K} {s : ℕ → ℕ → K} {ic : ℕ → K}

local notation "E" => scheme Nx a b C2 s ic

theorem initial_spec (ht : 0 < Nt) : ∃ u, (List.range Nx).foldlM (fun u i => Tensor.set u [i, 0] (ic i)) (constant [Nx, Nt] (0 : K)) = some u ∧
    Has Nx Nt (fun i n => if n = 0 ∧ i < Nx then ic i else 0) u := by
  refine loop_spec _ (fun k u => Has Nx Nt (fun i n => if n = 0 ∧ i < k then ic i else 0) u) Nx (fun k hk u hu => ?_) ?_
  · obtain ⟨u', h1, h2⟩ := hu.set hk ht (ic k)
    refine ⟨u', h1, h2.congr fun i _ n _ => ?_⟩
    by_cases e : i = k ∧ n = 0
    · rw [if_pos e, if_pos ⟨e.2, by omega⟩, e.1]
    · rw [if_neg e]
      by_cases e' : n = 0 ∧ i < k
      · rw [if_pos e', if_pos ⟨e'.1, by omega⟩]
      · rw [if_neg e', if_neg (by omega)]
  · obtain ⟨h1, h2⟩ := C109_constant [Nx, Nt] (by simp) (0 : K)
    refine ⟨rfl, h1, fun i hi n hn => ?_⟩
    beta_reduce
    rw [h2 [i, n] (.cons hi (.cons hn .nil)), if_neg (by omega)]

/-- Fixing the ends of column `n`. -/
theorem ends_spec {F : ℕ → ℕ → K} {u : Tensor K} (hu : Has Nx Nt F u) {n : ℕ} (hx : 0 < Nx) (hn : n < Nt) :
    ∃ u1, Tensor.set u [0, n] 0 = some u1 ∧ ∃ u2, Tensor.set u1 [Nx - 1, n] 0 = some u2 ∧
      Has Nx Nt (fun i n' => if n' = n ∧ ¬ (1 ≤ i ∧ i + 1 < Nx) then 0 else F i n') u2 := by
  obtain ⟨u1, h1, h2⟩ := hu.set (i := 0) hx hn 0
  obtain ⟨u2, h3, h4⟩ := h2.set (i := Nx - 1) (by omega) hn 0
  refine ⟨u1, h1, u2, h3, h4.congr fun i hi n' _ => ?_⟩
  by_cases e : n' = n ∧ ¬ (1 ≤ i ∧ i + 1 < Nx)
  · rw [if_pos e]
    by_cases e1 : i = Nx - 1 ∧ n' = n
    · rw [if_pos e1]
    · rw [if_neg e1, if_pos (by omega)]
  · rw [if_neg e, if_neg (by omega), if_neg (by omega)]

/-- The columns up to `m` are those of the scheme. -/
def Cols (Nx Nt : ℕ) (a b C2 : K) (s : ℕ → ℕ → K) (ic : ℕ → K) (m : ℕ) : Tensor K → Prop :=
  Has Nx Nt fun i n => if n ≤ m then scheme Nx a b C2 s ic n i else 0

theorem first_spec {u : Tensor K} (hu : Has Nx Nt (fun i n => if n = 0 ∧ i < Nx then ic i else 0) u) (hx : 2 ≤ Nx)
    (ht : 2 ≤ Nt) : ∃ u', stringFirst Nx C2 s u = some u' ∧ Cols Nx Nt a b C2 s ic 1 u' := by
  obtain ⟨u1, h1, u2, h2, h3⟩ := ends_spec hu (n := 0) (by omega) (by omega)
  have h4 : Has Nx Nt (fun i n => if n = 0 then E 0 i else if n = 1 ∧ i ≤ 0 then E 1 i else 0) u2 := by
    refine h3.congr fun i hi n _ => ?_
    by_cases e0 : n = 0
    · subst e0
      rw [if_pos rfl]
      by_cases e : 1 ≤ i ∧ i + 1 < Nx
      · rw [if_neg (by omega), if_pos ⟨rfl, hi⟩, scheme, if_pos e]
      · rw [if_pos ⟨rfl, e⟩, scheme_end e]
    · rw [if_neg (by omega), if_neg (by omega), if_neg e0]
      by_cases e : n = 1 ∧ i ≤ 0
      · rw [if_pos e, scheme_end (by omega)]
      · rw [if_neg e]
  unfold stringFirst
  rw [h1, Option.bind_some, h2, Option.bind_some, List.foldlM_map]
  obtain ⟨u', g1, g2⟩ := loop_spec (fun u i => (get u [i + 1, 0]).bind fun c => (get u [i + 1 - 1, 0]).bind fun l =>
      (get u [i + 1 + 1, 0]).bind fun r => Tensor.set u [i + 1, 1] (c - C2 * (l - 2 * c + r) / 2 + s (i + 1) 0))
    (fun k u => Has Nx Nt (fun i n => if n = 0 then E 0 i else if n = 1 ∧ i ≤ k then E 1 i else 0) u) (Nx - 2)
    (fun k hk u hu => by
      obtain ⟨u', h1, h2⟩ := hu.set (i := k + 1) (n := 1) (by omega) (by omega) (E 1 (k + 1))
      refine ⟨u', ?_, h2.congr fun i _ n _ => ?_⟩
      · show (get u [k + 1, 0]).bind _ = _
        rw [hu.2.2 (k + 1) (by omega) 0 (by omega), Option.bind_some, hu.2.2 (k + 1 - 1) (by omega) 0 (by omega),
          Option.bind_some, hu.2.2 (k + 1 + 1) (by omega) 0 (by omega), Option.bind_some, ← h1]
        simp only [if_true]
        congr 1
        rw [scheme.eq_2, if_pos (by omega)]
      · by_cases e : i = k + 1 ∧ n = 1
        · rw [if_pos e, if_neg (by omega), if_pos ⟨e.2, by omega⟩, e.1]
        · rw [if_neg e]
          by_cases e0 : n = 0
          · rw [if_pos e0, if_pos e0]
          · rw [if_neg e0, if_neg e0]
            by_cases e1 : n = 1 ∧ i ≤ k
            · rw [if_pos e1, if_pos ⟨e1.1, by omega⟩]
            · rw [if_neg e1, if_neg (by omega)]) h4
  refine ⟨u', g1, g2.congr fun i hi n _ => ?_⟩
  by_cases e0 : n = 0
  · subst e0; rw [if_pos rfl, if_pos (by omega)]
  · rw [if_neg e0]
    by_cases e1 : n = 1
    · subst e1
      rw [if_pos le_rfl]
      by_cases e2 : i ≤ Nx - 2
      · rw [if_pos ⟨rfl, e2⟩]
      · rw [if_neg (by omega), scheme_end (by omega)]
    · rw [if_neg (by omega), if_neg (by omega)]

theorem step_ends {n : ℕ} {u : Tensor K} (hu : Cols Nx Nt a b C2 s ic n u) (hx : 2 ≤ Nx) (hn : n < Nt) :
    ∃ u1, Tensor.set u [0, n] 0 = some u1 ∧ ∃ u2, Tensor.set u1 [Nx - 1, n] 0 = some u2 ∧ Cols Nx Nt a b C2 s ic n u2 := by
  obtain ⟨u1, h1, u2, h2, h3⟩ := ends_spec hu (n := n) (by omega) hn
  refine ⟨u1, h1, u2, h2, h3.congr fun i hi n' _ => ?_⟩
  by_cases e : n' = n ∧ ¬ (1 ≤ i ∧ i + 1 < Nx)
  · rw [if_pos e, if_pos (by omega), scheme_end e.2]
  · rw [if_neg e]

theorem step_spec {q : ℕ} {u : Tensor K} (hu : Cols Nx Nt a b C2 s ic (q + 1) u) (hx : 2 ≤ Nx) (hn : q + 2 < Nt) :
    ∃ u', stringStep Nx a b C2 s u (q + 1) = some u' ∧ Cols Nx Nt a b C2 s ic (q + 2) u' := by
  obtain ⟨u1, h1, u2, h2, h3⟩ := step_ends hu hx (by omega)
  have h4 : Has Nx Nt (fun i n => if n ≤ q + 1 then E n i else if n = q + 2 ∧ i ≤ 0 then E n i else 0) u2 := by
    refine h3.congr fun i hi n _ => ?_
    by_cases e0 : n ≤ q + 1
    · rw [if_pos e0, if_pos e0]
    · rw [if_neg e0, if_neg e0]
      by_cases e : n = q + 2 ∧ i ≤ 0
      · rw [if_pos e, scheme_end (by omega)]
      · rw [if_neg e]
  unfold stringStep
  rw [h1, Option.bind_some, h2, Option.bind_some, List.foldlM_map]
  obtain ⟨u', g1, g2⟩ := loop_spec (fun u i => (get u [i + 1, q + 1]).bind fun c => (get u [i + 1, q + 1 - 1]).bind fun p =>
      (get u [i + 1 - 1, q + 1]).bind fun l => (get u [i + 1 + 1, q + 1]).bind fun r =>
        Tensor.set u [i + 1, q + 1 + 1] (a * (2 * c - p + b * p + C2 * (l - 2 * c + r)) + s (i + 1) (q + 1)))
    (fun k u => Has Nx Nt (fun i n => if n ≤ q + 1 then E n i else if n = q + 2 ∧ i ≤ k then E n i else 0) u) (Nx - 2)
    (fun k hk u hu => by
      obtain ⟨u', h1, h2⟩ := hu.set (i := k + 1) (n := q + 2) (by omega) (by omega) (E (q + 2) (k + 1))
      refine ⟨u', ?_, h2.congr fun i _ n _ => ?_⟩
      · show (get u [k + 1, q + 1]).bind _ = _
        rw [hu.2.2 (k + 1) (by omega) (q + 1) (by omega), Option.bind_some, hu.2.2 (k + 1) (by omega) (q + 1 - 1) (by omega),
          Option.bind_some, hu.2.2 (k + 1 - 1) (by omega) (q + 1) (by omega),
          Option.bind_some, hu.2.2 (k + 1 + 1) (by omega) (q + 1) (by omega), Option.bind_some, ← h1]
        simp only [le_refl, if_true, Nat.add_sub_cancel, if_pos (show q ≤ q + 1 by omega)]
        congr 1
        rw [scheme.eq_3, if_pos (by omega)]
        rfl
      · by_cases e : i = k + 1 ∧ n = q + 2
        · rw [if_pos e, if_neg (by omega), if_pos ⟨e.2, by omega⟩, e.1, e.2]
        · rw [if_neg e]
          by_cases e0 : n ≤ q + 1
          · rw [if_pos e0, if_pos e0]
          · rw [if_neg e0, if_neg e0]
            by_cases e1 : n = q + 2 ∧ i ≤ k
            · rw [if_pos e1, if_pos ⟨e1.1, by omega⟩]
            · rw [if_neg e1, if_neg (by omega)]) h4
  refine ⟨u', g1, g2.congr fun i hi n _ => ?_⟩
  by_cases e0 : n ≤ q + 1
  · rw [if_pos e0, if_pos (by omega)]
  · rw [if_neg e0]
    by_cases e1 : n = q + 2
    · subst e1
      rw [if_pos le_rfl]
      by_cases e2 : i ≤ Nx - 2
      · rw [if_pos ⟨rfl, e2⟩]
      · rw [if_neg (by omega), scheme_end (by omega)]
    · rw [if_neg (by omega), if_neg (by omega)]

/-- The columns of the scheme, but for the first. -/
def Later (Nx Nt : ℕ) (a b C2 : K) (s : ℕ → ℕ → K) (ic : ℕ → K) (u : Tensor K) : Prop :=
  u.ns = [Nx, Nt] ∧ Sized u ∧ ∀ i < Nx, ∀ n < Nt, 1 ≤ n → get u [i, n] = some (scheme Nx a b C2 s ic n i)

theorem last_spec {q : ℕ} {u : Tensor K} (hu : Cols Nx (q + 2) a b C2 s ic (q + 1) u) (hx : 2 ≤ Nx) :
    ∃ u', stringStep Nx a b C2 s u (q + 1) = some u' ∧ Later Nx (q + 2) a b C2 s ic u' := by
  obtain ⟨u1, h1, u2, h2, h3⟩ := step_ends hu hx (by omega)
  unfold stringStep
  rw [h1, Option.bind_some, h2, Option.bind_some, List.foldlM_map]
  refine loop_spec _ (fun _ u => Later Nx (q + 2) a b C2 s ic u) (Nx - 2) (fun k hk u hu => ?_) ⟨h3.1, h3.2.1, fun i hi n hn _ => by
    rw [h3.2.2 i hi n hn]; beta_reduce; rw [if_pos (by omega)]⟩
  have hg : ∀ i < Nx, ∀ n < q + 2, ∃ y, get u [i, n] = some y := fun i hi n hn =>
    have hw : Within [i, n] u.ns := by rw [hu.1]; exact .cons hi (.cons hn .nil)
    (C109_elements u hu.2.1 [i, n] hw 0).1
  obtain ⟨c, hc⟩ := hg (k + 1) (by omega) (q + 1) (by omega)
  obtain ⟨p, hp⟩ := hg (k + 1) (by omega) (q + 1 - 1) (by omega)
  obtain ⟨l, hl⟩ := hg (k + 1 - 1) (by omega) (q + 1) (by omega)
  obtain ⟨r, hr⟩ := hg (k + 1 + 1) (by omega) (q + 1) (by omega)
  have hw : Within [k + 1 + 1, 0] u.ns := by rw [hu.1]; exact .cons (by omega) (.cons (by omega) .nil)
  obtain ⟨-, u', g1, g2, g3, g4, g5⟩ := C109_elements u hu.2.1 [k + 1 + 1, 0] hw
    (a * (2 * c - p + b * p + C2 * (l - 2 * c + r)) + s (k + 1) (q + 1))
  have hidx : index u.ns [k + 1, q + 1 + 1] = index u.ns [k + 1 + 1, 0] := by
    rw [hu.1]
    show (k + 1) * (q + 2) + (q + 2) = (k + 1 + 1) * (q + 2) + 0
    ring
  refine ⟨u', ?_, g3.trans hu.1, g2, fun i hi n hn h1n => ?_⟩
  · show (get u [k + 1, q + 1]).bind _ = _
    rw [hc, Option.bind_some, hp, Option.bind_some, hl, Option.bind_some, hr, Option.bind_some, ← g1]
    unfold Tensor.set
    rw [hidx]
  · rw [g5 [i, n] (by rw [hu.1]; exact .cons hi (.cons hn .nil)) (by simp; omega)]
    exact hu.2.2 i hi n hn h1n

end

/-- **C109** (partial): for all data, the solver is defined and returns the values of the scheme, with fixed ends, at all times
after the initial one. Missing: the initial time (`C109_string_initial_fails`). -/
theorem C109_string_partial (Nx Nt : ℕ) (a b C2 : K) (s : ℕ → ℕ → K) (ic : ℕ → K) (hx : 2 ≤ Nx) (ht : 2 ≤ Nt) :
    ∃ t, stringSolve Nx Nt a b C2 s ic = some t ∧
      ∀ i < Nx, ∀ n < Nt, 1 ≤ n → get t [i, n] = some (scheme Nx a b C2 s ic n i) := by
  obtain ⟨u0, h0, g0⟩ := initial_spec (Nx := Nx) (Nt := Nt) (ic := ic) (by omega)
  obtain ⟨u1, h1, g1⟩ := first_spec (a := a) (b := b) (C2 := C2) (s := s) g0 hx ht
  obtain ⟨q, rfl⟩ : ∃ q, Nt = q + 2 := ⟨Nt - 2, by omega⟩
  obtain ⟨u2, h2, g2⟩ := loop_spec (fun u n => stringStep Nx a b C2 s u (n + 1))
    (fun k u => Cols Nx (q + 2) a b C2 s ic (k + 1) u) q (fun k hk u hu => step_spec hu hx (by omega)) g1
  obtain ⟨u3, h3, g3⟩ := last_spec g2 hx
  refine ⟨u3, ?_, g3.2.2⟩
  unfold stringSolve
  rw [h0, Option.bind_some, h1, Option.bind_some, List.foldlM_map, show q + 2 - 1 = q + 1 from rfl, List.range_succ,
    List.foldlM_append, h2]
  simp only [Option.bind_eq_bind, Option.bind_some, List.foldlM_cons, List.foldlM_nil]
  rw [h3]; rfl

end Verif.Tensor
