import Verif.Grid.Cell
import Mathlib.Algebra.Order.BigOperators.Group.List
/-!
# C18: enclosing primary cells and neighbouring cells
-/
namespace Verif.Grid
open Ariadne.BinaryWord (Word)

variable {K : Type*} [Field K] [LinearOrder K] [IsStrictOrderedRing K] {d : ℕ} [NeZero d]

/-! ## Searching primary cells -/

theorem searchExtent_spec (test : ℤ × ℤ → Bool) (fuel e r : ℕ)
    (h : searchExtent test fuel e (primaryCorners e) = some r) :
    e ≤ r ∧ test (primaryCorners r) = true ∧ ∀ s, e ≤ s → s < r → test (primaryCorners s) = false := by
  induction fuel generalizing e with
  | zero => simp [searchExtent] at h
  | succ fuel ih =>
    rw [searchExtent] at h
    by_cases ht : test (primaryCorners e) = true
    · rw [if_pos ht, Option.some.injEq] at h
      subst h
      exact ⟨le_refl _, ht, fun s h1 h2 => by omega⟩
    · rw [if_neg ht] at h
      obtain ⟨h1, h2, h3⟩ := ih (e + 1) h
      refine ⟨by omega, h2, fun s hs1 hs2 => ?_⟩
      rcases Nat.eq_or_lt_of_le hs1 with rfl | hlt
      · simpa using ht
      · exact h3 s hlt hs2

theorem searchExtent_terminates (test : ℤ × ℤ → Bool) (e n fuel : ℕ) (hn : test (primaryCorners (e + n)) = true)
    (hf : n < fuel) : ∃ r, searchExtent test fuel e (primaryCorners e) = some r := by
  induction n generalizing e fuel with
  | zero =>
    obtain ⟨f, rfl⟩ : ∃ f, fuel = f + 1 := ⟨fuel - 1, by omega⟩
    exact ⟨e, by rw [searchExtent, if_pos (by simpa using hn)]⟩
  | succ n ih =>
    obtain ⟨f, rfl⟩ : ∃ f, fuel = f + 1 := ⟨fuel - 1, by omega⟩
    rw [searchExtent]
    split_ifs with h
    · exact ⟨e, rfl⟩
    · exact ih (e + 1) f (by rw [show e + 1 + n = e + (n + 1) by omega]; exact hn) (by omega)

theorem insidePrimary_iff (B : Box K d) (c : ℤ × ℤ) :
    insidePrimary B c = true ↔ ∀ j, (c.1 : K) < (B j).1 ∧ (B j).2 < c.2 := by
  simp [insidePrimary, List.all_eq_true]

/-- **Enclosing primary cell.**  The search terminates for every box; the extent found is the least
one whose primary cell contains the box in its interior. -/
theorem C18_smallest_enclosing [Archimedean K] (B : Box K d) :
    ∃ n e, (∀ fuel, n ≤ fuel → smallestEnclosing fuel B = some e) ∧
      (∀ j, ((primaryBox K d e) j).1 < (B j).1 ∧ (B j).2 < ((primaryBox K d e) j).2) ∧
      ∀ e', e' < e → ¬ ∀ j, ((primaryBox K d e') j).1 < (B j).1 ∧ (B j).2 < ((primaryBox K d e') j).2 := by
  have hex : ∃ m : ℕ, ∀ j, -(m : K) < (B j).1 ∧ (B j).2 < (m : K) := by
    have hj : ∀ j, ∃ m : ℕ, -(m : K) < (B j).1 ∧ (B j).2 < (m : K) := by
      intro j
      obtain ⟨m, hm⟩ := exists_nat_gt (max (-(B j).1) (B j).2)
      exact ⟨m, by linarith [lt_of_le_of_lt (le_max_left (-(B j).1) (B j).2) hm],
        lt_of_le_of_lt (le_max_right _ _) hm⟩
    choose m hm using hj
    refine ⟨((List.finRange d).map m).sum, fun j => ?_⟩
    have hle : m j ≤ ((List.finRange d).map m).sum :=
      List.le_sum_of_mem (List.mem_map.2 ⟨j, List.mem_finRange j, rfl⟩)
    have hle' : (m j : K) ≤ (((List.finRange d).map m).sum : ℕ) := by exact_mod_cast hle
    exact ⟨by linarith [(hm j).1], by linarith [(hm j).2]⟩
  obtain ⟨m, hm⟩ := hex
  have htest : insidePrimary B (primaryCorners (0 + 2 * m)) = true := by
    rw [insidePrimary_iff, zero_add]
    obtain ⟨h1, h2⟩ := primaryCorners_unbounded m
    intro j
    have h1' : ((primaryCorners (2 * m)).1 : K) ≤ -(m : K) := by exact_mod_cast h1
    have h2' : (m : K) < ((primaryCorners (2 * m)).2 : K) := by exact_mod_cast h2
    exact ⟨lt_of_le_of_lt h1' (hm j).1, (hm j).2.trans h2'⟩
  obtain ⟨e, he⟩ := searchExtent_terminates (insidePrimary B) 0 (2 * m) (2 * m + 1) htest (by omega)
  obtain ⟨-, hs1, hs2⟩ := searchExtent_spec _ _ _ _ he
  refine ⟨2 * m + 1, e, fun fuel hf => ?_, (insidePrimary_iff _ _).1 hs1, fun e' he' hc => ?_⟩
  · obtain ⟨r, hr⟩ := searchExtent_terminates (insidePrimary B) 0 (2 * m) fuel htest (by omega)
    obtain ⟨-, hr1, hr2⟩ := searchExtent_spec _ _ _ _ hr
    have : smallestEnclosing fuel B = some r := hr
    rw [this]
    congr 1
    rcases lt_trichotomy e r with h | h | h
    · rw [hr2 e (by omega) h] at hs1; exact absurd hs1 (by simp)
    · exact h.symm
    · rw [hs2 r (by omega) h] at hr1; exact absurd hr1 (by simp)
  · have := hs2 e' (by omega) he'
    rw [← Bool.not_eq_true, insidePrimary_iff] at this
    exact this hc

example : smallestEnclosing 5 (fun _ : Fin 2 => ((1/2, 5/2) : ℚ × ℚ)) = some 2 := by decide +kernel

/-- The test is for strict inclusion, so a primary cell does not enclose itself: for the unit box,
which *is* the primary cell of extent 0, the search returns extent 2 (a cell with edges four times as
long). -/
theorem C18_enclosing_not_minimal :
    smallestEnclosing 5 (primaryBox ℚ 2 0) = some 2 ∧
    (primaryBox ℚ 2 0).closed ⊆ (primaryBox ℚ 2 0).closed := by
  exact ⟨by decide +kernel, subset_rfl⟩

/-! ## Bits of one coordinate -/

/-- The bits at the positions of coordinate `k`. -/
def coordBits (d k : ℕ) : ℕ → Word → Word
  | _, [] => []
  | i, b :: w => if i % d = k then b :: coordBits d k (i + 1) w else coordBits d k (i + 1) w

omit [LinearOrder K] [IsStrictOrderedRing K] in
theorem descend_coord (i : ℕ) (w : Word) (B : Box K d) (j : Fin d) :
    descend i w B j = (coordBits d j i w).foldl (fun I b => halve b I) (B j) := by
  induction w generalizing i B with
  | nil => rfl
  | cons b w ih =>
    rw [descend, ih, coordBits]
    by_cases h : i % d = j
    · have : Fin.ofNat d i = j := Fin.ext h
      rw [if_pos h, this, Function.update_self]; rfl
    · have : j ≠ Fin.ofNat d i := fun hc => h (by rw [hc]; rfl)
      rw [if_neg h, Function.update_of_ne this]

theorem coordBits_append (k i : ℕ) (v w : Word) :
    coordBits d k i (v ++ w) = coordBits d k i v ++ coordBits d k (i + v.length) w := by
  induction v generalizing i with
  | nil => rfl
  | cons b v ih =>
    simp only [List.cons_append, coordBits, List.length_cons, ih]
    rw [show i + 1 + v.length = i + (v.length + 1) by omega]
    split_ifs <;> rfl

theorem coordBits_all (k i : ℕ) (w : Word) (b : Bool)
    (h : ∀ m, (i + m) % d = k → ∀ c, w[m]? = some c → c = b) :
    ∃ n, coordBits d k i w = List.replicate n b := by
  induction w generalizing i with
  | nil => exact ⟨0, rfl⟩
  | cons c w ih =>
    obtain ⟨n, hn⟩ := ih (i + 1) fun m hm c hc => h (m + 1) (by rw [← hm]; congr 1; omega) c (by simpa using hc)
    rw [coordBits]
    split_ifs with hi
    · have := h 0 hi c (by simp)
      subst this
      exact ⟨n + 1, by rw [hn]; rfl⟩
    · exact ⟨n, hn⟩

theorem halve_true_upper (n : ℕ) (I : K × K) :
    ((List.replicate n true).foldl (fun I b => halve b I) I).2 = I.2 := by
  induction n generalizing I with
  | zero => rfl
  | succ n ih => rw [List.replicate_succ, List.foldl_cons, ih]; rfl

theorem foldl_true (n : ℕ) (I : K × K) :
    (List.replicate n true).foldl (fun I b => halve b I) I = (I.2 - (I.2 - I.1) / 2 ^ n, I.2) := by
  induction n generalizing I with
  | zero => ext <;> simp
  | succ n ih =>
    rw [List.replicate_succ, List.foldl_cons, ih]
    ext
    · simp only [halve, if_true]; rw [pow_succ]; field_simp; ring
    · rfl

theorem foldl_false (n : ℕ) (I : K × K) :
    (List.replicate n false).foldl (fun I b => halve b I) I = (I.1, I.1 + (I.2 - I.1) / 2 ^ n) := by
  induction n generalizing I with
  | zero => ext <;> simp
  | succ n ih =>
    rw [List.replicate_succ, List.foldl_cons, ih]
    ext
    · rfl
    · simp only [halve, Bool.false_eq_true, if_false]; rw [pow_succ]; field_simp; ring

/-- Adding one in the last place: `…01…1` becomes `…10…0` and the interval moves by its width. -/
theorem foldl_increment (v : Word) (n : ℕ) (I : K × K) :
    (v ++ true :: List.replicate n false).foldl (fun I b => halve b I) I =
      (((v ++ false :: List.replicate n true).foldl (fun I b => halve b I) I).2,
       ((v ++ false :: List.replicate n true).foldl (fun I b => halve b I) I).2 +
       (((v ++ false :: List.replicate n true).foldl (fun I b => halve b I) I).2 -
        ((v ++ false :: List.replicate n true).foldl (fun I b => halve b I) I).1)) := by
  simp only [List.foldl_append, List.foldl_cons, foldl_true, foldl_false]
  generalize v.foldl (fun I b => halve b I) I = J
  ext
  · simp [halve]
  · simp only [halve, if_true, Bool.false_eq_true, if_false]; ring

/-! ## Neighbouring cells -/

theorem lastZero_spec (k : ℕ) (w : Word) (p : ℕ)
    (h : ∃ q, q ≤ p ∧ q % d = k ∧ w[q]? = some false) :
    lastZero d k w p ≤ p ∧ lastZero d k w p % d = k ∧ w[lastZero d k w p]? = some false ∧
      ∀ q, lastZero d k w p < q → q ≤ p → q % d = k → w[q]? ≠ some false := by
  induction p with
  | zero =>
    obtain ⟨q, hq, h1, h2⟩ := h
    obtain rfl : q = 0 := by omega
    exact ⟨le_refl _, h1, h2, fun q h3 h4 => by simp [lastZero] at h3; omega⟩
  | succ p ih =>
    rw [lastZero]
    split_ifs with hc
    · exact ⟨le_refl _, hc.1, hc.2, fun q h3 h4 => by omega⟩
    · have : ∃ q, q ≤ p ∧ q % d = k ∧ w[q]? = some false := by
        obtain ⟨q, hq, h1, h2⟩ := h
        rcases Nat.eq_or_lt_of_le hq with rfl | hlt
        · exact absurd ⟨h1, h2⟩ hc
        · exact ⟨q, by omega, h1, h2⟩
      obtain ⟨h1, h2, h3, h4⟩ := ih this
      refine ⟨by omega, h2, h3, fun q hq1 hq2 hq3 => ?_⟩
      rcases Nat.eq_or_lt_of_le hq2 with rfl | hlt
      · exact fun hf => hc ⟨hq3, hf⟩
      · exact h4 q hq1 (by omega) hq3

theorem coordBits_invert_other (k j p i : ℕ) (w : Word) (hjk : j ≠ k) :
    coordBits d j i (w.mapIdx fun m b => if p ≤ i + m ∧ (i + m) % d = k then !b else b) = coordBits d j i w := by
  induction w generalizing i with
  | nil => rfl
  | cons b w ih =>
    rw [List.mapIdx_cons, coordBits, coordBits]
    have := ih (i + 1)
    simp only [show ∀ m, i + 1 + m = i + (m + 1) by intro m; omega] at this
    rw [this]
    by_cases hi : i % d = j
    · rw [if_pos hi, if_pos hi, if_neg]
      rintro ⟨_, h⟩
      exact hjk (hi.symm.trans h)
    · rw [if_neg hi, if_neg hi]

/-- Inverting the last `0` of a coordinate and the `1`s after it moves the cell by its width. -/
theorem invert_moves (e : ℕ) (w : Word) (k : Fin d) (p : ℕ) (hp : p % d = k) (hz : w[p]? = some false)
    (hl : ∀ q, p < q → q % d = k → w[q]? ≠ some false) :
    (∀ j, j ≠ k → latticeBox K d e (invertFrom d k p w) j = latticeBox K d e w j) ∧
    latticeBox K d e (invertFrom d k p w) k = ((latticeBox K d e w k).2,
      (latticeBox K d e w k).2 + ((latticeBox K d e w k).2 - (latticeBox K d e w k).1)) := by
  have hpl : p < w.length := by
    by_contra hc
    rw [List.getElem?_eq_none (by omega)] at hz
    exact absurd hz (by simp)
  constructor
  · intro j hj
    rw [latticeBox, latticeBox, descend_coord, descend_coord]
    have := coordBits_invert_other (d := d) k j p 0 w (fun h => hj (Fin.ext h))
    simp only [zero_add] at this
    rw [invertFrom, this]
  · rw [latticeBox, latticeBox, descend_coord, descend_coord]
    have hw : w = w.take p ++ false :: w.drop (p + 1) := by
      rw [List.getElem?_eq_getElem hpl, Option.some.injEq] at hz
      conv_lhs => rw [← List.take_append_drop p w, List.drop_eq_getElem_cons hpl, hz]
    obtain ⟨n, hn⟩ := coordBits_all (d := d) k (p + 1) (w.drop (p + 1)) true (by
      intro m hm c hc
      rw [List.getElem?_drop] at hc
      cases c
      · exact absurd hc (hl _ (by omega) hm)
      · rfl)
    have hv : invertFrom d k p w = w.take p ++ true :: (invertFrom d k p w).drop (p + 1) := by
      have hpl' : p < (invertFrom d k p w).length := by simpa [invertFrom] using hpl
      have e1 : (invertFrom d k p w).take p = w.take p := by
        apply List.ext_getElem?
        intro m
        rw [List.getElem?_take, List.getElem?_take]
        split_ifs with hm
        · rw [invertFrom, List.getElem?_mapIdx]
          cases w[m]? with
          | none => rfl
          | some b => simp only [Option.map_some]; rw [if_neg (by omega)]
        · rfl
      have e2 : (invertFrom d k p w)[p] = true := by
        have : (invertFrom d k p w)[p]? = some true := by
          rw [invertFrom, List.getElem?_mapIdx, hz, Option.map_some, if_pos ⟨le_refl _, hp⟩]; rfl
        rwa [List.getElem?_eq_getElem hpl', Option.some.injEq] at this
      conv_lhs => rw [← List.take_append_drop p (invertFrom d k p w), List.drop_eq_getElem_cons hpl', e1, e2]
    obtain ⟨n', hn'⟩ := coordBits_all (d := d) k (p + 1) ((invertFrom d k p w).drop (p + 1)) false (by
      intro m hm c hc
      rw [List.getElem?_drop, invertFrom, List.getElem?_mapIdx] at hc
      cases hb : w[p + 1 + m]? with
      | none => rw [hb] at hc; exact absurd hc (by simp)
      | some b =>
        rw [hb, Option.map_some, if_pos ⟨by omega, hm⟩, Option.some.injEq] at hc
        cases b
        · exact absurd hb (hl _ (by omega) hm)
        · exact hc.symm)
    have hnn : n' = n := by
      have hlen : ∀ (i : ℕ) (u v : Word), u.length = v.length →
          (coordBits d k i u).length = (coordBits d k i v).length := by
        intro i u
        induction u generalizing i with
        | nil => intro v h; cases v with
          | nil => rfl
          | cons _ _ => simp at h
        | cons b u ih => intro v h; cases v with
          | nil => simp at h
          | cons c v =>
            have := ih (i + 1) v (by simpa using h)
            simp only [coordBits]; split_ifs <;> simp [this]
      have := hlen (p + 1) ((invertFrom d k p w).drop (p + 1)) (w.drop (p + 1)) (by simp [invertFrom])
      rw [hn, hn', List.length_replicate, List.length_replicate] at this
      exact this
    have hlt : (w.take p).length = p := by simp; omega
    have c1 : coordBits d k 0 w = coordBits d k 0 (w.take p) ++ false :: List.replicate n true := by
      conv_lhs => rw [hw]
      rw [coordBits_append, hlt, zero_add, coordBits, if_pos hp, hn]
    have c2 : coordBits d k 0 (invertFrom d k p w) = coordBits d k 0 (w.take p) ++ true :: List.replicate n false := by
      conv_lhs => rw [hv]
      rw [coordBits_append, hlt, zero_add, coordBits, if_pos hp, hn', hnn]
    rw [c1, c2, foldl_increment]

theorem exists_zero (e : ℕ) (w : Word) (k : Fin d)
    (h : (latticeBox K d e w k).2 < ((primaryCorners e).2 : K)) :
    ∃ q, q < w.length ∧ q % d = k ∧ w[q]? = some false := by
  by_contra hc
  push Not at hc
  obtain ⟨n, hn⟩ := coordBits_all (d := d) k 0 w true (by
    intro m hm c hcm
    rw [zero_add] at hm
    have hml : m < w.length := by
      by_contra h2
      rw [List.getElem?_eq_none (by omega)] at hcm
      exact absurd hcm (by simp)
    cases c
    · exact absurd hcm (hc m hml hm)
    · rfl)
  rw [latticeBox, descend_coord, hn, halve_true_upper] at h
  exact lt_irrefl _ h

/-- **Neighbouring cell.**  For every cell and coordinate the computation ends and yields the cell of
the same size adjacent in the positive direction of that coordinate, re-rooting as far as needed. -/
theorem C18_neighbour [Archimedean K] (a : Cell) (k : Fin d) :
    ∃ n b, (∀ fuel, n ≤ fuel → a.neighbour K d fuel k = some b) ∧
      (∀ j, j ≠ k → b.box K d j = a.box K d j) ∧
      b.box K d k = ((a.box K d k).2, (a.box K d k).2 + ((a.box K d k).2 - (a.box K d k).1)) := by
  set u := (a.box K d k).2 + ((a.box K d k).2 - (a.box K d k).1) / 2 with hu
  have hlt : (a.box K d k).2 < u := by have := a.box_proper (K := K) k; rw [hu]; linarith
  obtain ⟨m, hm⟩ := exists_nat_gt u
  have htest : (fun c : ℤ × ℤ => decide (u ≤ (c.2 : K))) (primaryCorners (0 + 2 * m)) = true := by
    rw [zero_add]
    have h2 := (primaryCorners_unbounded m).2
    have h2' : (m : K) < ((primaryCorners (2 * m)).2 : K) := by exact_mod_cast h2
    exact decide_eq_true (hm.le.trans h2'.le)
  obtain ⟨e, he⟩ := searchExtent_terminates (fun c : ℤ × ℤ => decide (u ≤ (c.2 : K))) 0 (2 * m) (2 * m + 1) htest (by omega)
  obtain ⟨-, hs1, hs2⟩ := searchExtent_spec _ _ _ _ he
  have huniq : ∀ fuel, 2 * m + 1 ≤ fuel →
      searchExtent (fun c : ℤ × ℤ => decide (u ≤ (c.2 : K))) fuel 0 (0, 1) = some e := by
    intro fuel hf
    obtain ⟨r, hr⟩ := searchExtent_terminates (fun c : ℤ × ℤ => decide (u ≤ (c.2 : K))) 0 (2 * m) fuel htest (by omega)
    obtain ⟨-, hr1, hr2⟩ := searchExtent_spec _ _ _ _ hr
    have : searchExtent (fun c : ℤ × ℤ => decide (u ≤ (c.2 : K))) fuel 0 (0, 1) = some r := hr
    rw [this]
    congr 1
    rcases lt_trichotomy e r with h | h | h
    · rw [hr2 e (by omega) h] at hs1; exact absurd hs1 (by simp)
    · exact h.symm
    · rw [hs2 r (by omega) h] at hr1; exact absurd hr1 (by simp)
  have hue : u ≤ ((primaryCorners e).2 : K) := of_decide_eq_true hs1
  -- the re-rooted cell
  obtain ⟨e', w, hew, hbox, hup⟩ : ∃ e' w, (if e > a.extent then (e, primaryPath d e a.extent ++ a.word)
      else (a.extent, a.word)) = (e', w) ∧ latticeBox K d e' w = a.box K d ∧ u ≤ ((primaryCorners e').2 : K) := by
    by_cases h : e > a.extent
    · exact ⟨e, _, by rw [if_pos h], C18_reroot _ _ _ (by omega), hue⟩
    · refine ⟨a.extent, a.word, by rw [if_neg h], rfl, hue.trans ?_⟩
      exact_mod_cast (primaryCorners_mono (show e ≤ a.extent by omega)).2
  obtain ⟨q, hq1, hq2, hq3⟩ := exists_zero (K := K) e' w k (by rw [hbox]; exact lt_of_lt_of_le hlt hup)
  obtain ⟨z1, z2, z3, z4⟩ := lastZero_spec (d := d) k w (w.length - 1) ⟨q, by omega, hq2, hq3⟩
  obtain ⟨m1, m2⟩ := invert_moves (K := K) e' w k (lastZero d k w (w.length - 1)) z2 z3 (by
    intro q h1 h2
    by_cases hql : q ≤ w.length - 1
    · exact z4 q h1 hql h2
    · rw [List.getElem?_eq_none (by omega)]; simp)
  refine ⟨2 * m + 1, ⟨e', invertFrom d k (lastZero d k w (w.length - 1)) w⟩, fun fuel hf => ?_, ?_, ?_⟩
  · rw [Cell.neighbour]
    simp only
    rw [huniq fuel hf, Option.map_some, hew]
  · intro j hj
    rw [← hbox]; exact m1 j hj
  · rw [← hbox]; exact m2

example : Cell.neighbour ℚ 2 5 ⟨0, [true, true]⟩ 0 = some ⟨2, [true, false, false, true, false, true]⟩ := by
  decide +kernel

end Verif.Grid
