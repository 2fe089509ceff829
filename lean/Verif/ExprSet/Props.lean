import Verif.ExprSet.Model
import Verif.Hybrid.FunctionsDefined

/-!
# C102: sets of variables and expressions contain the points which satisfy them

The specification is in terms of valuations: functions from variables to real numbers.
-/

namespace Verif.ExprSet

open Verif.Hybrid Verif.Container Ariadne.Symbolic

variable {V I : Type*} [LinearOrder V]

theorem mapM_some {α β : Type*} (f : α → Option β) (l : List α) (r : List β) :
    l.mapM f = some r ↔ r.length = l.length ∧ ∀ (i : ℕ) (a : α), l[i]? = some a → f a = r[i]? := by
  induction l generalizing r with
  | nil =>
    simp only [List.mapM_nil, Option.pure_def, Option.some.injEq, List.length_nil, List.getElem?_nil, reduceCtorEq,
      false_imp_iff, implies_true, and_true]
    constructor
    · rintro rfl; rfl
    · intro h; exact (List.length_eq_zero_iff.1 h).symm
  | cons a l ih =>
    rw [List.mapM_cons]
    constructor
    · intro h
      obtain ⟨b, hb, h⟩ := Option.bind_eq_some_iff.1 h
      obtain ⟨bs, hbs, h⟩ := Option.bind_eq_some_iff.1 h
      obtain rfl := Option.some.inj h
      obtain ⟨h1, h2⟩ := (ih bs).1 hbs
      refine ⟨by simp [h1], fun i c hc => ?_⟩
      cases i with
      | zero =>
        simp only [List.getElem?_cons_zero, Option.some.injEq] at hc ⊢
        rw [← hc, hb]
      | succ i =>
        rw [List.getElem?_cons_succ] at hc ⊢
        exact h2 i c hc
    · rintro ⟨h1, h2⟩
      cases r with
      | nil => simp at h1
      | cons b bs =>
        have hb := h2 0 a rfl
        have : l.mapM f = some bs :=
          (ih bs).2 ⟨by simpa using h1, fun i c hc => by simpa using h2 (i + 1) c (by simpa using hc)⟩
        rw [List.getElem?_cons_zero] at hb
        simp [hb, this]

theorem mapM_isSome {α β : Type*} (f : α → Option β) (l : List α) : (∃ r, l.mapM f = some r) ↔ ∀ a ∈ l, (f a).isSome := by
  induction l with
  | nil => simp
  | cons a l ih =>
    rw [List.forall_mem_cons, ← ih, List.mapM_cons]
    cases f a <;> cases l.mapM f <;> simp

/-! ### Boxes -/

theorem foldl_minsert (l : List (V × I)) : ∀ m : List (V × I), SortedKeys m →
    SortedKeys (l.foldl (fun m p => minsert p.1 p.2 m) m) ∧
    ∀ v, find v (l.foldl (fun m p => minsert p.1 p.2 m) m) =
      (find v m).or ((l.find? fun p => decide (p.1 = v)).map Prod.snd) := by
  induction l with
  | nil => intro m hm; exact ⟨hm, fun v => by simp⟩
  | cons p l ih =>
    intro m hm
    rw [List.foldl_cons]
    obtain ⟨h1, h2⟩ := ih _ (hm.minsert (k := p.1) (v := p.2))
    refine ⟨h1, fun v => ?_⟩
    rw [h2, find_minsert hm]
    by_cases hv : v = p.1
    · rw [if_pos hv, List.find?_cons_of_pos (by simp [hv]), ← hv]
      cases find v m <;> simp
    · rw [if_neg hv, List.find?_cons_of_neg (by simpa using Ne.symm hv)]

/-- A box made of a list of bounds has the first bound of each variable. -/
theorem C102_box_of_list (l : List (V × I)) :
    SortedKeys (boxOfList l) ∧ ∀ v, find v (boxOfList l) = (l.find? fun p => decide (p.1 = v)).map Prod.snd := by
  obtain ⟨h1, h2⟩ := foldl_minsert l [] SortedKeys.nil
  refine ⟨h1, fun v => ?_⟩
  have := h2 v
  rw [show find v ([] : List (V × I)) = none from rfl, Option.none_or] at this
  exact this

/-- If the variables are different, then all bounds hold in the box. -/
theorem C102_box_bounds_partial (l : List (V × I)) (hl : (l.map Prod.fst).Nodup) (v : V) (i : I) :
    find v (boxOfList l) = some i ↔ (v, i) ∈ l := by
  rw [(C102_box_of_list l).2]
  induction l with
  | nil => simp
  | cons p l ih =>
    obtain ⟨hn, hnd⟩ := List.nodup_cons.1 hl
    by_cases hp : p.1 = v
    · rw [List.find?_cons_of_pos (by simp [hp])]
      simp only [Option.map_some, Option.some.injEq, List.mem_cons]
      constructor
      · intro h
        exact Or.inl (by rw [← hp, ← h])
      · rintro (h | h)
        · rw [← h]
        · refine absurd (List.mem_map.2 ⟨(v, i), h, rfl⟩ : v ∈ l.map Prod.fst) ?_
          rw [← hp]
          exact hn
    · rw [List.find?_cons_of_neg (by simpa using hp), ih hnd, List.mem_cons]
      constructor
      · exact Or.inr
      · rintro (h | h)
        · exact absurd (by rw [← h]) hp
        · exact h

/-- The box in a space has, at each place, the bounds of the variable at that place; it exists if all variables have bounds. -/
theorem C102_box_euclid (m : List (V × I)) (spc : List V) :
    ((∃ b, boxEuclid m spc = some b) ↔ ∀ v ∈ spc, (find v m).isSome) ∧
    ∀ b, boxEuclid m spc = some b → b.length = spc.length ∧ ∀ (i : ℕ) (v : V), spc[i]? = some v → find v m = b[i]? :=
  ⟨mapM_isSome _ _, fun b hb => (mapM_some _ _ b).1 hb⟩

/-- A box of a space, labelled with its variables, gives the box back; and in another space the bounds of the same variables. -/
theorem C102_box_round_trip (spc : List V) (hs : spc.Nodup) (b : List I) (hb : b.length = spc.length) (vars : List V) :
    ∃ m, boxOfSpace spc b = some m ∧ boxEuclid m spc = some b ∧ boxEuclid m vars = labelledEuclid spc b vars := by
  have hf : ∀ v, find v (boxOfList (spc.zip b)) = if v ∈ spc then b[spc.idxOf v]? else none := by
    intro v
    rw [(C102_box_of_list _).2]
    clear hs
    induction spc generalizing b with
    | nil => simp
    | cons w spc ih =>
      cases b with
      | nil => simp at hb
      | cons i b =>
        have := ih b (by simpa using hb)
        by_cases hv : w = v
        · subst hv
          simp
        · rw [List.zip_cons_cons, List.find?_cons_of_neg (by simpa using hv), this]
          by_cases hm : v ∈ spc
          · rw [if_pos hm, if_pos (List.mem_cons_of_mem _ hm), List.idxOf_cons_ne _ hv, List.getElem?_cons_succ]
          · rw [if_neg hm, if_neg]
            simp [hm, Ne.symm hv]
  refine ⟨boxOfList (spc.zip b), by rw [boxOfSpace, if_pos hb.symm], ?_, ?_⟩
  · refine (mapM_some _ _ b).2 ⟨hb, fun i v hv => ?_⟩
    obtain ⟨hi, rfl⟩ := List.getElem?_eq_some_iff.1 hv
    rw [hf, if_pos (List.getElem_mem hi), hs.idxOf_getElem i hi]
  · unfold boxEuclid labelledEuclid
    congr 1
    funext v
    exact hf v

/-- Over-approximations contain and under-approximations are contained, for every variable. -/
theorem C102_approximations {K : Type*} [Field K] [LinearOrder K] [IsStrictOrderedRing K] (R : Ariadne.Rounding K)
    (m : List (V × K × K)) (hm : SortedKeys m) (v : V) :
    ((find v (overApproximation R m)).isSome ↔ (find v m).isSome) ∧
    ((find v (underApproximation R m)).isSome ↔ (find v m).isSome) ∧
    ∀ i, find v m = some i →
      (∃ j, find v (overApproximation R m) = some j ∧ j.1 ≤ i.1 ∧ i.2 ≤ j.2 ∧ R.Rep j.1 ∧ R.Rep j.2) ∧
      (∃ j, find v (underApproximation R m) = some j ∧ i.1 ≤ j.1 ∧ j.2 ≤ i.2 ∧ R.Rep j.1 ∧ R.Rep j.2) := by
  have ho : ∀ (l r : List (V × K × K)), SortedKeys l → SortedKeys r → (∀ p ∈ l, find p.1 r = none) →
      find v (l.foldl (fun r p => minsert p.1 (R.down p.2.1, R.up p.2.2) r) r) =
        (find v r).or ((find v l).map fun i => (R.down i.1, R.up i.2)) := by
    intro l
    induction l with
    | nil => intro r _ _ _; simp [find]
    | cons p l ih =>
      intro r hl hr hn
      rw [List.foldl_cons, ih _ hl.tail hr.minsert, find_minsert hr]
      · by_cases hv : v = p.1
        · subst hv
          rw [if_pos rfl, hn p (by simp), show find p.1 (p :: l) = some p.2 from find_cons_self p.1 p.2 l]
          simp
        · rw [if_neg hv, show find v (p :: l) = find v l from find_cons_ne hl hv]
      · intro q hq
        rw [find_minsert hr, if_neg (hl.head_lt hq).ne', hn q (List.mem_cons_of_mem _ hq)]
  have hu : ∀ (l r : List (V × K × K)), SortedKeys l → SortedKeys r → (∀ p ∈ l, find p.1 r = none) →
      find v (l.foldl (fun r p => mset p.1 (R.up p.2.1, R.down p.2.2) r) r) =
        (find v r).or ((find v l).map fun i => (R.up i.1, R.down i.2)) := by
    intro l
    induction l with
    | nil => intro r _ _ _; simp [find]
    | cons p l ih =>
      intro r hl hr hn
      rw [List.foldl_cons, ih _ hl.tail hr.mset, find_mset hr]
      · by_cases hv : v = p.1
        · subst hv
          rw [if_pos rfl, hn p (by simp), show find p.1 (p :: l) = some p.2 from find_cons_self p.1 p.2 l]
          simp
        · rw [if_neg hv, show find v (p :: l) = find v l from find_cons_ne hl hv]
      · intro q hq
        rw [find_mset hr, if_neg (hl.head_lt hq).ne', hn q (List.mem_cons_of_mem _ hq)]
  have e1 : find v (overApproximation R m) = (find v m).map fun i => (R.down i.1, R.up i.2) := by
    have := ho m [] hm SortedKeys.nil (fun _ _ => rfl)
    rwa [show find v ([] : List (V × K × K)) = none from rfl, Option.none_or] at this
  have e2 : find v (underApproximation R m) = (find v m).map fun i => (R.up i.1, R.down i.2) := by
    have := hu m [] hm SortedKeys.nil (fun _ _ => rfl)
    rwa [show find v ([] : List (V × K × K)) = none from rfl, Option.none_or] at this
  rw [e1, e2]
  refine ⟨by simp, by simp, fun i hi => ?_⟩
  rw [hi]
  exact ⟨⟨_, rfl, R.down_le _, R.le_up _, R.rep_down _, R.rep_up _⟩, ⟨_, rfl, R.le_up _, R.down_le _, R.rep_up _, R.rep_down _⟩⟩

/-! ### Constraint sets -/

/-- spec: a point of the euclidean set: in the domain, with the functions at most zero -/
def InSet (mem : I → ℝ → Prop) (E : List I × List (Expr ℕ)) (x : ℕ → ℝ) : Prop :=
  (∀ i b, E.1[i]? = some b → mem b (x i)) ∧ ∀ f ∈ E.2, ∃ r, f.eval x = some r ∧ r ≤ 0

/-- spec: a valuation which satisfies the bounds and does not make a constraint false -/
def Sat (mem : I → ℝ → Prop) (s : BSet V I) (y : V → ℝ) : Prop :=
  (∀ v b, (v, b) ∈ s.bounds → mem b (y v)) ∧ ∀ c ∈ s.constraints, c.eval y ≠ some .ff

/-- The constructor from lists accepts exactly the lists with different variables whose constraints use bounded variables only,
and keeps all bounds. -/
theorem C102_constructor (l : List (V × I)) (cs : List (KExpr V)) (s : BSet V I) :
    bsetOfList l cs = some s ↔ (l.map Prod.fst).Nodup ∧ (∀ c ∈ cs, ∀ v ∈ kargs c, ∃ b, (v, b) ∈ l) ∧
      s.constraints = cs ∧ SortedKeys s.bounds ∧ ∀ v b, (v, b) ∈ s.bounds ↔ (v, b) ∈ l := by
  have hk : ∀ v, v ∈ keys (boxOfList l) ↔ ∃ b, (v, b) ∈ l := by
    intro v
    rw [mem_keys_iff (C102_box_of_list l).1, hasKey, (C102_box_of_list l).2, Option.isSome_map]
    simp [List.find?_isSome]
  have hc : (cs.all fun c => decide (∀ v ∈ kargs c, v ∈ keys (boxOfList l))) = true ↔
      ∀ c ∈ cs, ∀ v ∈ kargs c, ∃ b, (v, b) ∈ l := by
    simp only [List.all_eq_true, decide_eq_true_eq, hk]
  unfold bsetOfList bsetOfMap uniqueKeys
  by_cases h : (cs.all fun c => decide (∀ v ∈ kargs c, v ∈ keys (boxOfList l))) = true
  · rw [if_pos h, Option.bind_some]
    by_cases hn : (l.map Prod.fst).Nodup
    · rw [if_pos ((C61_unique _).2 hn)]
      constructor
      · intro hs
        obtain rfl := Option.some.inj hs
        refine ⟨hn, hc.1 h, rfl, (C102_box_of_list l).1, fun v b => ?_⟩
        rw [← find_iff (C102_box_of_list l).1, C102_box_bounds_partial l hn]
      · rintro ⟨-, -, h1, h2, h3⟩
        have : s.bounds = boxOfList l := by
          refine h2.ext (C102_box_of_list l).1 fun v => ?_
          cases hb : find v (boxOfList l) with
          | none =>
            by_contra hne
            obtain ⟨b, hb'⟩ := Option.ne_none_iff_exists'.1 hne
            rw [find_iff h2, h3, ← C102_box_bounds_partial l hn, hb] at hb'
            simp at hb'
          | some b =>
            rw [find_iff h2, h3, ← C102_box_bounds_partial l hn, hb]
        cases s
        simp only at this h1
        rw [this, h1]
    · rw [if_neg (fun hh => hn ((C61_unique _).1 hh))]
      simp [hn]
  · rw [if_neg h, Option.bind_none]
    have : ¬ ∀ c ∈ cs, ∀ v ∈ kargs c, ∃ b, (v, b) ∈ l := fun hh => h (hc.2 hh)
    simp [this]

/-- The euclidean set exists exactly in the spaces with the variables of the set, if the constraints have no equalities. -/
theorem C102_euclid_exists (s : BSet V I) (hs : SortedKeys s.bounds)
    (hcs : ∀ c ∈ s.constraints, ∀ v ∈ kargs c, ∃ b, (v, b) ∈ s.bounds) (spc : List V) :
    (∃ E, s.euclid spc = some E) ↔
      (∀ v, v ∈ spc ↔ ∃ b, (v, b) ∈ s.bounds) ∧ ∀ c ∈ s.constraints, ¬ c.NoIndicator := by
  have hk : keys s.bounds = ofList spc ↔ ∀ v, v ∈ spc ↔ ∃ b, (v, b) ∈ s.bounds := by
    rw [C61_set_ext (keys_spec _).1 (C61_of_list spc).1]
    refine forall_congr' fun v => ?_
    rw [(keys_spec s.bounds).2, (C61_of_list spc).2]
    exact Iff.comm
  unfold BSet.euclid
  by_cases h : keys s.bounds = ofList spc
  · rw [if_pos h]
    have hv := hk.1 h
    obtain ⟨d, hd⟩ : ∃ d, boxEuclid s.bounds spc = some d := by
      refine (C102_box_euclid _ _).1.2 fun v hm => ?_
      obtain ⟨b, hb⟩ := (hv v).1 hm
      rw [(find_iff hs).2 hb]
      rfl
    rw [hd, Option.bind_some]
    have hf : (∃ fs, constraintFunctions spc s.constraints = some fs) ↔ ∀ c ∈ s.constraints, ¬ c.NoIndicator := by
      unfold constraintFunctions
      rw [mapM_isSome]
      refine forall₂_congr fun c hc => ?_
      cases hi : c.indicator false with
      | none => simp [(C50_indicator_throws c false).1 hi]
      | some a =>
        have h1 : ¬ c.NoIndicator := by
          rw [← C50_indicator_throws c false, hi]
          simp
        obtain ⟨f, hf⟩ := (C64_make_formula spc a).1.2 fun v hva =>
          (hv v).2 (hcs c hc v (indicator_arguments c false hi v hva))
        simp [h1, hf]
    rw [← hf]
    constructor
    · rintro ⟨E, hE⟩
      obtain ⟨fs, hfs, _⟩ := Option.map_eq_some_iff.1 hE
      exact ⟨hv, fs, hfs⟩
    · rintro ⟨_, fs, hfs⟩
      exact ⟨(d, fs), by rw [hfs]; rfl⟩
  · rw [if_neg h]
    simp only [reduceCtorEq, exists_false, false_iff, not_and]
    exact fun hh => absurd (hk.2 hh) h

/-- The euclidean set contains exactly the points of the valuations which satisfy the bounds and the constraints, for
constraints without conjunction and disjunction, wherever the constraints are defined. -/
theorem C102_euclid_partial (mem : I → ℝ → Prop) (s : BSet V I) (hs : SortedKeys s.bounds) (spc : List V)
    (E : List I × List (Expr ℕ)) (hE : s.euclid spc = some E) (hat : ∀ c ∈ s.constraints, c.Atomic) (y : V → ℝ)
    (hy : ∀ c ∈ s.constraints, ∃ k, c.eval y = some k) : InSet mem E (coords spc y) ↔ Sat mem s y := by
  unfold BSet.euclid at hE
  split_ifs at hE with hk
  obtain ⟨d, hd, hE⟩ := Option.bind_eq_some_iff.1 hE
  obtain ⟨fs, hfs, rfl⟩ := Option.map_eq_some_iff.1 hE
  obtain ⟨hdl, hdi⟩ := (C102_box_euclid _ _).2 d hd
  obtain ⟨hfl, hfi⟩ := (mapM_some _ _ fs).1 hfs
  unfold InSet Sat
  dsimp only
  refine and_congr ⟨fun h v b hvb => ?_, fun h i b hib => ?_⟩ ⟨fun h c hc => ?_, fun h f hf => ?_⟩
  · have hv : v ∈ spc := by
      rw [← (C61_of_list spc).2, ← hk, (keys_spec _).2]
      exact ⟨b, hvb⟩
    obtain ⟨i, hi⟩ := List.mem_iff_getElem?.1 hv
    have := h i b (by rw [← hdi i v hi, find_iff hs]; exact hvb)
    simpa [coords, hi] using this
  · obtain ⟨hlt, _⟩ := List.getElem?_eq_some_iff.1 hib
    have hi : spc[i]? = some spc[i] := List.getElem?_eq_getElem (hdl ▸ hlt)
    have := hdi i _ hi
    rw [hib, find_iff hs] at this
    simpa [coords, hi] using h _ b this
  · obtain ⟨i, hi⟩ := List.mem_iff_getElem?.1 hc
    have hci := hfi i c hi
    have hlt : i < fs.length := by
      rw [hfl]
      exact (List.getElem?_eq_some_iff.1 hi).1
    rw [List.getElem?_eq_getElem hlt] at hci
    obtain ⟨a, ha, hf⟩ := Option.bind_eq_some_iff.1 hci
    obtain ⟨k, hkk⟩ := hy c hc
    obtain ⟨r, hr, _, h2⟩ := C50_indicator_negative_partial (hat c hc) ha hkk
    obtain ⟨r', hr', hle⟩ := h _ (List.getElem_mem hlt)
    rw [((C64_make_formula spc a).2 _ hf).1 y, hr] at hr'
    obtain rfl := Option.some.inj hr'
    intro hff
    rw [hkk] at hff
    exact absurd (h2.2 (Option.some.inj hff)) (not_lt.2 hle)
  · obtain ⟨i, hi⟩ := List.mem_iff_getElem?.1 hf
    have hlt : i < s.constraints.length := by
      rw [← hfl]
      exact (List.getElem?_eq_some_iff.1 hi).1
    have hc := List.getElem?_eq_getElem hlt
    have hcm := List.getElem_mem hlt
    have hci := hfi i _ hc
    rw [hi] at hci
    obtain ⟨a, ha, hfa⟩ := Option.bind_eq_some_iff.1 hci
    obtain ⟨k, hkk⟩ := hy _ hcm
    obtain ⟨r, hr, _, h2⟩ := C50_indicator_negative_partial (hat _ hcm) ha hkk
    refine ⟨r, by rw [((C64_make_formula spc a).2 _ hfa).1 y, hr], not_lt.1 fun h0 => ?_⟩
    exact h _ hcm (by rw [hkk, h2.1 h0])

/-- The set does not depend on the order of the variables in the space. -/
theorem C102_order_partial (mem : I → ℝ → Prop) (s : BSet V I) (hs : SortedKeys s.bounds) (spc spc' : List V)
    (E E' : List I × List (Expr ℕ)) (hE : s.euclid spc = some E) (hE' : s.euclid spc' = some E')
    (hat : ∀ c ∈ s.constraints, c.Atomic) (y : V → ℝ) (hy : ∀ c ∈ s.constraints, ∃ k, c.eval y = some k) :
    InSet mem E (coords spc y) ↔ InSet mem E' (coords spc' y) := by
  rw [C102_euclid_partial mem s hs spc E hE hat y hy, C102_euclid_partial mem s hs spc' E' hE' hat y hy]

/-- A set with an equality or an inequality `!=` among its constraints has no euclidean set in any space. -/
theorem C102_equality_fails (s : BSet V I) (c : KExpr V) (hc : c ∈ s.constraints) (hn : c.NoIndicator) (spc : List V) :
    s.euclid spc = none := by
  unfold BSet.euclid
  split_ifs
  · have : constraintFunctions spc s.constraints = none := by
      rw [← Option.not_isSome_iff_eq_none, Option.isSome_iff_exists]
      unfold constraintFunctions
      rw [mapM_isSome]
      intro h
      have := h c hc
      rw [(C50_indicator_throws c false).2 hn] at this
      simp at this
    rw [this]
    cases boxEuclid s.bounds spc <;> rfl
  · rfl

/-- A set of constraints has the dimension of the space, if there is a constraint. -/
theorem C102_constraint_dimension_partial (cs : List (KExpr V)) (hcs : cs ≠ []) (spc : List V) (E : ℕ × List (Expr ℕ))
    (hE : constraintEuclid cs spc = some E) : E.1 = spc.length := by
  unfold constraintEuclid at hE
  split_ifs at hE
  obtain ⟨fs, hfs, rfl⟩ := Option.map_eq_some_iff.1 hE
  have hl := ((mapM_some _ _ fs).1 hfs).1
  have : fs ≠ [] := by
    intro h0
    rw [h0] at hl
    exact hcs (List.length_eq_zero_iff.1 hl.symm)
  simp [this]

/-- Without constraints the dimension is zero whatever the space. -/
theorem C102_constraint_dimension_fails (spc : List V) : constraintEuclid ([] : List (KExpr V)) spc = some (0, []) := by
  simp [constraintEuclid, constraintFunctions]

/-! ### Hybrid sets -/

variable {L : Type*} [LinearOrder L]

/-- Adjoining a set in a new location: it is the set in that location, and the others are kept. -/
theorem C102_hybrid_adjoin_partial (h : List (L × BSet V I)) (hh : SortedKeys h) (l : L) (s : BSet V I) (hl : find l h = none)
    (k : L) (spc : List V) :
    SortedKeys (hadjoin l s h) ∧ heuclid (hadjoin l s h) k spc = if k = l then s.euclid spc else heuclid h k spc := by
  refine ⟨hh.minsert, ?_⟩
  unfold heuclid hadjoin
  rw [find_minsert hh]
  split_ifs with hk
  · rw [hl]
    rfl
  · rfl

/-- Adjoining a set in a location which has one already does nothing. -/
theorem C102_hybrid_adjoin_fails (h : List (L × BSet V I)) (hh : SortedKeys h) (l : L) (s t : BSet V I) (hl : find l h = some t)
    (k : L) (spc : List V) : heuclid (hadjoin l s h) k spc = heuclid h k spc := by
  unfold heuclid hadjoin
  rw [find_minsert hh]
  split_ifs with hk
  · rw [hk, hl]
    rfl
  · rfl

theorem intersectLoop_spec (hcs : List (L × List (KExpr V))) (hbxs : List (L × List (V × I))) :
    ∀ r h : List (L × BSet V I), SortedKeys hbxs → SortedKeys r → (∀ p ∈ hbxs, find p.1 r = none) →
    intersectLoop hcs hbxs r = some h → SortedKeys h ∧ ∀ l, find l h =
      (find l r).or ((find l hbxs).bind fun bx => (find l hcs).bind fun cs => bsetOfMap bx cs) := by
  induction hbxs with
  | nil =>
    intro r h _ hr _ hi
    rw [intersectLoop] at hi
    obtain rfl := Option.some.inj hi
    exact ⟨hr, fun l => by simp [find]⟩
  | cons p hbxs ih =>
    obtain ⟨l, bx⟩ := p
    intro r h hs hr hn hi
    rw [intersectLoop] at hi
    cases hc : find l hcs with
    | none => simp [hc] at hi
    | some cs =>
      cases hb : bsetOfMap bx cs with
      | none => simp [hc, hb] at hi
      | some s =>
        simp only [hc, hb] at hi
        have hrr : find l r = none := hn (l, bx) (by simp)
        have hf : ∀ k, find k (hadjoin l s (hadjoin l s r)) = if k = l then some s else find k r := by
          intro k
          unfold hadjoin
          rw [find_minsert hr.minsert, find_minsert hr, find_minsert hr]
          by_cases hk : k = l
          · simp [hk, hrr]
          · simp [hk]
        have hsr : SortedKeys (hadjoin l s (hadjoin l s r)) := hr.minsert.minsert
        obtain ⟨h1, h2⟩ := ih _ h hs.tail hsr (fun q hq => by
          rw [hf, if_neg (hs.head_lt hq).ne', hn q (List.mem_cons_of_mem _ hq)]) hi
        refine ⟨h1, fun k => ?_⟩
        rw [h2, hf]
        split_ifs with hk
        · subst hk
          rw [hrr, find_cons_self]
          simp [hc, hb]
        · rw [find_cons_ne hs hk]

theorem intersectLoop_exists (hcs : List (L × List (KExpr V))) (hbxs : List (L × List (V × I))) (r : List (L × BSet V I)) :
    (∃ h, intersectLoop hcs hbxs r = some h) ↔
      ∀ l bx, (l, bx) ∈ hbxs → ∃ cs s, find l hcs = some cs ∧ bsetOfMap bx cs = some s := by
  induction hbxs generalizing r with
  | nil => simp [intersectLoop]
  | cons p hbxs ih =>
    obtain ⟨l, bx⟩ := p
    rw [intersectLoop]
    constructor
    · rintro ⟨h, hh⟩ k by' hk
      cases hc : find l hcs with
      | none => simp [hc] at hh
      | some cs =>
        cases hb : bsetOfMap bx cs with
        | none => simp [hc, hb] at hh
        | some s =>
          simp only [hc, hb] at hh
          rcases List.mem_cons.1 hk with hk | hk
          · obtain ⟨rfl, rfl⟩ := Prod.mk.inj hk
            exact ⟨cs, s, hc, hb⟩
          · exact (ih _).1 ⟨h, hh⟩ k by' hk
    · intro h
      obtain ⟨cs, s, hc, hb⟩ := h l bx (by simp)
      simp only [hc, hb]
      exact (ih _).2 fun k by' hk => h k by' (List.mem_cons_of_mem _ hk)

theorem bsetOfMap_iff (m : List (V × I)) (cs : List (KExpr V)) (s : BSet V I) :
    bsetOfMap m cs = some s ↔ (∀ c ∈ cs, ∀ v ∈ kargs c, ∃ b, (v, b) ∈ m) ∧ s.bounds = m ∧ s.constraints = cs := by
  have hc : (cs.all fun c => decide (∀ v ∈ kargs c, v ∈ keys m)) = true ↔ ∀ c ∈ cs, ∀ v ∈ kargs c, ∃ b, (v, b) ∈ m := by
    simp only [List.all_eq_true, decide_eq_true_eq, (keys_spec m).2]
  unfold bsetOfMap
  split_ifs with h
  · cases s
    simp only [Option.some.injEq, BSet.mk.injEq]
    constructor
    · rintro ⟨rfl, rfl⟩
      exact ⟨hc.1 h, rfl, rfl⟩
    · rintro ⟨_, rfl, rfl⟩
      exact ⟨rfl, rfl⟩
  · have : ¬ ∀ c ∈ cs, ∀ v ∈ kargs c, ∃ b, (v, b) ∈ m := fun hh => h (hc.2 hh)
    simp [this]

/-- The intersection of boxes with constraints has in every location of the boxes the box with the constraints there, and no
other locations; it exists if every location of a box has constraints, which use the variables of the box only. -/
theorem C102_intersection_partial (hbxs : List (L × List (V × I))) (hs : SortedKeys hbxs) (hcs : List (L × List (KExpr V))) :
    ((∃ h, hintersection hbxs hcs = some h) ↔ ∀ l bx, (l, bx) ∈ hbxs →
      ∃ cs, find l hcs = some cs ∧ ∀ c ∈ cs, ∀ v ∈ kargs c, ∃ b, (v, b) ∈ bx) ∧
    ∀ h, hintersection hbxs hcs = some h → SortedKeys h ∧ ∀ l s, find l h = some s ↔
      (l, s.bounds) ∈ hbxs ∧ find l hcs = some s.constraints := by
  refine ⟨?_, fun h hi => ?_⟩
  · unfold hintersection
    rw [intersectLoop_exists]
    refine forall₃_congr fun l bx _ => ⟨?_, ?_⟩
    · rintro ⟨cs, s, h1, h2⟩
      exact ⟨cs, h1, ((bsetOfMap_iff _ _ _).1 h2).1⟩
    · rintro ⟨cs, h1, h2⟩
      exact ⟨cs, ⟨bx, cs⟩, h1, (bsetOfMap_iff _ _ _).2 ⟨h2, rfl, rfl⟩⟩
  · have he := (intersectLoop_exists hcs hbxs []).1 ⟨h, hi⟩
    obtain ⟨h1, h2⟩ := intersectLoop_spec hcs hbxs [] h hs SortedKeys.nil (fun _ _ => rfl) hi
    refine ⟨h1, fun l s => ?_⟩
    rw [h2, show find l ([] : List (L × BSet V I)) = none from rfl, Option.none_or]
    constructor
    · intro hf
      obtain ⟨bx, hb, hf⟩ := Option.bind_eq_some_iff.1 hf
      obtain ⟨cs, hc, hf⟩ := Option.bind_eq_some_iff.1 hf
      obtain ⟨_, e1, e2⟩ := (bsetOfMap_iff _ _ _).1 hf
      rw [e1, e2]
      exact ⟨(find_iff hs).1 hb, hc⟩
    · rintro ⟨hb, hc⟩
      obtain ⟨cs, t, hc', ht⟩ := he _ _ hb
      rw [hc] at hc'
      obtain rfl := Option.some.inj hc'
      rw [(find_iff hs).2 hb, hc]
      exact (bsetOfMap_iff _ _ _).2 ⟨((bsetOfMap_iff _ _ _).1 ht).1, rfl, rfl⟩

/-- A location with a box and without constraints makes the intersection fail, although no constraint excludes a point. -/
theorem C102_intersection_fails (hbxs : List (L × List (V × I))) (hcs : List (L × List (KExpr V))) (l : L) (bx : List (V × I))
    (hl : (l, bx) ∈ hbxs) (hc : find l hcs = none) : hintersection hbxs hcs = none := by
  by_contra h
  obtain ⟨r, hr⟩ := Option.ne_none_iff_exists'.1 h
  obtain ⟨cs, s, h1, _⟩ := (intersectLoop_exists hcs hbxs []).1 ⟨r, hr⟩ l bx hl
  rw [hc] at h1
  simp at h1

end Verif.ExprSet
