import Verif.FunctionObject.Model
import Mathlib.Data.List.Basic
import Mathlib.Tactic.Ring

/-!
# C104: operations on functions act pointwise, and leave the other functions alone

The specification is pointwise evaluation: `value h a x` for vector functions and `valueS h s x` for scalar functions.
-/

namespace Verif.FunctionObject

variable {K : Type}

/-- The vector functions a scalar function refers to. -/
def SF.refs : SF K → List ℕ
  | .const _ _ => []
  | .coord _ _ => []
  | .un _ f => f.refs
  | .bin _ f g => f.refs ++ g.refs
  | .comp f g => g :: f.refs

/-- The vector functions a node refers to. -/
def Node.refs : Node K → List ℕ
  | .vec _ fs => fs.flatMap SF.refs
  | .comp f g => [f, g]
  | .join f g => [f, g]

/-- Nodes refer to older nodes, the components of a vector have the argument size of the vector, and joined functions
have the same argument sizes. -/
structure WF (h : Heap K) : Prop where
  older : ∀ (a : ℕ) (nd : Node K), h[a]? = some nd → ∀ b ∈ nd.refs, b < a
  vec : ∀ (a n : ℕ) (fs : List (SF K)), h[a]? = some (.vec n fs) → ∀ s ∈ fs, argS h s = n
  join : ∀ a f g : ℕ, h[a]? = some (.join f g) → arg h f = arg h g

/-- A scalar function which refers to existing functions only. -/
def Below (m : ℕ) (s : SF K) : Prop := ∀ b ∈ s.refs, b < m

theorem Below.mono {m n : ℕ} {s : SF K} (h : Below m s) (hmn : m ≤ n) : Below n s :=
  fun b hb => lt_of_lt_of_le (h b hb) hmn

section Stable
variable [Field K] [DecidableEq K]

theorem evalS_congr {ev ev' : ℕ → List K → Option (List K)} (s : SF K) :
    (∀ b ∈ s.refs, ev b = ev' b) → evalS ev s = evalS ev' s := by
  induction s with
  | const n c => intro _; rfl
  | coord n i => intro _; rfl
  | un op f ih => intro h; funext x; simp only [evalS]; rw [ih h]
  | bin op f g ihf ihg =>
    intro h; funext x; simp only [evalS]
    rw [ihf fun b hb => h b (List.mem_append_left _ hb), ihg fun b hb => h b (List.mem_append_right _ hb)]
  | comp f g ih =>
    intro h; funext x; simp only [evalS]
    rw [h g List.mem_cons_self, ih fun b hb => h b (List.mem_cons_of_mem _ hb)]

/-- Evaluation in two heaps which agree up to `a`, with enough handles, is the same. -/
theorem evalV_agree {h h' : Heap K} (hw : ∀ (a : ℕ) (nd : Node K), h[a]? = some nd → ∀ b ∈ nd.refs, b < a) :
    ∀ a : ℕ, (∀ b, b ≤ a → h[b]? = h'[b]?) → ∀ t t' : ℕ, a < t → a < t' → evalV h t a = evalV h' t' a := by
  intro a
  induction a using Nat.strong_induction_on with
  | _ a ih =>
    intro hag t t' ht ht'
    obtain ⟨t, rfl⟩ := Nat.exists_eq_succ_of_ne_zero (by omega : t ≠ 0)
    obtain ⟨t', rfl⟩ := Nat.exists_eq_succ_of_ne_zero (by omega : t' ≠ 0)
    have hb : ∀ b, b < a → evalV h t b = evalV h' t' b := fun b hb =>
      ih b hb (fun c hc => hag c (by omega)) t t' (by omega) (by omega)
    funext x
    simp only [evalV]
    rw [← hag a le_rfl]
    cases hn : h[a]? with
    | none => rfl
    | some nd =>
      have hr := hw a nd hn
      cases nd with
      | vec n fs =>
        simp only
        have : ∀ l : List (SF K), (∀ s ∈ l, ∀ b ∈ s.refs, b < a) →
            (l.mapM fun f => evalS (evalV h t) f x) = l.mapM fun f => evalS (evalV h' t') f x := by
          intro l
          induction l with
          | nil => intro _; rfl
          | cons s l ihl =>
            intro hl
            rw [List.mapM_cons, List.mapM_cons, ihl fun s hs => hl s (List.mem_cons_of_mem _ hs),
              evalS_congr s fun b hb' => hb b (hl s List.mem_cons_self b hb')]
        exact this fs fun s hs b hb' => hr b (List.mem_flatMap.2 ⟨s, hs, hb'⟩)
      | comp f g =>
        simp only
        rw [hb f (hr f (by simp [Node.refs])), hb g (hr g (by simp [Node.refs]))]
      | join f g =>
        simp only
        rw [hb f (hr f (by simp [Node.refs])), hb g (hr g (by simp [Node.refs]))]

theorem value_fuel {h : Heap K} (hw : WF h) {a t : ℕ} (ht : a < t) : evalV h t a = value h a := by
  have := evalV_agree (h' := h) hw.older a (fun _ _ => rfl) t (a + 1) ht (by omega)
  rw [this]; rfl

theorem value_vec {h : Heap K} (hw : WF h) {a n : ℕ} {fs : List (SF K)} (hn : h[a]? = some (.vec n fs))
    (x : List K) : value h a x = fs.mapM fun f => valueS h f x := by
  unfold value
  simp only [evalV, hn]
  have : ∀ l : List (SF K), (∀ s ∈ l, ∀ b ∈ s.refs, b < a) →
      (l.mapM fun f => evalS (evalV h a) f x) = l.mapM fun f => valueS h f x := by
    intro l
    induction l with
    | nil => intro _; rfl
    | cons s l ihl =>
      intro hl
      rw [List.mapM_cons, List.mapM_cons, ihl fun s hs => hl s (List.mem_cons_of_mem _ hs)]
      unfold valueS
      rw [evalS_congr s fun b hb' => value_fuel hw (hl s List.mem_cons_self b hb')]
  exact this fs fun s hs b hb' => hw.older a _ hn b (List.mem_flatMap.2 ⟨s, hs, hb'⟩)

theorem value_comp {h : Heap K} (hw : WF h) {a f g : ℕ} (hn : h[a]? = some (.comp f g)) (x : List K) :
    value h a x = (value h g x).bind fun y => value h f y := by
  show evalV h (a + 1) a x = _
  simp only [evalV, hn]
  rw [value_fuel hw (hw.older a _ hn f (by simp [Node.refs])), value_fuel hw (hw.older a _ hn g (by simp [Node.refs]))]

theorem value_join {h : Heap K} (hw : WF h) {a f g : ℕ} (hn : h[a]? = some (.join f g)) (x : List K) :
    value h a x = (value h f x).bind fun u => (value h g x).map fun v => u ++ v := by
  show evalV h (a + 1) a x = _
  simp only [evalV, hn]
  rw [value_fuel hw (hw.older a _ hn f (by simp [Node.refs])), value_fuel hw (hw.older a _ hn g (by simp [Node.refs]))]

/-- Functions keep their values when nodes which they do not refer to are added or changed. -/
theorem value_agree {h h' : Heap K} (hw : WF h) (a : ℕ) (hag : ∀ b, b ≤ a → h[b]? = h'[b]?) :
    value h a = value h' a := by
  funext x
  unfold value
  rw [evalV_agree hw.older a hag (a + 1) (a + 1) (by omega) (by omega)]

end Stable

theorem argV_agree {h h' : Heap K} (hw : ∀ (a : ℕ) (nd : Node K), h[a]? = some nd → ∀ b ∈ nd.refs, b < a) :
    ∀ a : ℕ, (∀ b, b ≤ a → h[b]? = h'[b]?) → ∀ t t' : ℕ, a < t → a < t' → argV h t a = argV h' t' a := by
  intro a
  induction a using Nat.strong_induction_on with
  | _ a ih =>
    intro hag t t' ht ht'
    obtain ⟨t, rfl⟩ := Nat.exists_eq_succ_of_ne_zero (by omega : t ≠ 0)
    obtain ⟨t', rfl⟩ := Nat.exists_eq_succ_of_ne_zero (by omega : t' ≠ 0)
    have hb : ∀ b, b < a → argV h t b = argV h' t' b := fun b hb =>
      ih b hb (fun c hc => hag c (by omega)) t t' (by omega) (by omega)
    simp only [argV]
    rw [← hag a le_rfl]
    cases hn : h[a]? with
    | none => rfl
    | some nd =>
      have hr := hw a nd hn
      cases nd with
      | vec n fs => rfl
      | comp f g => exact hb g (hr g (by simp [Node.refs]))
      | join f g => exact hb f (hr f (by simp [Node.refs]))

theorem resV_agree {h h' : Heap K} (hw : ∀ (a : ℕ) (nd : Node K), h[a]? = some nd → ∀ b ∈ nd.refs, b < a) :
    ∀ a : ℕ, (∀ b, b ≤ a → h[b]? = h'[b]?) → ∀ t t' : ℕ, a < t → a < t' → resV h t a = resV h' t' a := by
  intro a
  induction a using Nat.strong_induction_on with
  | _ a ih =>
    intro hag t t' ht ht'
    obtain ⟨t, rfl⟩ := Nat.exists_eq_succ_of_ne_zero (by omega : t ≠ 0)
    obtain ⟨t', rfl⟩ := Nat.exists_eq_succ_of_ne_zero (by omega : t' ≠ 0)
    have hb : ∀ b, b < a → resV h t b = resV h' t' b := fun b hb =>
      ih b hb (fun c hc => hag c (by omega)) t t' (by omega) (by omega)
    simp only [resV]
    rw [← hag a le_rfl]
    cases hn : h[a]? with
    | none => rfl
    | some nd =>
      have hr := hw a nd hn
      cases nd with
      | vec n fs => rfl
      | comp f g => exact hb f (hr f (by simp [Node.refs]))
      | join f g =>
        simp only
        rw [hb f (hr f (by simp [Node.refs])), hb g (hr g (by simp [Node.refs]))]

theorem getV_agree {h h' : Heap K} (hw : ∀ (a : ℕ) (nd : Node K), h[a]? = some nd → ∀ b ∈ nd.refs, b < a) :
    ∀ a : ℕ, (∀ b, b ≤ a → h[b]? = h'[b]?) → ∀ t t' : ℕ, a < t → a < t' → getV h t a = getV h' t' a := by
  intro a
  induction a using Nat.strong_induction_on with
  | _ a ih =>
    intro hag t t' ht ht'
    obtain ⟨t, rfl⟩ := Nat.exists_eq_succ_of_ne_zero (by omega : t ≠ 0)
    obtain ⟨t', rfl⟩ := Nat.exists_eq_succ_of_ne_zero (by omega : t' ≠ 0)
    have hb : ∀ b, b < a → getV h t b = getV h' t' b := fun b hb =>
      ih b hb (fun c hc => hag c (by omega)) t t' (by omega) (by omega)
    funext i
    simp only [getV]
    rw [← hag a le_rfl]
    cases hn : h[a]? with
    | none => rfl
    | some nd =>
      have hr := hw a nd hn
      cases nd with
      | vec n fs => rfl
      | comp f g =>
        simp only
        rw [hb f (hr f (by simp [Node.refs]))]
      | join f g =>
        have hf := hr f (by simp [Node.refs])
        simp only
        rw [hb f hf, hb g (hr g (by simp [Node.refs])),
          resV_agree hw f (fun c hc => hag c (by omega)) t t' (by omega) (by omega)]

theorem arg_agree {h h' : Heap K} (hw : WF h) (a : ℕ) (hag : ∀ b, b ≤ a → h[b]? = h'[b]?) : arg h a = arg h' a :=
  argV_agree hw.older a hag _ _ (by omega) (by omega)

theorem res_agree {h h' : Heap K} (hw : WF h) (a : ℕ) (hag : ∀ b, b ≤ a → h[b]? = h'[b]?) : res h a = res h' a :=
  resV_agree hw.older a hag _ _ (by omega) (by omega)

theorem get_agree {h h' : Heap K} (hw : WF h) (a i : ℕ) (hag : ∀ b, b ≤ a → h[b]? = h'[b]?) :
    get h a i = get h' a i := by
  unfold get
  rw [res_agree hw a hag, getV_agree hw.older a hag _ _ (by omega : a < a + 1) (by omega : a < a + 1)]

theorem arg_vec {h : Heap K} {a n : ℕ} {fs : List (SF K)} (hn : h[a]? = some (.vec n fs)) : arg h a = n := by
  unfold arg; simp only [argV, hn]

theorem arg_comp {h : Heap K} (hw : WF h) {a f g : ℕ} (hn : h[a]? = some (.comp f g)) : arg h a = arg h g := by
  have := argV_agree (h' := h) hw.older g (fun _ _ => rfl) a (g + 1) (hw.older a _ hn g (by simp [Node.refs])) (by omega)
  show argV h (a + 1) a = _
  simp only [argV, hn]; exact this

theorem arg_join {h : Heap K} (hw : WF h) {a f g : ℕ} (hn : h[a]? = some (.join f g)) : arg h a = arg h f := by
  have := argV_agree (h' := h) hw.older f (fun _ _ => rfl) a (f + 1) (hw.older a _ hn f (by simp [Node.refs])) (by omega)
  show argV h (a + 1) a = _
  simp only [argV, hn]; exact this

theorem res_vec {h : Heap K} {a n : ℕ} {fs : List (SF K)} (hn : h[a]? = some (.vec n fs)) : res h a = fs.length := by
  unfold res; simp only [resV, hn]

theorem resV_fuel {h : Heap K} (hw : WF h) {a t : ℕ} (ht : a < t) : resV h t a = res h a :=
  resV_agree hw.older a (fun _ _ => rfl) _ _ ht (by omega)

theorem getV_fuel {h : Heap K} (hw : WF h) {a t : ℕ} (ht : a < t) : getV h t a = getV h (a + 1) a :=
  getV_agree hw.older a (fun _ _ => rfl) _ _ ht (by omega)

theorem res_comp {h : Heap K} (hw : WF h) {a f g : ℕ} (hn : h[a]? = some (.comp f g)) : res h a = res h f := by
  show resV h (a + 1) a = _
  simp only [resV, hn]; exact resV_fuel hw (hw.older a _ hn f (by simp [Node.refs]))

theorem res_join {h : Heap K} (hw : WF h) {a f g : ℕ} (hn : h[a]? = some (.join f g)) :
    res h a = res h f + res h g := by
  show resV h (a + 1) a = _
  simp only [resV, hn]
  rw [resV_fuel hw (hw.older a _ hn f (by simp [Node.refs])), resV_fuel hw (hw.older a _ hn g (by simp [Node.refs]))]

theorem get_vec {h : Heap K} {a n i : ℕ} {fs : List (SF K)} (hn : h[a]? = some (.vec n fs)) : get h a i = fs[i]? := by
  unfold get
  rw [res_vec hn]
  by_cases hi : i < fs.length
  · rw [if_pos hi]; simp only [getV, hn]
  · rw [if_neg hi]; exact (List.getElem?_eq_none (by omega)).symm

theorem get_comp {h : Heap K} (hw : WF h) {a f g i : ℕ} (hn : h[a]? = some (.comp f g)) :
    get h a i = (get h f i).map fun s => .comp s g := by
  unfold get
  rw [res_comp hw hn]
  by_cases hi : i < res h f
  · rw [if_pos hi, if_pos hi]; simp only [getV, hn]
    rw [getV_fuel hw (hw.older a _ hn f (by simp [Node.refs]))]
    simp only [getV]
  · rw [if_neg hi, if_neg hi]; rfl

theorem get_join {h : Heap K} (hw : WF h) {a f g i : ℕ} (hn : h[a]? = some (.join f g)) :
    get h a i = if i < res h f then get h f i else get h g (i - res h f) := by
  have hf := hw.older a _ hn f (by simp [Node.refs])
  have hg := hw.older a _ hn g (by simp [Node.refs])
  have e : getV h (a + 1) a i = if i < res h f then getV h (f + 1) f i else getV h (g + 1) g (i - res h f) := by
    conv_lhs => rw [getV]
    simp only [hn]
    rw [getV_fuel hw hf, getV_fuel hw hg, resV_fuel hw hf]
  unfold get
  rw [res_join hw hn, e]
  by_cases hi : i < res h f
  · rw [if_pos hi, if_pos hi, if_pos hi, if_pos (by omega)]
  · rw [if_neg hi, if_neg hi]
    by_cases hj : i < res h f + res h g
    · rw [if_pos hj, if_pos (by omega)]
    · rw [if_neg hj, if_neg (by omega)]

/-- The components of a vector function exist, refer to older functions, and have its argument size. -/
theorem get_good {h : Heap K} (hw : WF h) : ∀ a i : ℕ, i < res h a →
    ∃ s, get h a i = some s ∧ Below a s ∧ argS h s = arg h a := by
  intro a
  induction a using Nat.strong_induction_on with
  | _ a ih =>
    intro i hi
    cases hn : h[a]? with
    | none => unfold res at hi; simp only [resV, hn] at hi; omega
    | some nd =>
      cases nd with
      | vec n fs =>
        rw [res_vec hn] at hi
        refine ⟨fs[i], ?_, ?_, ?_⟩
        · rw [get_vec hn]; exact List.getElem?_eq_getElem hi
        · intro b hb; exact hw.older a _ hn b (List.mem_flatMap.2 ⟨_, List.getElem_mem hi, hb⟩)
        · rw [arg_vec hn]; exact hw.vec a n fs hn _ (List.getElem_mem hi)
      | comp f g =>
        have hf := hw.older a _ hn f (by simp [Node.refs])
        have hg := hw.older a _ hn g (by simp [Node.refs])
        rw [res_comp hw hn] at hi
        obtain ⟨s, hs, hb, -⟩ := ih f hf i hi
        refine ⟨.comp s g, by rw [get_comp hw hn, hs]; rfl, ?_, by rw [arg_comp hw hn]; rfl⟩
        intro b hb'
        rcases List.mem_cons.1 hb' with rfl | hb'
        · exact hg
        · exact lt_trans (hb b hb') hf
      | join f g =>
        have hf := hw.older a _ hn f (by simp [Node.refs])
        have hg := hw.older a _ hn g (by simp [Node.refs])
        rw [res_join hw hn] at hi
        rw [get_join hw hn, arg_join hw hn]
        by_cases hif : i < res h f
        · obtain ⟨s, hs, hb, ha⟩ := ih f hf i hif
          exact ⟨s, by rw [if_pos hif, hs], hb.mono hf.le, ha⟩
        · obtain ⟨s, hs, hb, ha⟩ := ih g hg (i - res h f) (by omega)
          exact ⟨s, by rw [if_neg hif, hs], hb.mono hg.le, by rw [ha, hw.join a f g hn]⟩

section Values
variable [Field K] [DecidableEq K]

theorem mapM_some_iff {A B : Type} (f : A → Option B) : ∀ (l : List A) (v : List B),
    l.mapM f = some v ↔ v.length = l.length ∧ ∀ (i : ℕ) (a : A), l[i]? = some a → f a = v[i]? ∧ (f a).isSome := by
  intro l
  induction l with
  | nil =>
    intro v
    constructor
    · intro h
      obtain rfl : [] = v := Option.some.inj h
      exact ⟨rfl, fun i a h => by simp at h⟩
    · rintro ⟨h, -⟩
      rw [List.length_eq_zero_iff.1 h]; rfl
  | cons a l ih =>
    intro v
    rw [List.mapM_cons]
    constructor
    · intro h
      obtain ⟨b, hb, h⟩ := Option.bind_eq_some_iff.1 h
      obtain ⟨w, hw, h⟩ := Option.bind_eq_some_iff.1 h
      obtain rfl : b :: w = v := Option.some.inj h
      obtain ⟨hl, hi⟩ := (ih w).1 hw
      refine ⟨by simp [hl], ?_⟩
      intro i c hc
      cases i with
      | zero =>
        obtain rfl : a = c := by simpa using hc
        simp [hb]
      | succ i => exact hi i c (by simpa using hc)
    · rintro ⟨hl, hi⟩
      cases v with
      | nil => simp at hl
      | cons b w =>
        have h0 := hi 0 a (by simp)
        have h1 : l.mapM f = some w := (ih w).2 ⟨by simpa using hl, fun i c hc => hi (i + 1) c (by simpa using hc)⟩
        have h2 : f a = some b := by simpa using h0.1
        simp [h1, h2]

/-- **Components.** Wherever a vector function is defined, its value has as many components as its result size, and
the components of the function have the components of the value as values. -/
theorem C104_components {h : Heap K} (hw : WF h) : ∀ (a : ℕ) (x v : List K), value h a x = some v →
    v.length = res h a ∧ ∀ i < res h a, ∃ s, get h a i = some s ∧ valueS h s x = v[i]? := by
  intro a
  induction a using Nat.strong_induction_on with
  | _ a ih =>
    intro x v hv
    cases hn : h[a]? with
    | none => unfold value at hv; simp only [evalV, hn] at hv; exact absurd hv (by simp)
    | some nd =>
      cases nd with
      | vec n fs =>
        rw [value_vec hw hn] at hv
        obtain ⟨hl, hi⟩ := (mapM_some_iff _ _ _).1 hv
        rw [res_vec hn]
        refine ⟨hl, fun i hil => ⟨fs[i], ?_, ?_⟩⟩
        · rw [get_vec hn]; exact List.getElem?_eq_getElem hil
        · exact (hi i _ (List.getElem?_eq_getElem hil)).1
      | comp f g =>
        have hf := hw.older a _ hn f (by simp [Node.refs])
        rw [value_comp hw hn] at hv
        obtain ⟨y, hy, hv⟩ := Option.bind_eq_some_iff.1 hv
        obtain ⟨hl, hi⟩ := ih f hf y v hv
        rw [res_comp hw hn]
        refine ⟨hl, fun i hil => ?_⟩
        obtain ⟨s, hs, hsv⟩ := hi i hil
        refine ⟨.comp s g, by rw [get_comp hw hn, hs]; rfl, ?_⟩
        unfold valueS at hsv ⊢
        simp only [evalS]
        rw [hy]; exact hsv
      | join f g =>
        have hf := hw.older a _ hn f (by simp [Node.refs])
        have hg := hw.older a _ hn g (by simp [Node.refs])
        rw [value_join hw hn] at hv
        obtain ⟨u, hu, hv⟩ := Option.bind_eq_some_iff.1 hv
        obtain ⟨w, hww, rfl⟩ := Option.map_eq_some_iff.1 hv
        obtain ⟨hlf, hif⟩ := ih f hf x u hu
        obtain ⟨hlg, hig⟩ := ih g hg x w hww
        rw [res_join hw hn]
        refine ⟨by rw [List.length_append, hlf, hlg], fun i hi => ?_⟩
        rw [get_join hw hn]
        by_cases hi' : i < res h f
        · obtain ⟨s, hs, hsv⟩ := hif i hi'
          exact ⟨s, by rw [if_pos hi', hs], by rw [hsv, List.getElem?_append_left (by omega)]⟩
        · obtain ⟨s, hs, hsv⟩ := hig (i - res h f) (by omega)
          exact ⟨s, by rw [if_neg hi', hs], by rw [hsv, List.getElem?_append_right (by omega), hlf]⟩

end Values

theorem argS_agree {h h' : Heap K} (hw : WF h) {m : ℕ} (hag : ∀ b, b < m → h[b]? = h'[b]?) (s : SF K)
    (hs : Below m s) : argS h s = argS h' s := by
  induction s with
  | const n c => rfl
  | coord n i => rfl
  | un op f ih => exact ih hs
  | bin op f g ihf ihg => exact ihf fun b hb => hs b (List.mem_append_left _ hb)
  | comp f g ih =>
    have hg := hs g List.mem_cons_self
    exact arg_agree hw g fun b hb => hag b (by omega)

theorem push_agree (h : Heap K) (nd : Node K) (b : ℕ) (hb : b < h.length) : h[b]? = (h ++ [nd])[b]? :=
  (List.getElem?_append_left hb).symm

/-- A new node which refers to existing functions, with the right argument sizes, can be added. -/
theorem WF.push {h : Heap K} (hw : WF h) (nd : Node K) (hr : ∀ b ∈ nd.refs, b < h.length)
    (hv : ∀ n fs, nd = .vec n fs → ∀ s ∈ fs, argS h s = n) (hj : ∀ f g, nd = .join f g → arg h f = arg h g) :
    WF (h ++ [nd]) := by
  have key : ∀ (a : ℕ) (nd' : Node K), (h ++ [nd])[a]? = some nd' →
      (a < h.length ∧ h[a]? = some nd') ∨ (a = h.length ∧ nd' = nd) := by
    intro a nd' ha
    rcases lt_trichotomy a h.length with h1 | h1 | h1
    · exact Or.inl ⟨h1, by rw [push_agree h nd a h1]; exact ha⟩
    · subst h1; right; refine ⟨rfl, ?_⟩; simpa using ha.symm
    · rw [List.getElem?_eq_none (by simp; omega)] at ha; exact absurd ha (by simp)
  refine ⟨?_, ?_, ?_⟩
  · intro a nd' ha b hb
    rcases key a nd' ha with ⟨-, h2⟩ | ⟨rfl, rfl⟩
    · exact hw.older a nd' h2 b hb
    · exact hr b hb
  · intro a n fs ha s hs
    rcases key a _ ha with ⟨h1, h2⟩ | ⟨rfl, h2⟩
    · rw [← argS_agree hw (push_agree h nd) s fun b hb => lt_trans (hw.older a _ h2 b (List.mem_flatMap.2 ⟨s, hs, hb⟩)) h1]
      exact hw.vec a n fs h2 s hs
    · rw [← argS_agree hw (push_agree h nd) s fun b hb => hr b (by rw [← h2]; exact List.mem_flatMap.2 ⟨s, hs, hb⟩)]
      exact hv n fs h2.symm s hs
  · intro a f g ha
    have e : ∀ c, c < h.length → arg (h ++ [nd]) c = arg h c := fun c hc =>
      (arg_agree hw c fun b hb => push_agree h nd b (by omega)).symm
    rcases key a _ ha with ⟨h1, h2⟩ | ⟨rfl, h2⟩
    · rw [e f (lt_trans (hw.older a _ h2 f (by simp [Node.refs])) h1),
        e g (lt_trans (hw.older a _ h2 g (by simp [Node.refs])) h1)]
      exact hw.join a f g h2
    · rw [e f (hr f (by rw [← h2]; simp [Node.refs])), e g (hr g (by rw [← h2]; simp [Node.refs]))]
      exact hj f g h2.symm

/-- A scalar function of `n` variables made of existing functions. -/
def Good (h : Heap K) (n : ℕ) (s : SF K) : Prop := Below h.length s ∧ argS h s = n

section Build
variable [Field K]

theorem set_last {h : Heap K} (hw : WF h) {n : ℕ} {done rest : List (SF K)} {r s : SF K} (hr : Good h n r)
    (hs : Good h n s) : set (h ++ [.vec n (done ++ r :: rest)]) h.length done.length s =
      some (h ++ [.vec n ((done ++ [s]) ++ rest)]) := by
  unfold set
  have e1 : (h ++ [Node.vec n (done ++ r :: rest)])[h.length]? = some (.vec n (done ++ r :: rest)) := by simp
  have e2 : (done ++ r :: rest)[done.length]? = some r := by simp
  simp only [e1, e2]
  rw [if_pos]
  · simp
  · rw [← argS_agree hw (push_agree h _) r hr.1, ← argS_agree hw (push_agree h _) s hs.1, hr.2, hs.2]

theorem sets_ok {h : Heap K} (hw : WF h) (n : ℕ) (Q : ℕ → SF K → Prop) :
    ∀ (ps : List (ℕ × (Heap K → Option (SF K)))) (done rest : List (SF K)), rest.length = ps.length →
      (∀ f ∈ rest, Good h n f) →
      (∀ (i : ℕ) (p : ℕ × (Heap K → Option (SF K))), ps[i]? = some p → p.1 = done.length + i ∧
        ∃ s, Good h n s ∧ Q (done.length + i) s ∧ ∀ fs', p.2 (h ++ [.vec n fs']) = some s) →
      ∃ ss : List (SF K), ss.length = ps.length ∧ (∀ (i : ℕ) (s : SF K), ss[i]? = some s → Good h n s ∧ Q (done.length + i) s) ∧
        sets h.length ps (h ++ [.vec n (done ++ rest)]) = some (h ++ [.vec n (done ++ ss)]) := by
  intro ps
  induction ps with
  | nil =>
    intro done rest hl _ _
    have : rest = [] := List.length_eq_zero_iff.1 hl
    exact ⟨[], rfl, by simp, by rw [this]; rfl⟩
  | cons p ps ih =>
    intro done rest hl hg hp
    cases rest with
    | nil => simp at hl
    | cons r rest =>
      obtain ⟨h1, s, hs, hq, hgen⟩ := hp 0 p (by simp)
      obtain ⟨ss, hsl, hsq, he⟩ := ih (done ++ [s]) rest (by simpa using hl)
        (fun f hf => hg f (List.mem_cons_of_mem _ hf)) (by
          intro i q hq
          obtain ⟨h2, s', hs', hq', hgen'⟩ := hp (i + 1) q (by simpa using hq)
          refine ⟨by rw [h2]; simp; omega, s', hs', ?_, hgen'⟩
          have : (done ++ [s]).length + i = done.length + (i + 1) := by simp; omega
          rw [this]; exact hq')
      refine ⟨s :: ss, by simp [hsl], ?_, ?_⟩
      · intro i s' hi
        cases i with
        | zero => obtain rfl : s = s' := by simpa using hi
                  exact ⟨hs, hq⟩
        | succ i =>
          have := hsq i s' (by simpa using hi)
          have e : (done ++ [s]).length + i = done.length + (i + 1) := by simp; omega
          rw [e] at this; exact this
      · obtain ⟨q, gen⟩ := p
        have h1' : q = done.length := by simpa using h1
        subst h1'
        unfold sets
        simp only at hgen
        rw [hgen, Option.bind_some, set_last hw (hg r List.mem_cons_self) hs, Option.bind_some, he]
        simp

end Build

section Makes
variable [Field K] [DecidableEq K]

/-- What an operation is expected to do: it succeeds, with a new function of `n` variables with `m` components, the
functions which existed before keep their values, and the new function has the values given by `spec`. -/
def Makes (h : Heap K) (out : Option (Heap K × ℕ)) (n m : ℕ) (spec : List K → List K → Prop) : Prop :=
  ∃ h' r, out = some (h', r) ∧ WF h' ∧ h.length ≤ r ∧ r < h'.length ∧ arg h' r = n ∧ res h' r = m ∧
    (∀ c, c < h.length → value h' c = value h c) ∧ ∀ x w, spec x w → value h' r x = some w

theorem valueS_push {h : Heap K} (hw : WF h) (nd : Node K) {s : SF K} (hs : Below h.length s) :
    valueS (h ++ [nd]) s = valueS h s := by
  unfold valueS
  exact (evalS_congr s fun b hb => value_agree hw b fun c hc => push_agree h nd c
    (lt_of_le_of_lt hc (hs b hb))).symm

theorem push_makes {h : Heap K} (hw : WF h) (nd : Node K) (hw' : WF (h ++ [nd])) (spec : List K → List K → Prop)
    (hspec : ∀ x w, spec x w → value (h ++ [nd]) h.length x = some w) :
    Makes h (some (h ++ [nd], h.length)) (arg (h ++ [nd]) h.length) (res (h ++ [nd]) h.length) spec :=
  ⟨_, _, rfl, hw', le_rfl, by simp, rfl, rfl,
    fun c hc => (value_agree hw c fun b hb => push_agree h nd b (by omega)).symm, hspec⟩

theorem build_makes {h : Heap K} (hw : WF h) {n m : ℕ} {ps : List (ℕ × (Heap K → Option (SF K)))}
    {spec : List K → List K → Prop} (hlen : ps.length = m) (hspec : ∀ x w, spec x w → w.length = m)
    (hps : ∀ (i : ℕ) (p : ℕ × (Heap K → Option (SF K))), ps[i]? = some p → p.1 = i ∧
      ∃ s, Good h n s ∧ (∀ fs', p.2 (h ++ [.vec n fs']) = some s) ∧ ∀ x w, spec x w → valueS h s x = w[i]?) :
    Makes h (build h m n ps) n m spec := by
  obtain ⟨ss, hl, hq, he⟩ := sets_ok hw n (fun i s => ∀ x w, spec x w → valueS h s x = w[i]?) ps []
    (List.replicate m (.const n 0)) (by simp [hlen])
    (fun f hf => by rw [List.eq_of_mem_replicate hf]; exact ⟨fun b hb => absurd hb (by simp [SF.refs]), rfl⟩)
    (fun i p hp => by
      obtain ⟨h1, s, h2, h3, h4⟩ := hps i p hp
      refine ⟨by simpa using h1, s, h2, ?_, h3⟩
      simpa using h4)
  simp only [List.nil_append, List.length_nil, Nat.zero_add] at he hq
  have hb : build h m n ps = some (h ++ [.vec n ss], h.length) := by
    unfold build zeros
    simp only
    rw [he]; rfl
  have hw' : WF (h ++ [.vec n ss]) := by
    refine hw.push _ ?_ ?_ ?_
    · intro b hb
      obtain ⟨s, hs, hb⟩ := List.mem_flatMap.1 hb
      obtain ⟨i, hi⟩ := List.getElem?_of_mem hs
      exact (hq i s hi).1.1 b hb
    · rintro n' fs ⟨⟩ s hs
      obtain ⟨i, hi⟩ := List.getElem?_of_mem hs
      exact (hq i s hi).1.2
    · rintro f g ⟨⟩
  have hn : (h ++ [Node.vec n ss])[h.length]? = some (.vec n ss) := by simp
  have := push_makes hw (.vec n ss) hw' spec (by
    intro x w hx
    rw [value_vec hw' hn, mapM_some_iff]
    refine ⟨by rw [hl, hlen, hspec x w hx], ?_⟩
    intro i s hi
    obtain ⟨h1, h2⟩ := hq i s hi
    rw [valueS_push hw _ h1.1, h2 x w hx]
    refine ⟨rfl, ?_⟩
    have : i < ss.length := by
      by_contra hc
      rw [List.getElem?_eq_none (by omega)] at hi; exact absurd hi (by simp)
    rw [List.getElem?_eq_getElem (by rw [hspec x w hx, ← hlen, ← hl]; exact this)]; rfl)
  rw [arg_vec hn, res_vec hn, hl, hlen] at this
  rw [hb]; exact this

theorem loop_get {m : ℕ} {gen : Heap K → ℕ → Option (SF K)} {i : ℕ} {p : ℕ × (Heap K → Option (SF K))}
    (hp : (loop m gen)[i]? = some p) : i < m ∧ p = (i, fun h => gen h i) := by
  unfold loop at hp
  rw [List.getElem?_map] at hp
  obtain ⟨j, hj, rfl⟩ := Option.map_eq_some_iff.1 hp
  obtain ⟨h1, h2⟩ := List.getElem?_eq_some_iff.1 hj
  have : j = i := by rw [← h2]; simp
  subst this
  exact ⟨by simpa using h1, rfl⟩

theorem loop_length (m : ℕ) (gen : Heap K → ℕ → Option (SF K)) : (loop m gen).length = m := by
  unfold loop; simp

/-- Components of existing functions, read after the new node has been created. -/
theorem get_push {h : Heap K} (hw : WF h) {a : ℕ} (ha : a < h.length) {i : ℕ} (hi : i < res h a) :
    ∃ s, (∀ nd, get (h ++ [nd]) a i = some s) ∧ get h a i = some s ∧ Good h (arg h a) s := by
  obtain ⟨s, hs, hb, harg⟩ := get_good hw a i hi
  exact ⟨s, fun nd => by rw [← get_agree hw a i fun b hb => push_agree h nd b (by omega), hs], hs,
    hb.mono ha.le, harg⟩

theorem component_value {h : Heap K} (hw : WF h) {a i : ℕ} {s : SF K} {x v : List K} (hv : value h a x = some v)
    (hi : i < res h a) (hs : get h a i = some s) : valueS h s x = v[i]? := by
  obtain ⟨s', hs', hv'⟩ := (C104_components hw a x v hv).2 i hi
  rw [hs] at hs'
  obtain rfl := Option.some.inj hs'
  exact hv'

theorem Good.push {h : Heap K} (hw : WF h) {n : ℕ} {s : SF K} (hs : Good h n s) (nd : Node K) :
    argS (h ++ [nd]) s = n := by
  rw [← argS_agree hw (push_agree h nd) s hs.1]; exact hs.2

/-! ### Joins -/

/-- **Joining two scalar functions** gives the pairs of values. -/
theorem C104_join_scalars {h : Heap K} (hw : WF h) {n : ℕ} {f g : SF K} (hf : Good h n f) (hg : Good h n g) :
    Makes h (joinSS h f g) n 2 fun x w => ∃ u v, valueS h f x = some u ∧ valueS h g x = some v ∧ w = [u, v] := by
  unfold joinSS
  rw [hf.2, hg.2, if_pos rfl]
  refine build_makes hw rfl (by rintro x w ⟨u, v, -, -, rfl⟩; rfl) ?_
  intro i p hp
  match i, hp with
  | 0, hp =>
    obtain rfl := Option.some.inj hp
    exact ⟨rfl, f, hf, fun _ => rfl, by rintro x w ⟨u, v, hu, -, rfl⟩; rw [hu]; rfl⟩
  | 1, hp =>
    obtain rfl := Option.some.inj hp
    exact ⟨rfl, g, hg, fun _ => rfl, by rintro x w ⟨u, v, -, hv, rfl⟩; rw [hv]; rfl⟩
  | i + 2, hp => simp at hp

/-- **Joining a vector function with a scalar function** appends the value. -/
theorem C104_join_vector_scalar {h : Heap K} (hw : WF h) {a : ℕ} (ha : a < h.length) {g : SF K}
    (hg : Good h (arg h a) g) : Makes h (joinVS h a g) (arg h a) (res h a + 1) fun x w =>
      ∃ u v, value h a x = some u ∧ valueS h g x = some v ∧ w = u ++ [v] := by
  unfold joinVS
  rw [hg.2, if_pos rfl]
  refine build_makes hw (by simp [loop_length]) ?_ ?_
  · rintro x w ⟨u, v, hu, -, rfl⟩; simp [(C104_components hw a x u hu).1]
  intro i p hp
  by_cases hi : i < res h a
  · rw [List.getElem?_append_left (by rw [loop_length]; exact hi)] at hp
    obtain ⟨-, rfl⟩ := loop_get hp
    obtain ⟨s, h1, h2, h3⟩ := get_push hw ha hi
    refine ⟨rfl, s, h3, fun _ => h1 _, ?_⟩
    rintro x w ⟨u, v, hu, -, rfl⟩
    rw [component_value hw hu hi h2, List.getElem?_append_left (by rw [(C104_components hw a x u hu).1]; exact hi)]
  · rw [List.getElem?_append_right (by rw [loop_length]; omega), loop_length] at hp
    have hi' : i - res h a = 0 := by
      by_contra hc
      rw [List.getElem?_eq_none (by simp; omega)] at hp; exact absurd hp (by simp)
    rw [hi'] at hp
    obtain rfl := Option.some.inj hp
    refine ⟨by simp only; omega, g, hg, fun _ => rfl, ?_⟩
    rintro x w ⟨u, v, hu, hv, rfl⟩
    have hl := (C104_components hw a x u hu).1
    rw [hv, List.getElem?_append_right (by omega), hl, hi']; rfl

/-- **Joining a scalar function with a vector function** prepends the value. -/
theorem C104_join_scalar_vector {h : Heap K} (hw : WF h) {b : ℕ} (hb : b < h.length) {f : SF K}
    (hf : Good h (arg h b) f) : Makes h (joinSV h f b) (arg h b) (res h b + 1) fun x w =>
      ∃ u v, valueS h f x = some u ∧ value h b x = some v ∧ w = u :: v := by
  unfold joinSV
  rw [hf.2, if_pos rfl]
  refine build_makes hw (by simp) ?_ ?_
  · rintro x w ⟨u, v, -, hv, rfl⟩; simp [(C104_components hw b x v hv).1]
  intro i p hp
  cases i with
  | zero =>
    obtain rfl := Option.some.inj hp
    exact ⟨rfl, f, hf, fun _ => rfl, by rintro x w ⟨u, v, hu, -, rfl⟩; rw [hu]; rfl⟩
  | succ i =>
    rw [List.getElem?_cons_succ, List.getElem?_map] at hp
    obtain ⟨j, hj, rfl⟩ := Option.map_eq_some_iff.1 hp
    obtain ⟨h1, h2⟩ := List.getElem?_eq_some_iff.1 hj
    have : j = i := by rw [← h2]; simp
    subst this
    have hj' : j < res h b := by simpa using h1
    obtain ⟨s, h1, h2, h3⟩ := get_push hw hb hj'
    refine ⟨rfl, s, h3, fun _ => h1 _, ?_⟩
    rintro x w ⟨u, v, -, hv, rfl⟩
    rw [component_value hw hv hj' h2, List.getElem?_cons_succ]

/-- **Joining two vector functions** joins their values. -/
theorem C104_join_vectors {h : Heap K} (hw : WF h) {a b : ℕ} (ha : a < h.length) (hb : b < h.length)
    (hab : arg h a = arg h b) : Makes h (joinVV h a b) (arg h a) (res h a + res h b) fun x w =>
      ∃ u v, value h a x = some u ∧ value h b x = some v ∧ w = u ++ v := by
  unfold joinVV
  rw [if_pos hab]
  refine build_makes hw (by simp [loop_length]) ?_ ?_
  · rintro x w ⟨u, v, hu, hv, rfl⟩
    simp [(C104_components hw a x u hu).1, (C104_components hw b x v hv).1]
  intro i p hp
  by_cases hi : i < res h a
  · rw [List.getElem?_append_left (by rw [loop_length]; exact hi)] at hp
    obtain ⟨-, rfl⟩ := loop_get hp
    obtain ⟨s, h1, h2, h3⟩ := get_push hw ha hi
    refine ⟨rfl, s, h3, fun _ => h1 _, ?_⟩
    rintro x w ⟨u, v, hu, -, rfl⟩
    rw [component_value hw hu hi h2, List.getElem?_append_left (by rw [(C104_components hw a x u hu).1]; exact hi)]
  · rw [List.getElem?_append_right (by rw [loop_length]; omega), loop_length, List.getElem?_map] at hp
    obtain ⟨j, hj, rfl⟩ := Option.map_eq_some_iff.1 hp
    obtain ⟨h1, h2⟩ := List.getElem?_eq_some_iff.1 hj
    have : j = i - res h a := by rw [← h2]; simp
    have hj' : j < res h b := by rw [this]; simpa using h1
    obtain ⟨s, h1, h2, h3⟩ := get_push hw hb hj'
    rw [← hab] at h3
    refine ⟨by simp only; omega, s, h3, fun _ => h1 _, ?_⟩
    rintro x w ⟨u, v, hu, hv, rfl⟩
    have hl := (C104_components hw a x u hu).1
    rw [component_value hw hv hj' h2, List.getElem?_append_right (by omega), hl, this]

/-- **Joining two validated vector functions** joins their values. -/
theorem C104_join_validated_vectors {h : Heap K} (hw : WF h) {a b : ℕ} (ha : a < h.length) (hb : b < h.length)
    (hab : arg h a = arg h b) : Makes h (vjoinVV h a b) (arg h a) (res h a + res h b) fun x w =>
      ∃ u v, value h a x = some u ∧ value h b x = some v ∧ w = u ++ v := by
  have hw' : WF (h ++ [.join a b]) := hw.push _ (by simp [Node.refs, ha, hb]) (by rintro n fs ⟨⟩)
    (by rintro f g ⟨⟩; exact hab)
  have hn : (h ++ [Node.join a b])[h.length]? = some (.join a b) := by simp
  have e : ∀ c, c < h.length → value (h ++ [.join a b]) c = value h c := fun c hc =>
    (value_agree hw c fun d hd => push_agree h _ d (by omega)).symm
  have := push_makes hw (.join a b) hw' (fun x w => ∃ u v, value h a x = some u ∧ value h b x = some v ∧ w = u ++ v) (by
    rintro x w ⟨u, v, hu, hv, rfl⟩
    rw [value_join hw' hn, e a ha, e b hb, hu, hv]; rfl)
  rw [arg_join hw' hn, res_join hw' hn, ← arg_agree hw a fun d hd => push_agree h _ d (by omega),
    ← res_agree hw a fun d hd => push_agree h _ d (by omega),
    ← res_agree hw b fun d hd => push_agree h _ d (by omega)] at this
  unfold vjoinVV
  rw [if_pos hab]; exact this

/-- **Composition** of vector functions evaluates one after the other. -/
theorem C104_compose_vectors {h : Heap K} (hw : WF h) {a b : ℕ} (ha : a < h.length) (hb : b < h.length)
    (hab : arg h a = res h b) : Makes h (composeVV h a b) (arg h b) (res h a) fun x w =>
      ∃ y, value h b x = some y ∧ value h a y = some w := by
  have hw' : WF (h ++ [.comp a b]) := hw.push _ (by simp [Node.refs, ha, hb]) (by rintro n fs ⟨⟩) (by rintro f g ⟨⟩)
  have hn : (h ++ [Node.comp a b])[h.length]? = some (.comp a b) := by simp
  have e : ∀ c, c < h.length → value (h ++ [.comp a b]) c = value h c := fun c hc =>
    (value_agree hw c fun d hd => push_agree h _ d (by omega)).symm
  have := push_makes hw (.comp a b) hw' (fun x w => ∃ y, value h b x = some y ∧ value h a y = some w) (by
    rintro x w ⟨y, hy, hv⟩
    rw [value_comp hw' hn, e a ha, e b hb, hy]; exact hv)
  rw [arg_comp hw' hn, res_comp hw' hn, ← arg_agree hw b fun d hd => push_agree h _ d (by omega),
    ← res_agree hw a fun d hd => push_agree h _ d (by omega)] at this
  unfold composeVV
  rw [if_pos hab]; exact this

/-- Composition of a scalar function with a vector function. -/
theorem C104_compose_scalar (h : Heap K) {f : SF K} {b : ℕ} (hab : argS h f = res h b) (hb : b < h.length)
    (hf : Below h.length f) : ∃ s, composeSV h f b = some s ∧ Good h (arg h b) s ∧
      ∀ x y, value h b x = some y → valueS h s x = valueS h f y := by
  refine ⟨.comp f b, by unfold composeSV; rw [if_pos hab], ⟨?_, rfl⟩, ?_⟩
  · intro c hc
    rcases List.mem_cons.1 hc with rfl | hc
    · exact hb
    · exact hf c hc
  · intro x y hy
    show (value h b x).bind (fun y => evalS (value h) f y) = _
    rw [hy]; rfl

/-! ### Arithmetic -/

/-- **Signs** of vector functions act on the components of the value. -/
theorem C104_unary {h : Heap K} (hw : WF h) (op : UnOp) {a : ℕ} (ha : a < h.length) :
    Makes h (unV op h a) (arg h a) (res h a) fun x w => ∃ u, value h a x = some u ∧ w = u.map op.eval := by
  unfold unV
  refine build_makes hw (loop_length _ _) ?_ ?_
  · rintro x w ⟨u, hu, rfl⟩; simp [(C104_components hw a x u hu).1]
  intro i p hp
  obtain ⟨hi, rfl⟩ := loop_get hp
  obtain ⟨s, h1, h2, h3⟩ := get_push hw ha hi
  refine ⟨rfl, .un op s, ⟨h3.1, h3.2⟩, fun _ => by simp only; rw [h1]; rfl, ?_⟩
  rintro x w ⟨u, hu, rfl⟩
  have := component_value hw hu hi h2
  show (valueS h s x).map op.eval = _
  rw [this, List.getElem?_map]

theorem zip_get {A B C : Type} {f : A → B → Option C} {u : List A} {v : List B} {w : List C}
    (hz : List.zipWith f u v = w.map some) (hl : u.length = v.length) {i : ℕ} (hi : i < u.length) :
    (u[i]?.bind fun p => v[i]?.bind fun q => f p q) = w[i]? ∧ w.length = u.length := by
  have hlen : w.length = u.length := by
    have := congrArg List.length hz
    rw [List.length_zipWith, List.length_map, ← hl] at this
    omega
  refine ⟨?_, hlen⟩
  have := congrArg (fun l => l[i]?) hz
  simp only [List.getElem?_zipWith, List.getElem?_map] at this
  rw [List.getElem?_eq_getElem hi, List.getElem?_eq_getElem (by omega : i < v.length),
    List.getElem?_eq_getElem (by omega : i < w.length)] at this ⊢
  simpa using this

/-- **Sums and differences of vector functions** act on the components of the values. -/
theorem C104_binary_vectors {h : Heap K} (hw : WF h) (op : BinOp) {a b : ℕ} (ha : a < h.length) (hb : b < h.length)
    (hr : res h a = res h b) (hab : arg h a = arg h b) : Makes h (binVV op h a b) (arg h a) (res h a) fun x w =>
      ∃ u v, value h a x = some u ∧ value h b x = some v ∧ List.zipWith op.eval u v = w.map some := by
  unfold binVV
  rw [if_pos ⟨hr, hab⟩]
  refine build_makes hw (loop_length _ _) ?_ ?_
  · rintro x w ⟨u, v, hu, hv, hz⟩
    have e := congrArg List.length hz
    rw [List.length_zipWith, List.length_map, (C104_components hw a x u hu).1, (C104_components hw b x v hv).1] at e
    omega
  intro i p hp
  obtain ⟨hi, rfl⟩ := loop_get hp
  obtain ⟨s, h1, h2, h3⟩ := get_push hw ha hi
  obtain ⟨s', h1', h2', h3'⟩ := get_push hw hb (hr ▸ hi)
  rw [← hab] at h3'
  refine ⟨rfl, .bin op s s', ⟨?_, h3.2⟩, fun _ => ?_, ?_⟩
  · intro c hc
    rcases List.mem_append.1 hc with hc | hc
    · exact h3.1 c hc
    · exact h3'.1 c hc
  · simp only; rw [h1, h1', Option.bind_some, Option.bind_some]
    unfold mkBin; rw [if_pos (by rw [h3.push hw, h3'.push hw])]
  · rintro x w ⟨u, v, hu, hv, hz⟩
    have l1 := (C104_components hw a x u hu).1
    have l2 := (C104_components hw b x v hv).1
    show (valueS h s x).bind (fun p => (valueS h s' x).bind fun q => op.eval p q) = _
    rw [component_value hw hu hi h2, component_value hw hv (hr ▸ hi) h2']
    exact (zip_get hz (by omega) (by omega)).1

/-- **Products of a scalar and a vector function** act on the components of the value. -/
theorem C104_scalar_times_vector {h : Heap K} (hw : WF h) {b : ℕ} (hb : b < h.length) {f : SF K}
    (hf : Good h (arg h b) f) : Makes h (mulSV h f b) (arg h b) (res h b) fun x w =>
      ∃ c v, valueS h f x = some c ∧ value h b x = some v ∧ w = v.map fun q => c * q := by
  unfold mulSV
  rw [hf.2, if_pos rfl]
  refine build_makes hw (loop_length _ _) ?_ ?_
  · rintro x w ⟨c, v, -, hv, rfl⟩; simp [(C104_components hw b x v hv).1]
  intro i p hp
  obtain ⟨hi, rfl⟩ := loop_get hp
  obtain ⟨s, h1, h2, h3⟩ := get_push hw hb hi
  refine ⟨rfl, .bin .mul f s, ⟨?_, hf.2⟩, fun _ => ?_, ?_⟩
  · intro c hc
    rcases List.mem_append.1 hc with hc | hc
    · exact hf.1 c hc
    · exact h3.1 c hc
  · simp only; rw [h1, Option.bind_some]
    unfold mkBin; rw [if_pos (by rw [h3.push hw, hf.push hw])]
  · rintro x w ⟨c, v, hc, hv, rfl⟩
    have l := (C104_components hw b x v hv).1
    show (valueS h f x).bind (fun p => (valueS h s x).bind fun q => BinOp.mul.eval p q) = _
    rw [component_value hw hv hi h2, hc, List.getElem?_map, List.getElem?_eq_getElem (by omega)]
    rfl

/-- **Products and quotients of a vector function by a scalar function** act on the components of the value. -/
theorem C104_vector_by_scalar {h : Heap K} (hw : WF h) (op : BinOp) {a : ℕ} (ha : a < h.length) {f : SF K}
    (hf : Good h (arg h a) f) : Makes h (binVS op h a f) (arg h a) (res h a) fun x w =>
      ∃ u c, value h a x = some u ∧ valueS h f x = some c ∧ u.map (fun p => op.eval p c) = w.map some := by
  unfold binVS
  rw [hf.2, if_pos rfl]
  refine build_makes hw (loop_length _ _) ?_ ?_
  · rintro x w ⟨u, c, hu, -, hz⟩
    have e := congrArg List.length hz
    rw [List.length_map, List.length_map, (C104_components hw a x u hu).1] at e
    omega
  intro i p hp
  obtain ⟨hi, rfl⟩ := loop_get hp
  obtain ⟨s, h1, h2, h3⟩ := get_push hw ha hi
  refine ⟨rfl, .bin op s f, ⟨?_, h3.2⟩, fun _ => ?_, ?_⟩
  · intro c hc
    rcases List.mem_append.1 hc with hc | hc
    · exact h3.1 c hc
    · exact hf.1 c hc
  · simp only; rw [h1, Option.bind_some]
    unfold mkBin; rw [if_pos (by rw [h3.push hw, hf.push hw])]
  · rintro x w ⟨u, c, hu, hc, hz⟩
    have l := (C104_components hw a x u hu).1
    show (valueS h s x).bind (fun p => (valueS h f x).bind fun q => op.eval p q) = _
    have hlen : w.length = u.length := by
      have := congrArg List.length hz; rw [List.length_map, List.length_map] at this; omega
    have e := congrArg (fun l => l[i]?) hz
    simp only [List.getElem?_map] at e
    rw [List.getElem?_eq_getElem (by omega), List.getElem?_eq_getElem (by omega : i < w.length)] at e
    rw [component_value hw hu hi h2, hc, List.getElem?_eq_getElem (by omega),
      List.getElem?_eq_getElem (by omega : i < w.length)]
    simpa using e

/-- **Sums and differences with a vector of numbers** act on the components of the value. -/
theorem C104_vector_constants {h : Heap K} (hw : WF h) (op : BinOp) {a : ℕ} (ha : a < h.length) {c : List K}
    (hc : res h a = c.length) : Makes h (binVC op h a c) (arg h a) (res h a) fun x w =>
      ∃ u, value h a x = some u ∧ List.zipWith op.eval u c = w.map some := by
  unfold binVC
  rw [if_pos hc]
  refine build_makes hw (loop_length _ _) ?_ ?_
  · rintro x w ⟨u, hu, hz⟩
    have e := congrArg List.length hz
    rw [List.length_zipWith, List.length_map, (C104_components hw a x u hu).1] at e
    omega
  intro i p hp
  obtain ⟨hi, rfl⟩ := loop_get hp
  obtain ⟨s, h1, h2, h3⟩ := get_push hw ha hi
  have hci : c[i]? = some (c[i]'(by omega)) := List.getElem?_eq_getElem (by omega)
  refine ⟨rfl, .bin op s (.const (arg h a) (c[i]'(by omega))), ⟨?_, h3.2⟩, fun _ => ?_, ?_⟩
  · intro d hd
    rcases List.mem_append.1 hd with hd | hd
    · exact h3.1 d hd
    · exact absurd hd (by simp [SF.refs])
  · simp only; rw [h1, Option.bind_some, hci, Option.bind_some]
    unfold mkBin; rw [h3.push hw]; exact if_pos rfl
  · rintro x w ⟨u, hu, hz⟩
    have l := (C104_components hw a x u hu).1
    show (valueS h s x).bind (fun p => (some (c[i]'(by omega))).bind fun q => op.eval p q) = _
    rw [component_value hw hu hi h2, ← hci]
    exact (zip_get hz (by omega) (by omega)).1

/-- **Products and quotients by a number** act on the components of the value. -/
theorem C104_vector_constant {h : Heap K} (hw : WF h) (op : BinOp) {a : ℕ} (ha : a < h.length) (c : K) :
    Makes h (binVN op h a c) (arg h a) (res h a) fun x w =>
      ∃ u, value h a x = some u ∧ u.map (fun p => op.eval p c) = w.map some := by
  unfold binVN
  refine build_makes hw (loop_length _ _) ?_ ?_
  · rintro x w ⟨u, hu, hz⟩
    have e := congrArg List.length hz
    rw [List.length_map, List.length_map, (C104_components hw a x u hu).1] at e
    omega
  intro i p hp
  obtain ⟨hi, rfl⟩ := loop_get hp
  obtain ⟨s, h1, h2, h3⟩ := get_push hw ha hi
  refine ⟨rfl, .bin op s (.const (arg h a) c), ⟨?_, h3.2⟩, fun _ => ?_, ?_⟩
  · intro d hd
    rcases List.mem_append.1 hd with hd | hd
    · exact h3.1 d hd
    · exact absurd hd (by simp [SF.refs])
  · simp only; rw [h1, Option.bind_some]
    unfold mkBin; rw [h3.push hw]; exact if_pos rfl
  · rintro x w ⟨u, hu, hz⟩
    have l := (C104_components hw a x u hu).1
    have hlen : w.length = u.length := by
      have := congrArg List.length hz; rw [List.length_map, List.length_map] at this; omega
    have e := congrArg (fun l => l[i]?) hz
    simp only [List.getElem?_map] at e
    rw [List.getElem?_eq_getElem (by omega), List.getElem?_eq_getElem (by omega : i < w.length)] at e
    show (valueS h s x).bind (fun p => (some c).bind fun q => op.eval p q) = _
    rw [component_value hw hu hi h2, List.getElem?_eq_getElem (by omega),
      List.getElem?_eq_getElem (by omega : i < w.length)]
    simpa using e

/-! ### Errors -/

/-- Functions whose sizes do not fit are rejected. -/
theorem C104_size_checks (h : Heap K) (a b : ℕ) (f g : SF K) (op : BinOp) :
    (arg h a ≠ arg h b → joinVV h a b = none ∧ vjoinVV h a b = none ∧ binVV op h a b = none) ∧
    (res h a ≠ res h b → binVV op h a b = none) ∧ (arg h a ≠ res h b → composeVV h a b = none) ∧
    (argS h f ≠ res h b → composeSV h f b = none) ∧ (argS h f ≠ argS h g → joinSS h f g = none) ∧
    (argS h f ≠ arg h b → joinSV h f b = none ∧ mulSV h f b = none) ∧
    (arg h a ≠ argS h g → joinVS h a g = none ∧ binVS op h a g = none) ∧
    (∀ c : List K, res h a ≠ c.length → binVC op h a c = none) := by
  refine ⟨fun e => ⟨if_neg e, if_neg e, if_neg fun e' => e e'.2⟩, fun e => if_neg fun e' => e e'.1,
    fun e => if_neg e, fun e => if_neg e, fun e => if_neg e, fun e => ⟨if_neg e, if_neg e⟩,
    fun e => ⟨if_neg e, if_neg e⟩, fun c e => if_neg e⟩

/-! ### Histories -/

/-- One operation other than an assignment of components. -/
inductive Op : Heap K → Heap K → Prop
  | copy {h} {a : ℕ} : Op h (copy h a).1
  | zeros {h} {m n : ℕ} : Op h (zeros h m n).1
  | un {h h' r op a} : unV op h a = some (h', r) → Op h h'
  | binVV {h h' r op a b} : binVV op h a b = some (h', r) → Op h h'
  | mulSV {h h' r s b} : mulSV h s b = some (h', r) → Op h h'
  | binVS {h h' r op a s} : binVS op h a s = some (h', r) → Op h h'
  | binVC {h h' r op a c} : binVC op h a c = some (h', r) → Op h h'
  | binVN {h h' r op a c} : binVN op h a c = some (h', r) → Op h h'
  | joinSS {h h' r f g} : joinSS h f g = some (h', r) → Op h h'
  | joinVS {h h' r a g} : joinVS h a g = some (h', r) → Op h h'
  | joinSV {h h' r f b} : joinSV h f b = some (h', r) → Op h h'
  | joinVV {h h' r a b} : joinVV h a b = some (h', r) → Op h h'
  | vjoinSV {h h' r f b} : vjoinSV h f b = some (h', r) → Op h h'
  | vjoinVV {h h' r a b} : vjoinVV h a b = some (h', r) → Op h h'
  | vbinVV {h h' r op a b} : vbinVV op h a b = some (h', r) → Op h h'
  | composeVV {h h' r a b} : composeVV h a b = some (h', r) → Op h h'
  | embed {h h' r n1 a n3} : embed h n1 a n3 = some (h', r) → Op h h'

/-- Any sequence of operations other than assignments of components. -/
inductive Ops : Heap K → Heap K → Prop
  | refl {h} : Ops h h
  | step {h h' h''} : Ops h h' → Op h' h'' → Ops h h''

omit [DecidableEq K] in
theorem sets_extends : ∀ (ps : List (ℕ × (Heap K → Option (SF K)))) (h h' : Heap K) (nd : Node K),
    sets h.length ps (h ++ [nd]) = some h' → ∃ nd', h' = h ++ [nd'] := by
  intro ps
  induction ps with
  | nil => intro h h' nd e; exact ⟨nd, (Option.some.inj e).symm⟩
  | cons p ps ih =>
    intro h h' nd e
    obtain ⟨q, gen⟩ := p
    unfold sets at e
    obtain ⟨s, -, e⟩ := Option.bind_eq_some_iff.1 e
    obtain ⟨h1, e1, e⟩ := Option.bind_eq_some_iff.1 e
    have : ∃ nd1, h1 = h ++ [nd1] := by
      unfold set at e1
      split at e1
      · split at e1
        · split at e1
          · exact ⟨_, by rw [← Option.some.inj e1, List.set_append_right _ _ le_rfl]; simp; rfl⟩
          · exact absurd e1 (by simp)
        · exact absurd e1 (by simp)
      · exact absurd e1 (by simp)
    obtain ⟨nd1, rfl⟩ := this
    exact ih h h' nd1 e

omit [DecidableEq K] in
theorem build_extends {h h' : Heap K} {m n r : ℕ} {ps : List (ℕ × (Heap K → Option (SF K)))}
    (e : build h m n ps = some (h', r)) : ∃ l, h' = h ++ l := by
  unfold build zeros at e
  simp only at e
  obtain ⟨h1, e1, e⟩ := Option.map_eq_some_iff.1 e
  obtain ⟨nd', rfl⟩ := sets_extends ps h h1 _ e1
  exact ⟨[nd'], (congrArg Prod.fst e).symm⟩

omit [DecidableEq K] in
theorem ite_extends {h h' : Heap K} {r : ℕ} {c : Prop} [Decidable c] {o : Option (Heap K × ℕ)}
    (ho : o = some (h', r) → ∃ l, h' = h ++ l) (e : (if c then o else none) = some (h', r)) : ∃ l, h' = h ++ l := by
  split at e
  · exact ho e
  · exact absurd e (by simp)

omit [DecidableEq K] in
theorem Op.extends {h h' : Heap K} (e : Op h h') : ∃ l, h' = h ++ l := by
  have pt : ∀ {h h' : Heap K} {nd : Node K} {r : ℕ}, some (h ++ [nd], h.length) = some (h', r) → ∃ l, h' = h ++ l :=
    fun e => ⟨_, (congrArg Prod.fst (Option.some.inj e)).symm⟩
  cases e with
  | copy => exact ⟨[], (List.append_nil _).symm⟩
  | zeros => exact ⟨_, rfl⟩
  | un e => exact build_extends e
  | binVV e => exact ite_extends build_extends e
  | mulSV e => exact ite_extends build_extends e
  | binVS e => exact ite_extends build_extends e
  | binVC e => exact ite_extends build_extends e
  | binVN e => exact build_extends e
  | joinSS e => exact ite_extends build_extends e
  | joinVS e => exact ite_extends build_extends e
  | joinSV e => exact ite_extends build_extends e
  | joinVV e => exact ite_extends build_extends e
  | vjoinSV e => exact build_extends e
  | vjoinVV e => exact ite_extends pt e
  | vbinVV e => exact build_extends e
  | composeVV e => exact ite_extends pt e
  | embed e => exact absurd e (by simp [Verif.FunctionObject.embed])

/-- **Histories.** Whatever operations other than assignments of components are performed, in any number and order, the
functions which existed before keep their values, their sizes and their components. -/
theorem C104_history {h h' : Heap K} (hw : WF h) (e : Ops h h') (a : ℕ) (ha : a < h.length) :
    value h' a = value h a ∧ arg h' a = arg h a ∧ res h' a = res h a ∧ ∀ i, get h' a i = get h a i := by
  have : ∃ l, h' = h ++ l := by
    induction e with
    | refl => exact ⟨[], (List.append_nil _).symm⟩
    | step _ e ih =>
      obtain ⟨l, rfl⟩ := ih
      obtain ⟨l', rfl⟩ := e.extends
      exact ⟨l ++ l', List.append_assoc _ _ _⟩
  obtain ⟨l, rfl⟩ := this
  have hag : ∀ b, b ≤ a → h[b]? = (h ++ l)[b]? := fun b hb => (List.getElem?_append_left (by omega)).symm
  exact ⟨(value_agree hw a hag).symm, (arg_agree hw a hag).symm, (res_agree hw a hag).symm,
    fun i => (get_agree hw a i hag).symm⟩

/-! ### Assignments of components -/

/-- `c` refers to `a`, directly or through other functions. -/
inductive Reach (h : Heap K) (a : ℕ) : ℕ → Prop
  | refl : Reach h a a
  | step {c b : ℕ} {nd : Node K} : h[c]? = some nd → b ∈ nd.refs → Reach h a b → Reach h a c

/-- **Assigning a component** leaves alone the functions which do not refer to the changed one, however deep the
evaluation. -/
theorem C104_set_frame {h h' : Heap K} {a i : ℕ} {s : SF K} (e : set h a i s = some h') :
    ∀ (t c : ℕ), ¬ Reach h a c → evalV h' t c = evalV h t c := by
  have : ∃ nd, h' = List.set h a nd := by
    unfold set at e
    split at e
    · split at e
      · split at e
        · exact ⟨_, (Option.some.inj e).symm⟩
        · exact absurd e (by simp)
      · exact absurd e (by simp)
    · exact absurd e (by simp)
  obtain ⟨nd', rfl⟩ := this
  intro t
  induction t with
  | zero => intro c _; rfl
  | succ t ih =>
    intro c hc
    funext x
    simp only [evalV]
    have hac : a ≠ c := fun e => hc (e ▸ Reach.refl)
    rw [List.getElem?_set_ne hac]
    cases hn : h[c]? with
    | none => rfl
    | some nd =>
      have hr : ∀ b ∈ nd.refs, evalV (List.set h a nd') t b = evalV h t b := fun b hb =>
        ih b fun hb' => hc (Reach.step hn hb hb')
      cases nd with
      | vec n fs =>
        simp only
        have : ∀ l : List (SF K), (∀ s ∈ l, ∀ b ∈ s.refs, b ∈ (Node.vec n fs).refs) →
            (l.mapM fun f => evalS (evalV (List.set h a nd') t) f x) = l.mapM fun f => evalS (evalV h t) f x := by
          intro l
          induction l with
          | nil => intro _; rfl
          | cons s l ihl =>
            intro hl
            rw [List.mapM_cons, List.mapM_cons, ihl fun s hs => hl s (List.mem_cons_of_mem _ hs),
              evalS_congr s fun b hb' => hr b (hl s List.mem_cons_self b hb')]
        exact this fs fun s hs b hb => List.mem_flatMap.2 ⟨s, hs, hb⟩
      | comp f g =>
        simp only
        rw [hr f (by simp [Node.refs]), hr g (by simp [Node.refs])]
      | join f g =>
        simp only
        rw [hr f (by simp [Node.refs]), hr g (by simp [Node.refs])]

/-- **Assigning a component** which is made of older functions changes that component of the value, and no other.
Missing for the full claim: the assignment changes the copies of the function and the functions made from it, and
assigning a function which refers to the changed one makes evaluation endless (`C104_set_shared_fails`,
`C104_set_cycle_fails`). -/
theorem C104_set_partial {h : Heap K} (hw : WF h) {a n i : ℕ} {fs : List (SF K)} {s : SF K}
    (hn : h[a]? = some (.vec n fs)) (hi : i < fs.length) (hs : Below a s) (harg : argS h s = n) :
    ∃ h', set h a i s = some h' ∧ WF h' ∧
      ∀ x v w, value h a x = some v → valueS h s x = some w → value h' a x = some (v.set i w) := by
  have hal : a < h.length := by
    by_contra hc; rw [List.getElem?_eq_none (by omega)] at hn; exact absurd hn (by simp)
  have hfi : fs[i]? = some fs[i] := List.getElem?_eq_getElem hi
  have hset : set h a i s = some (List.set h a (.vec n (List.set fs i s))) := by
    unfold set
    simp only [hn, hfi]
    rw [if_pos (by rw [hw.vec a n fs hn _ (List.getElem_mem hi), harg])]
  have hmem : ∀ s' ∈ List.set fs i s, s' ∈ fs ∨ s' = s := fun s' h' => List.mem_or_eq_of_mem_set h'
  have hn' : (List.set h a (Node.vec n (List.set fs i s)))[a]? = some (.vec n (List.set fs i s)) := by
    simp [hal]
  have hother : ∀ b, b ≠ a → (List.set h a (Node.vec n (List.set fs i s)))[b]? = h[b]? := fun b hb =>
    List.getElem?_set_ne (Ne.symm hb)
  have hold : ∀ (c : ℕ) (nd : Node K), (List.set h a (Node.vec n (List.set fs i s)))[c]? = some nd →
      ∀ b ∈ nd.refs, b < c := by
    intro c nd hc b hb
    by_cases hca : c = a
    · subst hca
      rw [hn'] at hc
      obtain rfl := Option.some.inj hc
      obtain ⟨s', hs', hbs⟩ := List.mem_flatMap.1 hb
      rcases hmem s' hs' with h1 | h1
      · exact hw.older c _ hn b (List.mem_flatMap.2 ⟨s', h1, hbs⟩)
      · exact hs b (h1 ▸ hbs)
    · rw [hother c hca] at hc; exact hw.older c nd hc b hb
  have hargV : ∀ t c, argV (List.set h a (Node.vec n (List.set fs i s))) t c = argV h t c := by
    intro t
    induction t with
    | zero => intro c; rfl
    | succ t ih =>
      intro c
      simp only [argV]
      by_cases hca : c = a
      · subst hca; rw [hn', hn]
      · rw [hother c hca]
        cases h[c]? with
        | none => rfl
        | some nd =>
          cases nd with
          | vec => rfl
          | comp f g => exact ih g
          | join f g => exact ih f
  have hargS : ∀ s', argS (List.set h a (Node.vec n (List.set fs i s))) s' = argS h s' := by
    intro s'
    induction s' with
    | const => rfl
    | coord => rfl
    | un op f ih => exact ih
    | bin op f g ihf ihg => exact ihf
    | comp f g ih => exact hargV _ g
  have hw' : WF (List.set h a (Node.vec n (List.set fs i s))) := by
    refine ⟨hold, ?_, ?_⟩
    · intro c m gs hc s' hs'
      rw [hargS]
      by_cases hca : c = a
      · subst hca
        rw [hn'] at hc
        obtain ⟨rfl, rfl⟩ := Node.vec.inj (Option.some.inj hc)
        rcases hmem s' hs' with h1 | rfl
        · exact hw.vec c n fs hn s' h1
        · exact harg
      · rw [hother c hca] at hc; exact hw.vec c m gs hc s' hs'
    · intro c f g hc
      by_cases hca : c = a
      · subst hca; rw [hn'] at hc; cases hc
      · rw [hother c hca] at hc
        have := hw.join c f g hc
        unfold arg at this ⊢
        rw [hargV, hargV, this]
  refine ⟨_, hset, hw', ?_⟩
  intro x v w hv hws
  rw [value_vec hw hn, mapM_some_iff] at hv
  rw [value_vec hw' hn', mapM_some_iff]
  have hval : ∀ s', Below a s' → valueS (List.set h a (Node.vec n (List.set fs i s))) s' = valueS h s' := by
    intro s' hs'
    unfold valueS
    exact (evalS_congr s' fun b hb => value_agree hw b fun c hc =>
      (hother c (by have := hs' b hb; omega)).symm).symm
  refine ⟨by simp [hv.1], ?_⟩
  intro j s' hj
  by_cases hji : i = j
  · subst hji
    rw [List.getElem?_set_self hi] at hj
    obtain rfl := Option.some.inj hj
    rw [hval s hs, hws, List.getElem?_set_self (by omega)]
    exact ⟨rfl, rfl⟩
  · rw [List.getElem?_set_ne hji] at hj ⊢
    rw [hval s' fun b hb => hw.older a _ hn b (List.mem_flatMap.2 ⟨s', List.mem_of_getElem? hj, hb⟩)]
    exact hv.2 j s' hj

end Makes

/-! ### Operators of validated functions -/

/-- The operators which call those of function patches, or build a symbolic function, do so in one call. -/
theorem C104_validated_operators_partial (t : ℕ) (k1 k2 : Kind) :
    vmulVS (t + 1) k1 k2 = (if k1 = .patch ∨ k2 = .patch then .patches else .symbolic) ∧
    vapplyCS (t + 1) k2 = (if k2 = .patch then .patches else .symbolic) ∧
    vmulSV (t + 1) .plain .plain = .symbolic ∧ vapplySC (t + 1) .plain = .symbolic := by
  cases k1 <;> cases k2 <;> simp [vmulVS, vapplyCS, vmulSV, vapplySC]

end Verif.FunctionObject
