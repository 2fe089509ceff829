import Verif.Procedure.Model

/-!
# Property C32: compiling a formula to a procedure preserves its value
-/

namespace Verif.Procedure

open Ariadne.Symbolic (UnOp BinOp)

variable {Y X : Type*}

/-! ## Specification -/

/-- spec: nodes at the same address are the same node. -/
def Coherent (G : Set (Formula Y)) : Prop := ∀ a ∈ G, ∀ b ∈ G, a.addr = b.addr → a = b

/-- spec: the positions of temporaries read by an instruction. -/
def Instr.reads : Instr → List ℕ
  | .const _ => []
  | .ind _ => []
  | .un _ a => [a]
  | .bin _ a b => [a, b]
  | .graded a _ => [a]
  | .scalar _ _ a => [a]

/-- spec: the positions of constants read by an instruction. -/
def Instr.constants : Instr → List ℕ
  | .const k => [k]
  | .scalar _ k _ => [k]
  | _ => []

/-- spec: every instruction reads only earlier results and existing constants. -/
def Proc.Valid (P : Proc Y) : Prop :=
  ∀ (r : ℕ) (i : Instr), P.p[r]? = some i → (∀ a ∈ i.reads, a < r) ∧ ∀ k ∈ i.constants, k < P.c.length

/-- spec: the coordinates used by a formula. -/
def Formula.indices : Formula Y → Set ℕ
  | .const _ _ => ∅
  | .ind _ i => {i}
  | .un _ _ a => a.indices
  | .bin _ _ a b => a.indices ∪ b.indices
  | .graded _ a _ => a.indices
  | .scalar _ _ _ a => a.indices

/-! ## Results of a list of instructions -/

/-- The list `w` of results, each computed from the earlier ones. -/
def Computes (A : Alg Y X) (c : List Y) (x : ℕ → X) (p : List Instr) (w : List X) : Prop :=
  w.length = p.length ∧ ∀ (r : ℕ) (i : Instr), p[r]? = some i → ∃ y, w[r]? = some y ∧ execInstr A c x (w.take r) i = some y

theorem execInstr_mono {A : Alg Y X} {c c' : List Y} {x : ℕ → X} {v v' : List X} {i : Instr} {y : X}
    (hc : ∀ (k : ℕ) (y : Y), c[k]? = some y → c'[k]? = some y)
    (hv : ∀ (k : ℕ) (y : X), v[k]? = some y → v'[k]? = some y)
    (h : execInstr A c x v i = some y) : execInstr A c' x v' i = some y := by
  cases i with
  | const k =>
    simp only [execInstr, Option.map_eq_some_iff] at h ⊢
    obtain ⟨a, h1, h2⟩ := h
    exact ⟨a, hc _ _ h1, h2⟩
  | ind i => exact h
  | un op a =>
    simp only [execInstr, Option.map_eq_some_iff] at h ⊢
    obtain ⟨a, h1, h2⟩ := h
    exact ⟨a, hv _ _ h1, h2⟩
  | bin op a b =>
    simp only [execInstr, Option.map_eq_some_iff, Option.bind_eq_some_iff] at h ⊢
    obtain ⟨a, h1, b, h2, h3⟩ := h
    exact ⟨a, hv _ _ h1, b, hv _ _ h2, h3⟩
  | graded a n =>
    simp only [execInstr, Option.map_eq_some_iff] at h ⊢
    obtain ⟨a, h1, h2⟩ := h
    exact ⟨a, hv _ _ h1, h2⟩
  | scalar op k a =>
    simp only [execInstr, Option.map_eq_some_iff, Option.bind_eq_some_iff] at h ⊢
    obtain ⟨a, h1, b, h2, h3⟩ := h
    exact ⟨a, hc _ _ h1, b, hv _ _ h2, h3⟩

theorem getElem?_append_mono {α : Type*} (l l' : List α) (k : ℕ) (y : α) (h : l[k]? = some y) :
    (l ++ l')[k]? = some y := by
  have : k < l.length := by
    by_contra hk
    rw [List.getElem?_eq_none (by omega)] at h
    simp at h
  rw [List.getElem?_append_left this]
  exact h

theorem Computes.push {A : Alg Y X} {c : List Y} {x : ℕ → X} {p : List Instr} {w : List X}
    (h : Computes A c x p w) (c' : List Y) {i : Instr} {y : X}
    (hi : execInstr A (c ++ c') x w i = some y) : Computes A (c ++ c') x (p ++ [i]) (w ++ [y]) := by
  refine ⟨by simp [h.1], fun r j hj => ?_⟩
  by_cases hr : r < p.length
  · rw [List.getElem?_append_left hr] at hj
    obtain ⟨z, h1, h2⟩ := h.2 r j hj
    refine ⟨z, getElem?_append_mono _ _ _ _ h1, ?_⟩
    rw [List.take_append_of_le_length (by rw [h.1]; omega)]
    exact execInstr_mono (fun k y => getElem?_append_mono _ _ _ _) (fun _ _ h => h) h2
  · have hr' : r = p.length := by
      have : r < (p ++ [i]).length := by
        by_contra hk
        rw [List.getElem?_eq_none (by omega)] at hj
        simp at hj
      simp at this; omega
    subst hr'
    simp only [List.getElem?_concat_length, Option.some.injEq] at hj
    subst hj
    refine ⟨y, by rw [← h.1]; simp, ?_⟩
    rw [← h.1, List.take_left']
    · exact hi
    · rfl

/-- Extending the constants. -/
theorem Computes.consts {A : Alg Y X} {c : List Y} {x : ℕ → X} {p : List Instr} {w : List X}
    (h : Computes A c x p w) (c' : List Y) : Computes A (c ++ c') x p w := by
  refine ⟨h.1, fun r j hj => ?_⟩
  obtain ⟨z, h1, h2⟩ := h.2 r j hj
  exact ⟨z, h1, execInstr_mono (fun k y => getElem?_append_mono _ _ _ _) (fun _ _ h => h) h2⟩

theorem execFrom_eq {A : Alg Y X} {c : List Y} {x : ℕ → X} (p q : List Instr) (w : List X)
    (h : Computes A c x (q ++ p) w) (v : List X) (hv : v.length = w.length)
    (hq : v.take q.length = w.take q.length) :
    execFrom A c x p q.length v = some w := by
  induction p generalizing q v with
  | nil =>
    simp only [execFrom]
    have h1 : w.length = q.length := by simpa using h.1
    rw [← h1, List.take_length, ← hv, List.take_length] at hq
    rw [hq]
  | cons i p ih =>
    obtain ⟨y, h1, h2⟩ := h.2 q.length i (by simp)
    have hlen : w.length = q.length + (p.length + 1) := by simpa using h.1
    have h3 : execInstr A c x v i = some y := by
      refine execInstr_mono (fun _ _ h => h) ?_ h2
      intro k z hk
      rw [← hq, List.getElem?_take] at hk
      split_ifs at hk
      exact hk
    rw [execFrom, h3]
    have := ih (q ++ [i]) (by simpa using h) (v.set q.length y) (by simpa using hv) ?_
    · simpa using this
    · rw [List.length_append, List.length_singleton]
      apply List.ext_getElem?
      intro k
      rw [List.getElem?_take, List.getElem?_take]
      by_cases hk : k < q.length + 1
      · rw [if_pos hk, if_pos hk]
        by_cases hk' : k = q.length
        · subst hk'
          rw [List.getElem?_set_self (by omega), h1]
        · rw [List.getElem?_set_ne (by omega)]
          have := congrArg (fun l => l[k]?) hq
          simp only [List.getElem?_take] at this
          rw [if_pos (by omega), if_pos (by omega)] at this
          exact this
      · rw [if_neg hk, if_neg hk]

theorem exec_eq {A : Alg Y X} {P : Proc Y} {x : ℕ → X} {w : List X} (h : Computes A P.c x P.p w) :
    exec A P x = some w :=
  execFrom_eq P.p [] w (by simpa using h) _ (by simp [h.1]) (by simp)

theorem take_reads {A : Alg Y X} {c : List Y} {x : ℕ → X} {w : List X} {r : ℕ} {i : Instr} {y : X}
    (h : execInstr A c x (w.take r) i = some y) :
    (∀ a ∈ i.reads, a < r) ∧ ∀ k ∈ i.constants, k < c.length := by
  have h1 : ∀ a z, (w.take r)[a]? = some z → a < r := by
    intro a z h
    rw [List.getElem?_take] at h
    split_ifs at h with h1
    exact h1
  have h2 : ∀ k z, c[k]? = some z → k < c.length := by
    intro k z h
    by_contra hk
    rw [List.getElem?_eq_none (by omega)] at h
    simp at h
  cases i with
  | const k =>
    simp only [execInstr, Option.map_eq_some_iff] at h
    obtain ⟨a, h3, -⟩ := h
    simpa [Instr.reads, Instr.constants] using h2 _ _ h3
  | ind i => simp [Instr.reads, Instr.constants]
  | un op a =>
    simp only [execInstr, Option.map_eq_some_iff] at h
    obtain ⟨b, h3, -⟩ := h
    simpa [Instr.reads, Instr.constants] using h1 _ _ h3
  | bin op a b =>
    simp only [execInstr, Option.map_eq_some_iff, Option.bind_eq_some_iff] at h
    obtain ⟨b, h3, _, h4, -⟩ := h
    simpa [Instr.reads, Instr.constants] using ⟨h1 _ _ h3, h1 _ _ h4⟩
  | graded a n =>
    simp only [execInstr, Option.map_eq_some_iff] at h
    obtain ⟨b, h3, -⟩ := h
    simpa [Instr.reads, Instr.constants] using h1 _ _ h3
  | scalar op k a =>
    simp only [execInstr, Option.map_eq_some_iff, Option.bind_eq_some_iff] at h
    obtain ⟨b, h3, _, h4, -⟩ := h
    simpa [Instr.reads, Instr.constants] using ⟨h1 _ _ h4, h2 _ _ h3⟩

/-! ## Invariant of the conversion -/

/-- The instructions compute `w` and every cached position holds the value of its node. -/
structure CInv (A : Alg Y X) (x : ℕ → X) (G : Set (Formula Y)) (s : Code Y) (w : List X) : Prop where
  comp : Computes A s.c x s.p w
  cache : ∀ a k, s.cache.lookup a = some k → ∃ g ∈ G, g.addr = a ∧ w[k]? = some (g.eval A x)

/-- What `convert` does to the state. -/
structure Conv (A : Alg Y X) (x : ℕ → X) (G : Set (Formula Y)) (f : Formula Y) (s : Code Y)
    (w : List X) (r : ℕ × Code Y) : Prop where
  inv : ∃ w', CInv A x G r.2 (w ++ w') ∧ (w ++ w')[r.1]? = some (f.eval A x)
  fresh : s.cache.lookup f.addr = none → r.1 + 1 = r.2.p.length
  cached : r.2.cache.lookup f.addr = some r.1
  mono : ∀ a k, s.cache.lookup a = some k → r.2.cache.lookup a = some k
  keys : ∀ a k, r.2.cache.lookup a = some k → s.cache.lookup a = some k ∨ ∃ g ∈ f.nodes, g.addr = a
  consts : ∃ c', r.2.c = s.c ++ c'
  nodup : (s.cache.map Prod.fst).Nodup → (r.2.cache.map Prod.fst).Nodup

theorem self_mem_nodes (f : Formula Y) : f ∈ f.nodes := by cases f <;> simp [Formula.nodes]

/-- A formula is not one of its proper subformulae. -/
theorem size_lt {f g : Formula Y} (h : g ∈ f.nodes) : sizeOf g ≤ sizeOf f := by
  induction f with
  | const p c => simp only [Formula.nodes, Set.mem_singleton_iff] at h; rw [h]
  | ind p i => simp only [Formula.nodes, Set.mem_singleton_iff] at h; rw [h]
  | un p op a ih =>
    rcases h with rfl | h
    · exact le_rfl
    · have := ih h; simp only [Formula.un.sizeOf_spec]; omega
  | bin p op a b iha ihb =>
    rcases h with rfl | h | h
    · exact le_rfl
    · have := iha h; simp only [Formula.bin.sizeOf_spec]; omega
    · have := ihb h; simp only [Formula.bin.sizeOf_spec]; omega
  | graded p a n ih =>
    rcases h with rfl | h
    · exact le_rfl
    · have := ih h; simp only [Formula.graded.sizeOf_spec]; omega
  | scalar p op c a ih =>
    rcases h with rfl | h
    · exact le_rfl
    · have := ih h; simp only [Formula.scalar.sizeOf_spec]; omega

theorem Conv.of_cached {A : Alg Y X} {x : ℕ → X} {G : Set (Formula Y)} (hG : Coherent G)
    {f : Formula Y} (hf : f ∈ G) {s : Code Y} {w : List X} (h : CInv A x G s w) {k : ℕ}
    (hk : s.cache.lookup f.addr = some k) : Conv A x G f s w (k, s) := by
  obtain ⟨g, hg, h1, h2⟩ := h.cache _ _ hk
  have := hG g hg f hf h1
  subst this
  exact ⟨⟨[], by simpa using h, by simpa using h2⟩, fun hn => by rw [hn] at hk; simp at hk, hk,
    fun _ _ h => h, fun _ _ h => Or.inl h, ⟨[], by simp⟩, id⟩

/-- The step common to all nodes: appending the instruction. -/
theorem Conv.of_push {A : Alg Y X} {x : ℕ → X} {G : Set (Formula Y)} {f : Formula Y} (hf : f ∈ G)
    {s t : Code Y} {w w' : List X} (ht : CInv A x G t (w ++ w')) (c' : List Y) {i : Instr}
    (hi : execInstr A (t.c ++ c') x (w ++ w') i = some (f.eval A x))
    (hmono : ∀ a k, s.cache.lookup a = some k → t.cache.lookup a = some k)
    (hnot : t.cache.lookup f.addr = none)
    (hkeys : ∀ a k, t.cache.lookup a = some k → s.cache.lookup a = some k ∨ ∃ g ∈ f.nodes, g.addr = a)
    (hconsts : ∃ c', t.c = s.c ++ c')
    (hnodup : (s.cache.map Prod.fst).Nodup → (t.cache.map Prod.fst).Nodup) :
    Conv A x G f s w (Code.push f.addr i ⟨t.p, t.c ++ c', t.cache⟩) := by
  have hlen : (w ++ w').length = t.p.length := ht.comp.1
  refine ⟨⟨w' ++ [f.eval A x], ⟨?_, ?_⟩, ?_⟩, ?_, ?_, ?_, ?_, ?_, ?_⟩
  · simp only [Code.push]
    rw [← List.append_assoc]
    exact ht.comp.push c' hi
  · intro a k h
    simp only [Code.push, List.lookup_cons] at h
    rw [← List.append_assoc]
    by_cases ha : a = f.addr
    · subst ha
      simp only [beq_self_eq_true, Option.some.injEq] at h
      subst h
      exact ⟨f, hf, rfl, by rw [← hlen, List.getElem?_concat_length]⟩
    · have : (a == f.addr) = false := by simpa using ha
      rw [this] at h
      simp only at h
      obtain ⟨g, h1, h2, h3⟩ := ht.cache a k h
      exact ⟨g, h1, h2, getElem?_append_mono _ _ _ _ h3⟩
  · simp only [Code.push]
    rw [← List.append_assoc, ← hlen, List.getElem?_concat_length]
  · intro _; simp [Code.push]
  · simp [Code.push, List.lookup_cons]
  · intro a k h
    have h1 := hmono a k h
    by_cases ha : a = f.addr
    · subst ha; rw [hnot] at h1; simp at h1
    · have : (a == f.addr) = false := by simpa using ha
      simp [Code.push, List.lookup_cons, this, h1]
  · intro a k h
    simp only [Code.push, List.lookup_cons] at h
    by_cases ha : a = f.addr
    · exact Or.inr ⟨f, self_mem_nodes f, ha.symm⟩
    · have : (a == f.addr) = false := by simpa using ha
      rw [this] at h
      exact hkeys a k h
  · obtain ⟨d, hd⟩ := hconsts
    exact ⟨d ++ c', by simp [Code.push, hd]⟩
  · intro hs
    simp only [Code.push, List.map_cons, List.nodup_cons]
    refine ⟨fun hm => ?_, hnodup hs⟩
    obtain ⟨⟨a, k⟩, h1, h2⟩ := List.mem_map.1 hm
    rw [List.lookup_eq_none_iff] at hnot
    have := hnot _ h1
    simp_all

theorem lookup_none_of_keys {G : Set (Formula Y)} (hG : Coherent G) {f a : Formula Y} (hf : f ∈ G)
    (ha : a.nodes ⊆ G) (hlt : sizeOf a < sizeOf f) {s t : Code Y}
    (hs : s.cache.lookup f.addr = none)
    (hk : ∀ b k, t.cache.lookup b = some k → s.cache.lookup b = some k ∨ ∃ g ∈ a.nodes, g.addr = b) :
    t.cache.lookup f.addr = none := by
  cases h : t.cache.lookup f.addr with
  | none => rfl
  | some k =>
    rcases hk _ _ h with h1 | ⟨g, h1, h2⟩
    · rw [hs] at h1; simp at h1
    · have := hG g (ha h1) f hf h2
      subst this
      have := size_lt h1
      omega

theorem convert_spec {A : Alg Y X} {x : ℕ → X} {G : Set (Formula Y)} (hG : Coherent G) (rf : Bool)
    (f : Formula Y) (hf : f.nodes ⊆ G) (hn : f.NoScalar) (s : Code Y) (w : List X)
    (h : CInv A x G s w) : Conv A x G f s w (convert rf f s) := by
  induction f generalizing s w with
  | const p c =>
    have hfG := hf (self_mem_nodes (Formula.const p c))
    rw [convert]
    cases hk : s.cache.lookup p with
    | some k => exact Conv.of_cached hG hfG h hk
    | none =>
      have h' : CInv A x G s (w ++ []) := by simpa using h
      refine Conv.of_push (f := .const p c) (s := s) (t := s) (w := w) (w' := []) hfG h' [c] ?_
        (fun _ _ h => h) hk (fun _ _ h => Or.inl h) ⟨[], by simp⟩ id
      simp [execInstr, Formula.eval]
  | ind p i =>
    have hfG := hf (self_mem_nodes (Formula.ind p i : Formula Y))
    rw [convert]
    cases hk : s.cache.lookup p with
    | some k => exact Conv.of_cached hG hfG h hk
    | none =>
      have h' : CInv A x G s (w ++ []) := by simpa using h
      have := Conv.of_push (f := .ind p i) (s := s) (t := s) (w := w) (w' := []) hfG h' [] (i := .ind i) ?_
        (fun _ _ h => h) hk (fun _ _ h => Or.inl h) ⟨[], by simp⟩ id
      · simpa [Formula.addr] using this
      · simp [execInstr, Formula.eval]
  | un p op a ih =>
    have hfG := hf (self_mem_nodes (Formula.un p op a))
    have ha : a.nodes ⊆ G := (Set.subset_insert _ _).trans hf
    rw [convert]
    cases hk : s.cache.lookup p with
    | some k => exact Conv.of_cached hG hfG h hk
    | none =>
      have r := ih ha hn s w h
      obtain ⟨w', h1, h2⟩ := r.inv
      have := Conv.of_push (f := .un p op a) (s := s) hfG h1 [] (i := .un op (convert rf a s).1) ?_ r.mono
        (lookup_none_of_keys hG hfG ha (by simp) hk r.keys)
        (fun b k hb => (r.keys b k hb).imp id fun ⟨g, h1, h2⟩ => ⟨g, Or.inr h1, h2⟩) r.consts r.nodup
      · simpa [Formula.addr] using this
      · simp [execInstr, Formula.eval, h2]
  | graded p a n ih =>
    have hfG := hf (self_mem_nodes (Formula.graded p a n))
    have ha : a.nodes ⊆ G := (Set.subset_insert _ _).trans hf
    rw [convert]
    cases hk : s.cache.lookup p with
    | some k => exact Conv.of_cached hG hfG h hk
    | none =>
      have r := ih ha hn s w h
      obtain ⟨w', h1, h2⟩ := r.inv
      have := Conv.of_push (f := .graded p a n) (s := s) hfG h1 [] (i := .graded (convert rf a s).1 n) ?_ r.mono
        (lookup_none_of_keys hG hfG ha (by simp; omega) hk r.keys)
        (fun b k hb => (r.keys b k hb).imp id fun ⟨g, h1, h2⟩ => ⟨g, Or.inr h1, h2⟩) r.consts r.nodup
      · simpa [Formula.addr] using this
      · simp [execInstr, Formula.eval, h2]
  | scalar p op c a ih => exact hn.elim
  | bin p op a b iha ihb =>
    have hfG := hf (self_mem_nodes (Formula.bin p op a b))
    have ha : a.nodes ⊆ G := fun g hg => hf (Or.inr (Or.inl hg))
    have hb : b.nodes ⊆ G := fun g hg => hf (Or.inr (Or.inr hg))
    rw [convert]
    cases hk : s.cache.lookup p with
    | some k => exact Conv.of_cached hG hfG h hk
    | none =>
      cases rf with
      | false =>
        have r := iha ha hn.1 s w h
        obtain ⟨w1, h1, h2⟩ := r.inv
        have q := ihb hb hn.2 (convert false a s).2 _ h1
        obtain ⟨w2, h3, h4⟩ := q.inv
        rw [List.append_assoc] at h3 h4
        have n1 := lookup_none_of_keys hG hfG ha (by simp; omega) hk r.keys
        have n2 := lookup_none_of_keys hG hfG hb (by simp) n1 q.keys
        have := Conv.of_push (f := .bin p op a b) (s := s) (w := w) (w' := w1 ++ w2) hfG h3 []
          (i := .bin op (convert false a s).1 (convert false b (convert false a s).2).1) ?_
          (fun c k hc => q.mono c k (r.mono c k hc)) n2
          (fun c k hc => by
            rcases q.keys c k hc with h | ⟨g, g1, g2⟩
            · rcases r.keys c k h with h | ⟨g, g1, g2⟩
              · exact Or.inl h
              · exact Or.inr ⟨g, Or.inr (Or.inl g1), g2⟩
            · exact Or.inr ⟨g, Or.inr (Or.inr g1), g2⟩)
          (by
            obtain ⟨c1, e1⟩ := r.consts
            obtain ⟨c2, e2⟩ := q.consts
            exact ⟨c1 ++ c2, by rw [e2, e1, List.append_assoc]⟩)
          (fun h => q.nodup (r.nodup h))
        · simpa [Formula.addr] using this
        · have h2' := getElem?_append_mono _ w2 _ _ h2
          rw [List.append_assoc] at h2'
          simp [execInstr, Formula.eval, h2', h4]
      | true =>
        have r := ihb hb hn.2 s w h
        obtain ⟨w1, h1, h2⟩ := r.inv
        have q := iha ha hn.1 (convert true b s).2 _ h1
        obtain ⟨w2, h3, h4⟩ := q.inv
        rw [List.append_assoc] at h3 h4
        have n1 := lookup_none_of_keys hG hfG hb (by simp) hk r.keys
        have n2 := lookup_none_of_keys hG hfG ha (by simp; omega) n1 q.keys
        have := Conv.of_push (f := .bin p op a b) (s := s) (w := w) (w' := w1 ++ w2) hfG h3 []
          (i := .bin op (convert true a (convert true b s).2).1 (convert true b s).1) ?_
          (fun c k hc => q.mono c k (r.mono c k hc)) n2
          (fun c k hc => by
            rcases q.keys c k hc with h | ⟨g, g1, g2⟩
            · rcases r.keys c k h with h | ⟨g, g1, g2⟩
              · exact Or.inl h
              · exact Or.inr ⟨g, Or.inr (Or.inr g1), g2⟩
            · exact Or.inr ⟨g, Or.inr (Or.inl g1), g2⟩)
          (by
            obtain ⟨c1, e1⟩ := r.consts
            obtain ⟨c2, e2⟩ := q.consts
            exact ⟨c1 ++ c2, by rw [e2, e1, List.append_assoc]⟩)
          (fun h => q.nodup (r.nodup h))
        · simpa [Formula.addr] using this
        · have h2' := getElem?_append_mono _ w2 _ _ h2
          rw [List.append_assoc] at h2'
          simp [execInstr, Formula.eval, h2', h4]

theorem cinv_empty (A : Alg Y X) (x : ℕ → X) (G : Set (Formula Y)) : CInv A x G ⟨[], [], []⟩ [] :=
  ⟨⟨rfl, by simp⟩, by simp⟩

/-! ## Theorems -/

/-- **C32**: the procedure compiled from a formula computes the value of the formula, for every
argument and in every algebra, whichever way the compiler orders the evaluation of arguments. -/
theorem C32_compile_partial (A : Alg Y X) (rf : Bool) (f : Formula Y) (hc : Coherent f.nodes)
    (hn : f.NoScalar) (x : ℕ → X) : evaluate A (compile rf f) x = some (f.eval A x) := by
  have r := convert_spec (A := A) (x := x) hc rf f (fun _ h => h) hn ⟨[], [], []⟩ [] (cinv_empty A x _)
  obtain ⟨w, h1, h2⟩ := r.inv
  have he : exec A (compile rf f) x = some ([] ++ w) := exec_eq h1.comp
  have hl := r.fresh rfl
  rw [evaluate, he, Option.bind_some, List.getLast?_eq_getElem?, h1.comp.1, ← hl]
  simpa using h2

/-- **C32**: every instruction of a compiled procedure reads only earlier results and existing
constants. -/
theorem C32_valid (rf : Bool) (f : Formula Y) (hc : Coherent f.nodes) (hn : f.NoScalar) :
    (compile rf f).Valid ∧ 0 < (compile rf f).p.length := by
  let A : Alg Y Unit := ⟨fun _ => (), fun _ _ => (), fun _ _ _ => (), fun _ _ => (), fun _ _ _ => (), ()⟩
  have r := convert_spec (A := A) (x := fun _ => ()) hc rf f (fun _ h => h) hn ⟨[], [], []⟩ []
    (cinv_empty A _ _)
  obtain ⟨w, h1, -⟩ := r.inv
  refine ⟨fun k i hi => ?_, ?_⟩
  · obtain ⟨y, -, h3⟩ := h1.comp.2 k i hi
    exact take_reads h3
  · have := r.fresh rfl
    exact (by omega : 0 < (convert rf f ⟨[], [], []⟩).2.p.length)

theorem convertList_spec {A : Alg Y X} {x : ℕ → X} {G : Set (Formula Y)} (hG : Coherent G) (rf : Bool)
    (fs : List (Formula Y)) (hf : ∀ f ∈ fs, f.nodes ⊆ G) (hn : ∀ f ∈ fs, f.NoScalar) (s : Code Y)
    (w : List X) (h : CInv A x G s w) :
    (∃ w', CInv A x G (convertList rf fs s) (w ++ w')) ∧
      (∀ a k, s.cache.lookup a = some k → (convertList rf fs s).cache.lookup a = some k) ∧
      ∀ f ∈ fs, ∃ k, (convertList rf fs s).cache.lookup f.addr = some k := by
  induction fs generalizing s w with
  | nil => exact ⟨⟨[], by simpa [convertList] using h⟩, fun _ _ h => h, by simp⟩
  | cons f fs ih =>
    have r := convert_spec hG rf f (hf f (by simp)) (hn f (by simp)) s w h
    obtain ⟨w1, h1, -⟩ := r.inv
    obtain ⟨⟨w2, h2⟩, h3, h4⟩ := ih (fun g hg => hf g (by simp [hg])) (fun g hg => hn g (by simp [hg]))
      (convert rf f s).2 (w ++ w1) h1
    refine ⟨⟨w1 ++ w2, by rw [← List.append_assoc]; exact h2⟩, fun a k ha => h3 a k (r.mono a k ha), ?_⟩
    intro g hg
    rcases List.mem_cons.1 hg with rfl | hg
    · exact ⟨_, h3 _ _ r.cached⟩
    · exact h4 g hg

theorem moveResults_copy (moved : X → X → X) (init : X) (hm : ∀ y, moved y init = y) (t : List X)
    (ks : List ℕ) (ys : List X) (h : List.Forall₂ (fun k y => t[k]? = some y) ks ys) :
    moveResults moved init ks t = some ys := by
  induction h with
  | nil => rfl
  | @cons k y ks ys h1 h2 ih =>
    have : t.set k (moved y init) = t := by
      apply List.ext_getElem?
      intro j
      by_cases hj : k = j
      · subst hj
        rw [hm, h1]
        rw [List.getElem?_set_self]
        by_contra hk
        rw [List.getElem?_eq_none (by omega)] at h1
        simp at h1
      · rw [List.getElem?_set_ne hj]
    rw [moveResults, h1, Option.bind_some, this, ih]
    rfl

theorem moveResults_nodup (moved : X → X → X) (init : X) (ks : List ℕ) (hk : ks.Nodup)
    (ys : List X) (t : List X) (h : List.Forall₂ (fun (k : ℕ) y => t[k]? = some y) ks ys) :
    moveResults moved init ks t = some ys := by
  induction ks generalizing t ys with
  | nil => cases h; rfl
  | cons k ks ih =>
    rw [List.nodup_cons] at hk
    obtain ⟨y, zs, h1, h2, rfl⟩ := List.forall₂_cons_left_iff.1 h
    have h3 : List.Forall₂ (fun (j : ℕ) z => (t.set k (moved y init))[j]? = some z) ks zs := by
      rw [List.forall₂_iff_get] at h2 ⊢
      refine ⟨h2.1, fun i hi hj => ?_⟩
      rw [List.getElem?_set_ne]
      · exact h2.2 i hi hj
      · intro he
        exact hk.1 (he ▸ List.get_mem ks ⟨i, hi⟩)
    rw [moveResults, h1, Option.bind_some, ih hk.2 zs _ h3]
    rfl

/-- Values of a vector procedure before the results are moved. -/
theorem compileList_spec (A : Alg Y X) (rf : Bool) (fs : List (Formula Y))
    (hc : Coherent {g | ∃ f ∈ fs, g ∈ f.nodes}) (hn : ∀ f ∈ fs, f.NoScalar) (x : ℕ → X) :
    ∃ w, exec A (compileList rf fs).1 x = some w ∧
      List.Forall₂ (fun (k : ℕ) y => w[k]? = some y) (compileList rf fs).2 (fs.map (·.eval A x)) := by
  obtain ⟨⟨w, h1⟩, -, h2⟩ := convertList_spec (A := A) (x := x) hc rf fs
    (fun f hf g hg => ⟨f, hf, hg⟩) hn ⟨[], [], []⟩ [] (cinv_empty A x _)
  refine ⟨[] ++ w, exec_eq h1.comp, ?_⟩
  simp only [compileList]
  rw [List.forall₂_map_left_iff, List.forall₂_map_right_iff, List.forall₂_same]
  intro f hf
  obtain ⟨k, hk⟩ := h2 f hf
  obtain ⟨g, ⟨f', hf', hg⟩, h3, h4⟩ := h1.cache _ _ hk
  have := hc g ⟨f', hf', hg⟩ f ⟨f, hf, self_mem_nodes f⟩ h3
  subst this
  rw [hk]
  exact h4

/-- **C32**: a vector of formulae, provided moving a value leaves it unchanged (as for
double-precision numbers). -/
theorem C32_compile_vector_partial (A : Alg Y X) (rf : Bool) (moved : X → X → X) (init : X)
    (hm : ∀ y, moved y init = y) (fs : List (Formula Y))
    (hc : Coherent {g | ∃ f ∈ fs, g ∈ f.nodes}) (hn : ∀ f ∈ fs, f.NoScalar) (x : ℕ → X) :
    evaluateList A moved init (compileList rf fs).1 (compileList rf fs).2 x =
      some (fs.map (·.eval A x)) := by
  obtain ⟨w, h1, h2⟩ := compileList_spec A rf fs hc hn x
  rw [evaluateList, h1, Option.bind_some, moveResults_copy moved init hm w _ _ h2]

/-- The cache numbers the instructions from the last to the first. -/
def Code.Numbered (s : Code Y) : Prop := s.cache.map Prod.snd = (List.range s.p.length).reverse

theorem Code.Numbered.push {s : Code Y} (h : s.Numbered) (a : ℕ) (i : Instr) :
    (Code.push a i s).2.Numbered := by
  simp only [Code.Numbered, Code.push] at h ⊢
  simp [h, List.range_succ]

theorem convert_numbered (rf : Bool) (f : Formula Y) (s : Code Y) (h : s.Numbered) :
    (convert rf f s).2.Numbered := by
  induction f generalizing s with
  | const p c =>
    rw [convert]
    cases s.cache.lookup p with
    | some k => exact h
    | none => exact Code.Numbered.push (s := ⟨s.p, s.c ++ [c], s.cache⟩) h _ _
  | ind p i =>
    rw [convert]
    cases s.cache.lookup p with
    | some k => exact h
    | none => exact h.push _ _
  | un p op a ih =>
    rw [convert]
    cases s.cache.lookup p with
    | some k => exact h
    | none => exact (ih s h).push _ _
  | graded p a n ih =>
    rw [convert]
    cases s.cache.lookup p with
    | some k => exact h
    | none => exact (ih s h).push _ _
  | scalar p op c a ih =>
    rw [convert]
    cases s.cache.lookup p with
    | some k => exact h
    | none => exact (ih ⟨s.p, s.c ++ [c], s.cache⟩ h).push _ _
  | bin p op a b iha ihb =>
    rw [convert]
    cases s.cache.lookup p with
    | some k => exact h
    | none =>
      cases rf with
      | true => exact (iha _ (ihb s h)).push _ _
      | false => exact (ihb _ (iha s h)).push _ _

theorem convertList_numbered (rf : Bool) (fs : List (Formula Y)) (s : Code Y) (h : s.Numbered) :
    (convertList rf fs s).Numbered := by
  induction fs generalizing s with
  | nil => exact h
  | cons f fs ih => exact ih _ (convert_numbered rf f s h)

theorem mem_of_lookup {α β : Type*} [BEq α] [LawfulBEq α] {l : List (α × β)} {a : α} {b : β}
    (h : l.lookup a = some b) : (a, b) ∈ l := by
  induction l with
  | nil => simp at h
  | cons x l ih =>
    obtain ⟨c, d⟩ := x
    rw [List.lookup_cons] at h
    by_cases hc : a = c
    · subst hc
      simp only [beq_self_eq_true, Option.some.injEq] at h
      simp [h]
    · have : (a == c) = false := by simpa using hc
      rw [this] at h
      exact List.mem_cons_of_mem _ (ih h)

theorem Code.Numbered.inj {s : Code Y} (h : s.Numbered) {a b k : ℕ} (ha : s.cache.lookup a = some k)
    (hb : s.cache.lookup b = some k) : a = b := by
  have hd : (s.cache.map Prod.snd).Nodup := by
    rw [h, List.nodup_reverse]; exact List.nodup_range
  have := List.inj_on_of_nodup_map hd (mem_of_lookup ha) (mem_of_lookup hb) rfl
  exact congrArg Prod.fst this

theorem compileList_nodup (rf : Bool) (fs : List (Formula Y))
    (hc : Coherent {g | ∃ f ∈ fs, g ∈ f.nodes}) (hn : ∀ f ∈ fs, f.NoScalar) (hd : fs.Nodup) :
    (compileList rf fs).2.Nodup := by
  let A : Alg Y Unit := ⟨fun _ => (), fun _ _ => (), fun _ _ _ => (), fun _ _ => (), fun _ _ _ => (), ()⟩
  obtain ⟨-, -, h2⟩ := convertList_spec (A := A) (x := fun _ => ()) hc rf fs
    (fun f hf g hg => ⟨f, hf, hg⟩) hn ⟨[], [], []⟩ [] (cinv_empty A _ _)
  have hN := convertList_numbered rf fs ⟨[], [], []⟩ (by simp [Code.Numbered])
  simp only [compileList]
  refine List.Nodup.map_on ?_ hd
  intro f hf g hg h
  obtain ⟨k, hk⟩ := h2 f hf
  obtain ⟨j, hj⟩ := h2 g hg
  rw [hk, hj, Option.getD_some, Option.getD_some] at h
  subst h
  exact hc f ⟨f, hf, self_mem_nodes f⟩ g ⟨g, hg, self_mem_nodes g⟩ (hN.inj hk hj)

/-- **C32**: a vector of distinct formulae, whatever moving leaves in the source. -/
theorem C32_compile_vector_distinct_partial (A : Alg Y X) (rf : Bool) (moved : X → X → X) (init : X)
    (fs : List (Formula Y)) (hc : Coherent {g | ∃ f ∈ fs, g ∈ f.nodes}) (hn : ∀ f ∈ fs, f.NoScalar)
    (hd : fs.Nodup) (x : ℕ → X) :
    evaluateList A moved init (compileList rf fs).1 (compileList rf fs).2 x =
      some (fs.map (·.eval A x)) := by
  obtain ⟨w, h1, h2⟩ := compileList_spec A rf fs hc hn x
  rw [evaluateList, h1, Option.bind_some,
    moveResults_nodup moved init _ (compileList_nodup rf fs hc hn hd) _ _ h2]

/-- **C32**: evaluating a vector of formulae with a cache of results. -/
theorem C32_cached_evaluate (A : Alg Y X) (x : ℕ → X) (fs : List (Formula Y)) (hc : Coherent {f | f ∈ fs}) :
    Formula.cachedEvalList A x fs [] = fs.map (·.eval A x) := by
  suffices h : ∀ (gs : List (Formula Y)) (cache : List (ℕ × X)), (∀ g ∈ gs, g ∈ fs) →
      (∀ a y, cache.lookup a = some y → ∃ g ∈ fs, g.addr = a ∧ y = g.eval A x) →
      Formula.cachedEvalList A x gs cache = gs.map (·.eval A x) from
    h fs [] (fun _ h => h) (by simp)
  intro gs
  induction gs with
  | nil => intro _ _ _; rfl
  | cons g gs ih =>
    intro cache hg hcache
    rw [Formula.cachedEvalList, List.map_cons]
    cases hl : cache.lookup g.addr with
    | some y =>
      obtain ⟨g', h1, h2, rfl⟩ := hcache _ _ hl
      have := hc g' h1 g (hg g (by simp)) h2
      subst this
      rw [Formula.cachedEval, hl]
      rw [ih cache (fun h hh => hg h (by simp [hh])) hcache]
    | none =>
      rw [Formula.cachedEval, hl]
      simp only [Formula.evalNode]
      rw [ih _ (fun h hh => hg h (by simp [hh]))]
      intro a y ha
      rw [List.lookup_cons] at ha
      by_cases hag : a = g.addr
      · subst hag
        simp only [beq_self_eq_true, Option.some.injEq] at ha
        exact ⟨g, hg g (by simp), rfl, ha.symm⟩
      · have : (a == g.addr) = false := by simpa using hag
        rw [this] at ha
        exact hcache a y ha

/-- **C32**: the coordinates read by a compiled procedure are those of the formula. -/
theorem C32_indices (rf : Bool) (f : Formula Y) (i : ℕ) (h : Instr.ind i ∈ (compile rf f).p) :
    i ∈ f.indices := by
  suffices h : ∀ (f : Formula Y) (s : Code Y), Instr.ind i ∈ (convert rf f s).2.p →
      Instr.ind i ∈ s.p ∨ i ∈ f.indices by
    simpa using h f ⟨[], [], []⟩ ‹_›
  intro f
  induction f with
  | const p c =>
    intro s h
    rw [convert] at h
    cases hk : s.cache.lookup p <;> rw [hk] at h <;> simp [Code.push] at h <;> exact Or.inl h
  | ind p j =>
    intro s h
    rw [convert] at h
    cases hk : s.cache.lookup p <;> rw [hk] at h <;> simp [Code.push, Formula.indices] at h ⊢
    · exact h
    · exact Or.inl h
  | un p op a ih =>
    intro s h
    rw [convert] at h
    cases hk : s.cache.lookup p <;> rw [hk] at h <;> simp [Code.push, Formula.indices] at h ⊢
    · exact ih s h
    · exact Or.inl h
  | graded p a n ih =>
    intro s h
    rw [convert] at h
    cases hk : s.cache.lookup p <;> rw [hk] at h <;> simp [Code.push, Formula.indices] at h ⊢
    · exact ih s h
    · exact Or.inl h
  | scalar p op c a ih =>
    intro s h
    rw [convert] at h
    cases hk : s.cache.lookup p <;> rw [hk] at h <;> simp [Code.push, Formula.indices] at h ⊢
    · exact ih ⟨s.p, s.c ++ [c], s.cache⟩ h
    · exact Or.inl h
  | bin p op a b iha ihb =>
    intro s h
    rw [convert] at h
    cases hk : s.cache.lookup p <;> rw [hk] at h
    · cases rf <;> simp [Code.push, Formula.indices] at h ⊢
      · rcases ihb _ h with h | h
        · rcases iha _ h with h | h
          · exact Or.inl h
          · exact Or.inr (Or.inl h)
        · exact Or.inr (Or.inr h)
      · rcases iha _ h with h | h
        · rcases ihb _ h with h | h
          · exact Or.inl h
          · exact Or.inr (Or.inr h)
        · exact Or.inr (Or.inl h)
    · exact Or.inl h

/-- **C32**: a shared subformula is compiled once: the instructions correspond to distinct addresses
of nodes of the formula. -/
theorem C32_shared (rf : Bool) (f : Formula Y) (hc : Coherent f.nodes) (hn : f.NoScalar) :
    ∃ l : List ℕ, l.Nodup ∧ l.length = (compile rf f).p.length ∧ ∀ a ∈ l, ∃ g ∈ f.nodes, g.addr = a := by
  let A : Alg Y Unit := ⟨fun _ => (), fun _ _ => (), fun _ _ _ => (), fun _ _ => (), fun _ _ _ => (), ()⟩
  have r := convert_spec (A := A) (x := fun _ => ()) hc rf f (fun _ h => h) hn ⟨[], [], []⟩ []
    (cinv_empty A _ _)
  have hN := convert_numbered rf f ⟨[], [], []⟩ (by simp [Code.Numbered])
  refine ⟨(convert rf f ⟨[], [], []⟩).2.cache.map Prod.fst, r.nodup (by simp), ?_, ?_⟩
  · have := congrArg List.length hN
    simpa [compile] using this
  · intro a ha
    have h1 : ∃ k, (convert rf f ⟨[], [], []⟩).2.cache.lookup a = some k := by
      generalize (convert rf f ⟨[], [], []⟩).2.cache = l at ha
      induction l with
      | nil => simp at ha
      | cons b l ih =>
        obtain ⟨b, k⟩ := b
        by_cases hb : a = b
        · subst hb; exact ⟨k, by simp [List.lookup_cons]⟩
        · have : (a == b) = false := by simpa using hb
          simp only [List.lookup_cons, this]
          exact ih (by simpa [hb] using ha)
    obtain ⟨k, hk⟩ := h1
    rcases r.keys a k hk with h | h
    · simp at h
    · exact h

/-! ## Examples -/

/-- The algebra of integers, with `max`/`min` and no transcendental functions. -/
def intAlg : Alg ℤ ℤ where
  cst := id
  un := fun op a => match op with | .neg => -a | .sqr => a * a | _ => a
  bin := fun op a b => match op with | .add => a + b | .sub => a - b | .mul => a * b | .div => a / b
                                     | .max => max a b | .min => min a b
  pow := fun a n => a ^ n.toNat
  mix := fun op a b => match op with | .add => a + b | .sub => a - b | .mul => a * b | .div => a / b
                                     | .max => max a b | .min => min a b
  zero := 0

/-- `(x0+3)*(x0+3) - x1^2` with `x0+3` shared. -/
def exShared : Formula ℤ :=
  .bin 7 .sub (.bin 5 .mul (.bin 3 .add (.ind 1 0) (.const 2 3)) (.bin 3 .add (.ind 1 0) (.const 2 3)))
    (.graded 6 (.ind 4 1) 2)

theorem exShared_coherent : Coherent exShared.nodes := by
  intro a ha b hb h
  simp only [exShared, Formula.nodes, Set.mem_insert_iff, Set.mem_union, Set.mem_singleton_iff] at ha hb
  rcases ha with rfl | (rfl | (rfl | rfl | rfl) | (rfl | rfl | rfl)) | rfl | rfl <;>
  rcases hb with rfl | (rfl | (rfl | rfl | rfl) | (rfl | rfl | rfl)) | rfl | rfl <;>
  simp_all [Formula.addr]

example : evaluate intAlg (compile false exShared) (fun i => if i = 0 then 2 else 5) = some 0 := by
  rw [C32_compile_partial intAlg false exShared exShared_coherent (by simp [exShared, Formula.NoScalar])]
  decide

example : (compile false exShared).p.length = 7 := by decide

/-- **C32**: a formula holding a scalar node (constant operated with a formula) is compiled wrongly:
the instruction reads a temporary instead of the constant.  For `10 - x0` the result is `0`. -/
theorem C32_scalar_wrong : ∃ f : Formula ℤ, Coherent f.nodes ∧ ∀ rf, ∀ x : ℕ → ℤ,
    evaluate intAlg (compile rf f) x = some 0 ∧ f.eval intAlg x = 10 - x 0 := by
  refine ⟨.scalar 2 .sub 10 (.ind 1 0), ?_, fun rf x => ⟨?_, rfl⟩⟩
  · intro a ha b hb h
    simp only [Formula.nodes, Set.mem_insert_iff, Set.mem_singleton_iff] at ha hb
    rcases ha with rfl | rfl <;> rcases hb with rfl | rfl <;> simp_all [Formula.addr]
  · cases rf <;> simp [compile, convert, Code.push, evaluate, exec, execFrom, execInstr, intAlg]

/-- **C32**: when moving swaps, as for multiple-precision numbers, a formula occurring twice in a
vector has the initial value of the result as its second value. -/
theorem C32_shared_result_wrong : ∃ fs : List (Formula ℤ), Coherent {g | ∃ f ∈ fs, g ∈ f.nodes} ∧
    (∀ f ∈ fs, f.NoScalar) ∧ ∀ rf, ∀ x : ℕ → ℤ,
      evaluateList intAlg (fun _ d => d) 0 (compileList rf fs).1 (compileList rf fs).2 x = some [x 0, 0] ∧
      fs.map (·.eval intAlg x) = [x 0, x 0] := by
  refine ⟨[.ind 1 0, .ind 1 0], ?_, by simp [Formula.NoScalar], fun rf x => ⟨?_, rfl⟩⟩
  · rintro a ⟨f, hf, ha⟩ b ⟨g, hg, hb⟩ h
    simp only [List.mem_cons, List.not_mem_nil, or_false, or_self] at hf hg
    subst hf hg
    simp only [Formula.nodes, Set.mem_singleton_iff] at ha hb
    rw [ha, hb]
  · simp [compileList, convertList, convert, Code.push, evaluateList, exec, execFrom, execInstr, intAlg,
      moveResults, Formula.addr]

end Verif.Procedure
