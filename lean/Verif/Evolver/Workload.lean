import Mathlib.Logic.Relation
import Mathlib.Data.List.Basic
import Mathlib.Data.List.Perm.Basic
import Mathlib.Tactic.Tauto

/-!
# Work shared by several threads

The class `DynamicWorkload` used by source/dynamics/vector_field_evolver.cpp (lines 103-109) belongs to a library
which is not part of the repository.  The model keeps what the evolver relies on: the items may be taken in any
order, by any number of threads; processing an item adjoins sets to the orbit and appends new items, each of these
actions being atomic (vector_field_evolver.hpp lines 86-94), in the order of the program; the call returns when
there are no items left and no thread is working.

If processing an item raises an exception (`none`) the item is never removed, so that the call does not return.
-/

namespace Verif.Evolver

variable {S I : Type*}

/-- What processing an item does to the orbit and to the list of items. -/
inductive Action (S I : Type*)
  | reach (e : S)
  | inter (e : S)
  | final (e : S)
  | drop (i : I)
  | push (i : I)

/-- `Orbit<Enclosure>` (orbit.hpp 199-231), and the items which were given up. -/
structure Orbit (S I : Type*) where
  reach : List S
  inter : List S
  final : List S
  dropped : List I

/-- The empty orbit. -/
def Orbit.none : Orbit S I := ⟨[], [], [], []⟩

/-- The items, the actions which the threads have yet to carry out, and the orbit. -/
structure WState (S I : Type*) where
  work : List I
  busy : List (List (Action S I))
  orbit : Orbit S I

/-- One action. -/
def Action.run : Action S I → List I → Orbit S I → List I × Orbit S I
  | .reach e, w, o => (w, { o with reach := o.reach ++ [e] })
  | .inter e, w, o => (w, { o with inter := o.inter ++ [e] })
  | .final e, w, o => (w, { o with final := o.final ++ [e] })
  | .drop i, w, o => (w, { o with dropped := o.dropped ++ [i] })
  | .push i, w, o => (w ++ [i], o)

/-- A step of one of the threads. -/
inductive Step (proc : I → Option (List (Action S I))) : WState S I → WState S I → Prop
  | start (l₁ x l₂ b o as) (h : proc x = some as) : Step proc ⟨l₁ ++ x :: l₂, b, o⟩ ⟨l₁ ++ l₂, as :: b, o⟩
  | act (w b₁ a as b₂ o) : Step proc ⟨w, b₁ ++ (a :: as) :: b₂, o⟩
      ⟨(a.run w o).1, b₁ ++ as :: b₂, (a.run w o).2⟩
  | finish (w b₁ b₂ o) : Step proc ⟨w, b₁ ++ [] :: b₂, o⟩ ⟨w, b₁ ++ b₂, o⟩

/-- Nothing is left to do. -/
def WState.Done (s : WState S I) : Prop := s.work = [] ∧ s.busy = []

/-- Any number of steps. -/
abbrev Steps (proc : I → Option (List (Action S I))) : WState S I → WState S I → Prop :=
  Relation.ReflTransGen (Step proc)

/-! ## Coverage at every moment -/

/-- What an action establishes, given the sets reached so far: `Q i` for an item `i` which is appended, and so on. -/
structure Goal (S I : Type*) where
  push : I → (S → Prop) → Prop
  final : S → (S → Prop) → Prop
  drop : I → (S → Prop) → Prop

/-- More sets reached make it easier. -/
structure Goal.Mono (G : Goal S I) : Prop where
  push : ∀ {i P Q}, (∀ e, P e → Q e) → G.push i P → G.push i Q
  final : ∀ {i P Q}, (∀ e, P e → Q e) → G.final i P → G.final i Q
  drop : ∀ {i P Q}, (∀ e, P e → Q e) → G.drop i P → G.drop i Q

def Goal.action (G : Goal S I) (P : S → Prop) : Action S I → Prop
  | .push i => G.push i P
  | .final e => G.final e P
  | .drop i => G.drop i P
  | _ => False

/-- A list of actions which reaches the goal. -/
def Goal.actions (G : Goal S I) (P : S → Prop) (as : List (Action S I)) : Prop :=
  ∃ pre a post, as = pre ++ a :: post ∧ G.action (fun e => P e ∨ Action.reach e ∈ pre) a

/-- The goal is reached, or will be. -/
def Goal.Holds (G : Goal S I) (s : WState S I) : Prop :=
  (∃ i ∈ s.work, G.push i (· ∈ s.orbit.reach)) ∨ (∃ as ∈ s.busy, G.actions (· ∈ s.orbit.reach) as) ∨
  (∃ e ∈ s.orbit.final, G.final e (· ∈ s.orbit.reach)) ∨ ∃ i ∈ s.orbit.dropped, G.drop i (· ∈ s.orbit.reach)

theorem Goal.Mono.action {G : Goal S I} (h : G.Mono) {P Q : S → Prop} (hPQ : ∀ e, P e → Q e) {a : Action S I}
    (ha : G.action P a) : G.action Q a := by
  cases a with
  | push i => exact h.push hPQ ha
  | final i => exact h.final hPQ ha
  | drop i => exact h.drop hPQ ha
  | reach i => exact ha
  | inter i => exact ha

theorem Goal.Mono.actions {G : Goal S I} (h : G.Mono) {P Q : S → Prop} (hPQ : ∀ e, P e → Q e) {as : List (Action S I)}
    (ha : G.actions P as) : G.actions Q as := by
  obtain ⟨pre, a, post, e, ha⟩ := ha
  exact ⟨pre, a, post, e, h.action (fun e he => he.imp (hPQ e) id) ha⟩

theorem run_reach_mono (a : Action S I) (w : List I) (o : Orbit S I) (e : S) (h : e ∈ o.reach) :
    e ∈ (a.run w o).2.reach := by
  cases a <;> simp [Action.run, h]

theorem run_work_mono (a : Action S I) (w : List I) (o : Orbit S I) (e : I) (h : e ∈ w) : e ∈ (a.run w o).1 := by
  cases a <;> simp [Action.run, h]

theorem run_final_mono (a : Action S I) (w : List I) (o : Orbit S I) (e : S) (h : e ∈ o.final) :
    e ∈ (a.run w o).2.final := by
  cases a <;> simp [Action.run, h]

theorem run_dropped_mono (a : Action S I) (w : List I) (o : Orbit S I) (e : I) (h : e ∈ o.dropped) :
    e ∈ (a.run w o).2.dropped := by
  cases a <;> simp [Action.run, h]

/-- If processing an item keeps the goal in reach then so does every step of every thread. -/
theorem Goal.step {G : Goal S I} (hG : G.Mono) {proc : I → Option (List (Action S I))}
    (hp : ∀ i as P, proc i = some as → G.push i P → G.actions P as) {s s' : WState S I} (hs : G.Holds s)
    (h : Step proc s s') : G.Holds s' := by
  cases h with
  | start l₁ x l₂ b o as h =>
    rcases hs with ⟨i, hi, hg⟩ | ⟨bs, hb, hg⟩ | hs
    · simp only [List.mem_append, List.mem_cons] at hi
      rcases hi with hi | rfl | hi
      · exact Or.inl ⟨i, by simp [hi], hg⟩
      · exact Or.inr (Or.inl ⟨as, by simp, hp _ _ _ h hg⟩)
      · exact Or.inl ⟨i, by simp [hi], hg⟩
    · exact Or.inr (Or.inl ⟨bs, List.mem_cons_of_mem _ hb, hg⟩)
    · exact Or.inr (Or.inr hs)
  | act w b₁ a as b₂ o =>
    have hm : ∀ e, e ∈ o.reach → e ∈ (a.run w o).2.reach := fun e => run_reach_mono a w o e
    rcases hs with ⟨i, hi, hg⟩ | ⟨bs, hb, hg⟩ | ⟨e, he, hg⟩ | ⟨e, he, hg⟩
    · exact Or.inl ⟨i, run_work_mono a w o i hi, hG.push hm hg⟩
    · simp only [List.mem_append, List.mem_cons] at hb
      rcases hb with hb | rfl | hb
      · exact Or.inr (Or.inl ⟨bs, by simp [hb], hG.actions hm hg⟩)
      · obtain ⟨pre, c, post, e, hc⟩ := hg
        cases pre with
        | nil =>
          simp only [List.nil_append, List.cons.injEq] at e
          obtain ⟨rfl, rfl⟩ := e
          have hc' := hG.action (Q := fun e => e ∈ o.reach) (fun e he => he.elim id (by simp)) hc
          cases a with
          | push i => exact Or.inl ⟨i, by simp [Action.run], hc'⟩
          | final i => exact Or.inr (Or.inr (Or.inl ⟨i, by simp [Action.run], hc'⟩))
          | drop i => exact Or.inr (Or.inr (Or.inr ⟨i, by simp [Action.run], hc'⟩))
          | reach i => exact hc'.elim
          | inter i => exact hc'.elim
        | cons p pre =>
          simp only [List.cons_append, List.cons.injEq] at e
          obtain ⟨rfl, rfl⟩ := e
          refine Or.inr (Or.inl ⟨pre ++ c :: post, by simp, pre, c, post, rfl, hG.action (fun e he => ?_) hc⟩)
          rcases he with he | he
          · exact Or.inl (hm e he)
          · rcases List.mem_cons.1 he with he | he
            · subst he
              exact Or.inl (by simp [Action.run])
            · exact Or.inr he
      · exact Or.inr (Or.inl ⟨bs, by simp [hb], hG.actions hm hg⟩)
    · exact Or.inr (Or.inr (Or.inl ⟨e, run_final_mono a w o e he, hG.final hm hg⟩))
    · exact Or.inr (Or.inr (Or.inr ⟨e, run_dropped_mono a w o e he, hG.drop hm hg⟩))
  | finish w b₁ b₂ o =>
    rcases hs with hs | ⟨bs, hb, hg⟩ | hs
    · exact Or.inl hs
    · simp only [List.mem_append, List.mem_cons] at hb
      rcases hb with hb | rfl | hb
      · exact Or.inr (Or.inl ⟨bs, by simp [hb], hg⟩)
      · obtain ⟨pre, c, post, e, -⟩ := hg
        simp at e
      · exact Or.inr (Or.inl ⟨bs, by simp [hb], hg⟩)
    · exact Or.inr (Or.inr hs)

theorem Goal.steps {G : Goal S I} (hG : G.Mono) {proc : I → Option (List (Action S I))}
    (hp : ∀ i as P, proc i = some as → G.push i P → G.actions P as) {s s' : WState S I} (hs : G.Holds s)
    (h : Steps proc s s') : G.Holds s' := by
  induction h with
  | refl => exact hs
  | tail _ h ih => exact G.step hG hp ih h

/-! ## Everything which is produced -/

/-- A property of everything the threads handle. -/
structure Inv (S I : Type*) where
  item : I → Prop
  reach : S → Prop
  inter : S → Prop
  final : S → Prop
  drop : I → Prop

def Inv.action (V : Inv S I) : Action S I → Prop
  | .push i => V.item i
  | .final e => V.final e
  | .drop i => V.drop i
  | .reach e => V.reach e
  | .inter e => V.inter e

structure Inv.Holds (V : Inv S I) (s : WState S I) : Prop where
  work : ∀ i ∈ s.work, V.item i
  busy : ∀ as ∈ s.busy, ∀ a ∈ as, V.action a
  reach : ∀ e ∈ s.orbit.reach, V.reach e
  inter : ∀ e ∈ s.orbit.inter, V.inter e
  final : ∀ e ∈ s.orbit.final, V.final e
  drop : ∀ e ∈ s.orbit.dropped, V.drop e

theorem mem_snoc {α : Type*} {l : List α} {x : α} {P : α → Prop} (h1 : ∀ y ∈ l, P y) (h2 : P x) : ∀ y ∈ l ++ [x], P y := by
  intro y hy
  rcases List.mem_append.1 hy with hy | hy
  · exact h1 y hy
  · rw [List.mem_singleton.1 hy]; exact h2

theorem Inv.step {V : Inv S I} {proc : I → Option (List (Action S I))}
    (hp : ∀ i as, proc i = some as → V.item i → ∀ a ∈ as, V.action a) {s s' : WState S I} (hs : V.Holds s)
    (h : Step proc s s') : V.Holds s' := by
  cases h with
  | start l₁ x l₂ b o as h =>
    refine ⟨fun i hi => hs.work i ?_, fun bs hb => ?_, hs.reach, hs.inter, hs.final, hs.drop⟩
    · simp only [List.mem_append, List.mem_cons] at hi ⊢
      tauto
    · rcases List.mem_cons.1 hb with rfl | hb
      · exact hp x _ h (hs.work x (by simp))
      · exact hs.busy bs hb
  | act w b₁ a as b₂ o =>
    have ha : V.action a := hs.busy (a :: as) (by simp) a (by simp)
    have hb : ∀ bs ∈ b₁ ++ as :: b₂, ∀ a ∈ bs, V.action a := by
      intro bs hb
      simp only [List.mem_append, List.mem_cons] at hb
      rcases hb with hb | rfl | hb
      · exact hs.busy bs (by simp [hb])
      · exact fun c hc => hs.busy (a :: bs) (by simp) c (List.mem_cons_of_mem _ hc)
      · exact hs.busy bs (by simp [hb])
    cases a with
    | push i => exact ⟨mem_snoc hs.work ha, hb, hs.reach, hs.inter, hs.final, hs.drop⟩
    | final i => exact ⟨hs.work, hb, hs.reach, hs.inter, mem_snoc hs.final ha, hs.drop⟩
    | drop i => exact ⟨hs.work, hb, hs.reach, hs.inter, hs.final, mem_snoc hs.drop ha⟩
    | reach i => exact ⟨hs.work, hb, mem_snoc hs.reach ha, hs.inter, hs.final, hs.drop⟩
    | inter i => exact ⟨hs.work, hb, hs.reach, mem_snoc hs.inter ha, hs.final, hs.drop⟩
  | finish w b₁ b₂ o =>
    refine ⟨hs.work, fun bs hb => hs.busy bs ?_, hs.reach, hs.inter, hs.final, hs.drop⟩
    simp only [List.mem_append, List.mem_cons] at hb ⊢
    tauto

theorem Inv.steps {V : Inv S I} {proc : I → Option (List (Action S I))}
    (hp : ∀ i as, proc i = some as → V.item i → ∀ a ∈ as, V.action a) {s s' : WState S I} (hs : V.Holds s)
    (h : Steps proc s s') : V.Holds s' := by
  induction h with
  | refl => exact hs
  | tail _ h ih => exact V.step hp ih h

/-! ## Independence of the schedule -/

/-- Two orbits with the same sets, in any order. -/
structure Orbit.Same (o o' : Orbit S I) : Prop where
  reach : o.reach.Perm o'.reach
  inter : o.inter.Perm o'.inter
  final : o.final.Perm o'.final
  dropped : o.dropped.Perm o'.dropped

def Orbit.append (o o' : Orbit S I) : Orbit S I :=
  ⟨o.reach ++ o'.reach, o.inter ++ o'.inter, o.final ++ o'.final, o.dropped ++ o'.dropped⟩

theorem Orbit.Same.refl (o : Orbit S I) : o.Same o := ⟨.refl _, .refl _, .refl _, .refl _⟩

theorem Orbit.Same.symm {o o' : Orbit S I} (h : o.Same o') : o'.Same o :=
  ⟨h.1.symm, h.2.symm, h.3.symm, h.4.symm⟩

theorem Orbit.Same.trans {o o' o'' : Orbit S I} (h : o.Same o') (h' : o'.Same o'') : o.Same o'' :=
  ⟨h.1.trans h'.1, h.2.trans h'.2, h.3.trans h'.3, h.4.trans h'.4⟩

theorem Orbit.Same.append {a b c d : Orbit S I} (h : a.Same b) (h' : c.Same d) : (a.append c).Same (b.append d) :=
  ⟨h.1.append h'.1, h.2.append h'.2, h.3.append h'.3, h.4.append h'.4⟩

theorem Orbit.append_comm (a b : Orbit S I) : (a.append b).Same (b.append a) :=
  ⟨List.perm_append_comm, List.perm_append_comm, List.perm_append_comm, List.perm_append_comm⟩

theorem Orbit.append_assoc (a b c : Orbit S I) : (a.append b).append c = a.append (b.append c) := by
  simp [Orbit.append]

theorem Orbit.none_append (a : Orbit S I) : Orbit.none.append a = a := rfl

theorem Orbit.append_none (a : Orbit S I) : a.append Orbit.none = a := by
  simp [Orbit.append, Orbit.none]

/-- The orbit made by one action, apart from the item it appends. -/
def Action.orbit : Action S I → Orbit S I
  | .reach e => ⟨[e], [], [], []⟩
  | .inter e => ⟨[], [e], [], []⟩
  | .final e => ⟨[], [], [e], []⟩
  | .drop i => ⟨[], [], [], [i]⟩
  | .push _ => Orbit.none

/-- Things to do: an item, or the rest of the actions of a thread. -/
inductive Task (S I : Type*)
  | item (i : I)
  | acts (as : List (Action S I))

/-- `Eval proc t o n`: doing the task completely, one thing after the other, makes the orbit `o` in `n` steps. -/
inductive Eval (proc : I → Option (List (Action S I))) : Task S I → Orbit S I → ℕ → Prop
  | item {i as o n} (h : proc i = some as) (he : Eval proc (.acts as) o n) : Eval proc (.item i) o (n + 1)
  | nil : Eval proc (.acts []) Orbit.none 1
  | push {i as o o' n n'} (h : Eval proc (.item i) o n) (h' : Eval proc (.acts as) o' n') :
      Eval proc (.acts (.push i :: as)) (o.append o') (n + n' + 1)
  | act {a as o n} (ha : ∀ i, a ≠ .push i) (h : Eval proc (.acts as) o n) :
      Eval proc (.acts (a :: as)) (a.orbit.append o) (n + 1)

theorem Eval.unique {proc : I → Option (List (Action S I))} {t : Task S I} {o o' : Orbit S I} {n n' : ℕ}
    (h : Eval proc t o n) (h' : Eval proc t o' n') : o = o' ∧ n = n' := by
  induction h generalizing o' n' with
  | item hp _ ih =>
    cases h' with
    | item hp' he' =>
      obtain rfl := Option.some.inj (hp.symm.trans hp')
      obtain ⟨rfl, rfl⟩ := ih he'
      exact ⟨rfl, rfl⟩
  | nil => cases h'; exact ⟨rfl, rfl⟩
  | push _ _ ih ih' =>
    cases h' with
    | push g g' =>
      obtain ⟨rfl, rfl⟩ := ih g
      obtain ⟨rfl, rfl⟩ := ih' g'
      exact ⟨rfl, rfl⟩
    | act ha _ => exact (ha _ rfl).elim
  | act ha _ ih =>
    cases h' with
    | push g g' => exact (ha _ rfl).elim
    | act _ g =>
      obtain ⟨rfl, rfl⟩ := ih g
      exact ⟨rfl, rfl⟩

/-- Several tasks. -/
inductive Evals (proc : I → Option (List (Action S I))) : List (Task S I) → Orbit S I → ℕ → Prop
  | nil : Evals proc [] Orbit.none 0
  | cons {t ts o o' n n'} (h : Eval proc t o n) (h' : Evals proc ts o' n') :
      Evals proc (t :: ts) (o.append o') (n + n')

theorem Evals.unique {proc : I → Option (List (Action S I))} {ts : List (Task S I)} {o o' : Orbit S I} {n n' : ℕ}
    (h : Evals proc ts o n) (h' : Evals proc ts o' n') : o = o' ∧ n = n' := by
  induction h generalizing o' n' with
  | nil => cases h'; exact ⟨rfl, rfl⟩
  | cons h _ ih =>
    cases h' with
    | cons g g' =>
      obtain ⟨rfl, rfl⟩ := h.unique g
      obtain ⟨rfl, rfl⟩ := ih g'
      exact ⟨rfl, rfl⟩

theorem Evals.perm {proc : I → Option (List (Action S I))} {ts ts' : List (Task S I)} (hp : ts.Perm ts') :
    ∀ {o : Orbit S I} {n : ℕ}, Evals proc ts o n → ∃ o', Evals proc ts' o' n ∧ o.Same o' := by
  induction hp with
  | nil => exact fun h => ⟨_, h, .refl _⟩
  | cons t _ ih =>
    intro o n h
    cases h with
    | cons h h' =>
      obtain ⟨o', g, s⟩ := ih h'
      exact ⟨_, .cons h g, (Orbit.Same.refl _).append s⟩
  | swap t u l =>
    intro o n h
    cases h with
    | cons h1 h' =>
      cases h' with
      | cons h2 h3 =>
        rename_i o1 n1 o2 o3 n2 n3
        refine ⟨_, by rw [show n1 + (n2 + n3) = n2 + (n1 + n3) by omega]; exact .cons h2 (.cons h1 h3), ?_⟩
        rw [← Orbit.append_assoc, ← Orbit.append_assoc]
        exact (Orbit.append_comm _ _).append (.refl _)
  | trans _ _ ih ih' =>
    intro o n h
    obtain ⟨o1, h1, s1⟩ := ih h
    obtain ⟨o2, h2, s2⟩ := ih' h1
    exact ⟨o2, h2, s1.trans s2⟩

/-- The tasks of a state. -/
def WState.tasks (s : WState S I) : List (Task S I) := s.work.map .item ++ s.busy.map .acts

theorem run_orbit (a : Action S I) (w : List I) (o : Orbit S I) : (a.run w o).2 = o.append a.orbit := by
  cases a <;> simp [Action.run, Action.orbit, Orbit.append, Orbit.none]

/-- Steps forwards: the number of steps left decreases, and the orbit which will be made does not change. -/
theorem step_evals {proc : I → Option (List (Action S I))} {s s' : WState S I} (h : Step proc s s') {o : Orbit S I} {n : ℕ}
    (he : Evals proc s.tasks o n) :
    ∃ o' n', n = n' + 1 ∧ Evals proc s'.tasks o' n' ∧ (s.orbit.append o).Same (s'.orbit.append o') := by
  cases h with
  | start l₁ x l₂ b q as h =>
    have hp : (WState.tasks ⟨l₁ ++ x :: l₂, b, q⟩ : List (Task S I)).Perm
        (.item x :: (l₁.map .item ++ l₂.map .item ++ b.map .acts)) := by
      simp only [WState.tasks, List.map_append, List.map_cons, List.append_assoc, List.cons_append]
      exact List.perm_middle
    obtain ⟨o1, h1, s1⟩ := he.perm hp
    cases h1 with
    | cons h2 h3 =>
      cases h2 with
      | item hp' h4 =>
        obtain rfl := Option.some.inj (h.symm.trans hp')
        rename_i o3 n3 o4 n4
        have hq : (.acts as :: (l₁.map .item ++ l₂.map .item ++ b.map .acts) : List (Task S I)).Perm
            (WState.tasks ⟨l₁ ++ l₂, as :: b, q⟩) := by
          simp only [WState.tasks, List.map_append, List.map_cons]
          exact List.perm_middle.symm
        obtain ⟨o2, h5, s2⟩ := (Evals.cons h4 h3).perm hq
        exact ⟨o2, _, by omega, h5, (Orbit.Same.refl _).append (s1.trans s2)⟩
  | act w b₁ a as b₂ q =>
    have hp : (WState.tasks ⟨w, b₁ ++ (a :: as) :: b₂, q⟩ : List (Task S I)).Perm
        (.acts (a :: as) :: (w.map .item ++ (b₁.map .acts ++ b₂.map .acts))) := by
      simp only [WState.tasks, List.map_append, List.map_cons, ← List.append_assoc]
      exact List.perm_middle
    obtain ⟨o1, h1, s1⟩ := he.perm hp
    cases h1 with
    | cons h2 h3 =>
      cases h2 with
      | push h4 h5 =>
        rename_i o3 n3 i o4 o5 n4 n5
        have hq : (.item i :: .acts as :: (w.map .item ++ (b₁.map .acts ++ b₂.map .acts)) : List (Task S I)).Perm
            (WState.tasks ⟨w ++ [i], b₁ ++ as :: b₂, q⟩) := by
          simp only [WState.tasks, List.map_append, List.map_cons, List.map_nil, List.append_assoc, List.cons_append,
            List.nil_append]
          refine (List.Perm.cons _ ?_).trans List.perm_middle.symm
          rw [← List.append_assoc, ← List.append_assoc]
          exact List.perm_middle.symm
        obtain ⟨o2, h6, s2⟩ := (Evals.cons h4 (.cons h5 h3)).perm hq
        refine ⟨o2, _, by omega, h6, (Orbit.Same.refl _).append (s1.trans ?_)⟩
        rw [Orbit.append_assoc]
        exact s2
      | act ha h4 =>
        rename_i o3 n3 o4 n4
        have hw : (a.run w q).1 = w := by
          cases a with
          | push i => exact (ha i rfl).elim
          | _ => rfl
        have hq : (.acts as :: (w.map .item ++ (b₁.map .acts ++ b₂.map .acts)) : List (Task S I)).Perm
            (WState.tasks ⟨w, b₁ ++ as :: b₂, (a.run w q).2⟩) := by
          simp only [WState.tasks, List.map_append, List.map_cons, ← List.append_assoc]
          exact List.perm_middle.symm
        obtain ⟨o2, h6, s2⟩ := (Evals.cons h4 h3).perm hq
        refine ⟨o2, n4 + n3, by omega, by rw [hw]; exact h6, ?_⟩
        rw [run_orbit]
        show (q.append o).Same ((q.append a.orbit).append o2)
        rw [Orbit.append_assoc]
        refine (Orbit.Same.refl _).append (s1.trans ?_)
        rw [Orbit.append_assoc]
        exact (Orbit.Same.refl _).append s2
  | finish w b₁ b₂ q =>
    have hp : (WState.tasks ⟨w, b₁ ++ [] :: b₂, q⟩ : List (Task S I)).Perm
        (.acts [] :: (w.map .item ++ (b₁.map .acts ++ b₂.map .acts))) := by
      simp only [WState.tasks, List.map_append, List.map_cons, ← List.append_assoc]
      exact List.perm_middle
    obtain ⟨o1, h1, s1⟩ := he.perm hp
    cases h1 with
    | cons h2 h3 =>
      cases h2 with
      | nil =>
        rename_i o3 n3
        refine ⟨o3, n3, by omega, ?_, (Orbit.Same.refl _).append s1⟩
        simp only [WState.tasks, List.map_append]
        exact h3

/-- Steps backwards: a state from which a state that can be completed is reached can be completed. -/
theorem step_evals_back {proc : I → Option (List (Action S I))} {s s' : WState S I} (h : Step proc s s') {o : Orbit S I}
    {n : ℕ} (he : Evals proc s'.tasks o n) : ∃ o' n', Evals proc s.tasks o' n' := by
  cases h with
  | start l₁ x l₂ b q as h =>
    have hq : (WState.tasks ⟨l₁ ++ l₂, as :: b, q⟩).Perm
        (.acts as :: (l₁.map .item ++ l₂.map .item ++ b.map .acts) : List (Task S I)) := by
      simp only [WState.tasks, List.map_append, List.map_cons]
      exact List.perm_middle
    have hp : (.item x :: (l₁.map .item ++ l₂.map .item ++ b.map .acts)).Perm
        (WState.tasks ⟨l₁ ++ x :: l₂, b, q⟩ : List (Task S I)) := by
      simp only [WState.tasks, List.map_append, List.map_cons, List.append_assoc, List.cons_append]
      exact List.perm_middle.symm
    obtain ⟨o1, h1, -⟩ := he.perm hq
    cases h1 with
    | cons h2 h3 =>
      obtain ⟨o2, h4, -⟩ := (Evals.cons (.item h h2) h3).perm hp
      exact ⟨_, _, h4⟩
  | act w b₁ a as b₂ q =>
    have hp : (.acts (a :: as) :: (w.map .item ++ (b₁.map .acts ++ b₂.map .acts))).Perm
        (WState.tasks ⟨w, b₁ ++ (a :: as) :: b₂, q⟩ : List (Task S I)) := by
      simp only [WState.tasks, List.map_append, List.map_cons, ← List.append_assoc]
      exact List.perm_middle.symm
    by_cases ha : ∃ i, a = .push i
    · obtain ⟨i, rfl⟩ := ha
      have hq : (WState.tasks ⟨w ++ [i], b₁ ++ as :: b₂, q⟩).Perm
          (.item i :: .acts as :: (w.map .item ++ (b₁.map .acts ++ b₂.map .acts)) : List (Task S I)) := by
        simp only [WState.tasks, List.map_append, List.map_cons, List.map_nil, List.append_assoc, List.cons_append,
          List.nil_append]
        refine List.perm_middle.trans (List.Perm.cons _ ?_)
        rw [← List.append_assoc, ← List.append_assoc]
        exact List.perm_middle
      obtain ⟨o1, h1, -⟩ := he.perm hq
      cases h1 with
      | cons h2 h3 =>
        cases h3 with
        | cons h4 h5 =>
          obtain ⟨o2, h6, -⟩ := (Evals.cons (.push h2 h4) h5).perm hp
          exact ⟨_, _, h6⟩
    · have ha : ∀ i, a ≠ .push i := fun i e => ha ⟨i, e⟩
      have hw : (a.run w q).1 = w := by
        cases a with
        | push i => exact (ha i rfl).elim
        | _ => rfl
      rw [hw] at he
      have hq : (WState.tasks ⟨w, b₁ ++ as :: b₂, (a.run w q).2⟩).Perm
          (.acts as :: (w.map .item ++ (b₁.map .acts ++ b₂.map .acts)) : List (Task S I)) := by
        simp only [WState.tasks, List.map_append, List.map_cons, ← List.append_assoc]
        exact List.perm_middle
      obtain ⟨o1, h1, -⟩ := he.perm hq
      cases h1 with
      | cons h2 h3 =>
        obtain ⟨o2, h4, -⟩ := (Evals.cons (.act ha h2) h3).perm hp
        exact ⟨_, _, h4⟩
  | finish w b₁ b₂ q =>
    have hp : (.acts [] :: (w.map .item ++ (b₁.map .acts ++ b₂.map .acts))).Perm
        (WState.tasks ⟨w, b₁ ++ [] :: b₂, q⟩ : List (Task S I)) := by
      simp only [WState.tasks, List.map_append, List.map_cons, ← List.append_assoc]
      exact List.perm_middle.symm
    have he' : Evals proc (w.map .item ++ (b₁.map .acts ++ b₂.map .acts)) o n := by
      simpa [WState.tasks] using he
    obtain ⟨o2, h4, -⟩ := (Evals.cons .nil he').perm hp
    exact ⟨_, _, h4⟩

theorem steps_evals {proc : I → Option (List (Action S I))} {s s' : WState S I} (h : Steps proc s s') {o : Orbit S I}
    {n : ℕ} (he : Evals proc s.tasks o n) :
    ∃ o' n', Evals proc s'.tasks o' n' ∧ (s.orbit.append o).Same (s'.orbit.append o') := by
  induction h with
  | refl => exact ⟨o, n, he, .refl _⟩
  | tail _ h ih =>
    obtain ⟨o1, n1, h1, s1⟩ := ih
    obtain ⟨o2, n2, -, h2, s2⟩ := step_evals h h1
    exact ⟨o2, n2, h2, s1.trans s2⟩

theorem steps_evals_back {proc : I → Option (List (Action S I))} {s s' : WState S I} (h : Steps proc s s') {o : Orbit S I}
    {n : ℕ} (he : Evals proc s'.tasks o n) : ∃ o' n', Evals proc s.tasks o' n' := by
  induction h generalizing o n with
  | refl => exact ⟨o, n, he⟩
  | tail _ h ih =>
    obtain ⟨o1, n1, h1⟩ := step_evals_back h he
    exact ih h1

theorem done_evals {proc : I → Option (List (Action S I))} {s : WState S I} (h : s.Done) :
    Evals proc s.tasks Orbit.none 0 := by
  rw [WState.tasks, h.1, h.2]
  exact .nil

/-- The orbit of a completed computation is the one made by doing one thing after the other. -/
theorem done_orbit {proc : I → Option (List (Action S I))} {s s' : WState S I} (h : Steps proc s s') (hd : s'.Done) :
    ∃ o n, Evals proc s.tasks o n ∧ s'.orbit.Same (s.orbit.append o) := by
  obtain ⟨o, n, he⟩ := steps_evals_back h (done_evals hd)
  obtain ⟨o', n', h1, h2⟩ := steps_evals h he
  obtain ⟨rfl, -⟩ := h1.unique (done_evals hd)
  rw [Orbit.append_none] at h2
  exact ⟨o, n, he, h2.symm⟩

/-- A step is always possible while something is left, if the tasks can be completed. -/
theorem step_exists {proc : I → Option (List (Action S I))} {s : WState S I} {o : Orbit S I} {n : ℕ}
    (he : Evals proc s.tasks o n) (hd : ¬s.Done) : ∃ s', Step proc s s' := by
  obtain ⟨w, b, q⟩ := s
  cases b with
  | cons as b =>
    cases as with
    | nil => exact ⟨_, .finish w [] b q⟩
    | cons a as => exact ⟨_, .act w [] a as b q⟩
  | nil =>
    cases w with
    | nil => exact (hd ⟨rfl, rfl⟩).elim
    | cons i w =>
      cases he with
      | cons h _ =>
        cases h with
        | item h _ => exact ⟨_, .start [] i w [] q _ h⟩

/-- `n` steps. -/
inductive StepsN (proc : I → Option (List (Action S I))) : ℕ → WState S I → WState S I → Prop
  | zero (s) : StepsN proc 0 s s
  | succ {n s s' s''} (h : Step proc s s') (h' : StepsN proc n s' s'') : StepsN proc (n + 1) s s''

theorem StepsN.steps {proc : I → Option (List (Action S I))} {n : ℕ} {s s' : WState S I} (h : StepsN proc n s s') :
    Steps proc s s' := by
  induction h with
  | zero s => exact .refl
  | succ h _ ih => exact .head h ih

/-- Every schedule takes the same number of steps. -/
theorem stepsN_evals {proc : I → Option (List (Action S I))} {k : ℕ} {s s' : WState S I} (h : StepsN proc k s s') :
    ∀ {o : Orbit S I} {n : ℕ}, Evals proc s.tasks o n → ∃ o' n', n = n' + k ∧ Evals proc s'.tasks o' n' := by
  induction h with
  | zero s => exact fun he => ⟨_, _, rfl, he⟩
  | succ h _ ih =>
    intro o n he
    obtain ⟨o1, n1, e1, h1, -⟩ := step_evals h he
    obtain ⟨o2, n2, e2, h2⟩ := ih h1
    exact ⟨o2, n2, by omega, h2⟩

/-- If the tasks can be completed then every schedule completes them. -/
theorem evals_completes {proc : I → Option (List (Action S I))} (n : ℕ) : ∀ {s : WState S I} {o : Orbit S I},
    Evals proc s.tasks o n → ∃ s', StepsN proc n s s' ∧ s'.Done := by
  induction n with
  | zero =>
    intro s o he
    by_cases hd : s.Done
    · exact ⟨s, .zero s, hd⟩
    · obtain ⟨s', h⟩ := step_exists he hd
      obtain ⟨o', n', e, -, -⟩ := step_evals h he
      omega
  | succ n ih =>
    intro s o he
    by_cases hd : s.Done
    · have := (he.unique (done_evals hd)).2
      omega
    · obtain ⟨s', h⟩ := step_exists he hd
      obtain ⟨o', n', e, he', -⟩ := step_evals h he
      obtain rfl : n = n' := by omega
      obtain ⟨s'', h1, h2⟩ := ih he'
      exact ⟨s'', .succ h h1, h2⟩

end Verif.Evolver
