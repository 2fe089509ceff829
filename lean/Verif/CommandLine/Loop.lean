import Verif.CommandLine.Props

/-!
# C106: accepted and rejected command lines
-/

namespace Verif.CommandLine

theorem read_process (a : Act) (s : Settings) (q : Parser) :
    (a.process s).read q = if a.kind = q then some a else s.read q := by
  cases a <;> cases q <;> rfl

theorem process_comm (a b : Act) (s : Settings) (h : a.kind ≠ b.kind) :
    b.process (a.process s) = a.process (b.process s) := by
  cases a <;> cases b <;> first | rfl | exact absurd rfl h

/-- Processing of packs (command_line_interface.cpp 336). -/
def run (packs : List (Parser × Act)) (s : Settings) : Settings := packs.foldl (fun s pa => pa.2.process s) s

theorem run_comm (a : Act) : ∀ (l : List (Parser × Act)) (s : Settings), (∀ qb ∈ l, qb.2.kind ≠ a.kind) →
    run l (a.process s) = a.process (run l s) := by
  intro l
  induction l with
  | nil => intro s _; rfl
  | cons qb l ih =>
    intro s h
    show run l (qb.2.process (a.process s)) = a.process (run l (qb.2.process s))
    rw [process_comm a qb.2 s (h qb List.mem_cons_self).symm]
    exact ih _ fun r hr => h r (List.mem_cons_of_mem _ hr)

theorem rank_inj {p q : Parser} (h : p.rank = q.rank) : p = q := by
  cases p <;> cases q <;> first | rfl | exact absurd h (by decide)

theorem run_insert (p : Parser) (a : Act) : ∀ (l : List (Parser × Act)) (s : Settings),
    (∀ qb ∈ l, qb.2.kind ≠ a.kind ∧ qb.1 ≠ p) → run (insert p a l) s = a.process (run l s) := by
  intro l
  induction l with
  | nil => intro s _; rfl
  | cons qb l ih =>
    intro s h
    obtain ⟨q, b⟩ := qb
    show run (if p.rank < q.rank then (p, a) :: (q, b) :: l else if p.rank = q.rank then (q, b) :: l
      else (q, b) :: insert p a l) s = _
    by_cases h1 : p.rank < q.rank
    · rw [if_pos h1]
      exact run_comm a ((q, b) :: l) s fun r hr => (h r hr).1
    · have h2 : p.rank ≠ q.rank := fun e => (h (q, b) List.mem_cons_self).2 (rank_inj e).symm
      rw [if_neg h1, if_neg h2]
      exact ih _ fun r hr => h r (List.mem_cons_of_mem _ hr)

theorem mem_insert {p : Parser} {a : Act} : ∀ (l : List (Parser × Act)) (r : Parser × Act), (∀ qb ∈ l, qb.1 ≠ p) →
    (r ∈ insert p a l ↔ r = (p, a) ∨ r ∈ l) := by
  intro l
  induction l with
  | nil => intro r _; simp [insert]
  | cons qb l ih =>
    intro r h
    obtain ⟨q, b⟩ := qb
    show r ∈ (if p.rank < q.rank then (p, a) :: (q, b) :: l else if p.rank = q.rank then (q, b) :: l
      else (q, b) :: insert p a l) ↔ _
    by_cases h1 : p.rank < q.rank
    · rw [if_pos h1]; simp
    · have h2 : p.rank ≠ q.rank := fun e => h (q, b) List.mem_cons_self (rank_inj e).symm
      rw [if_neg h1, if_neg h2, List.mem_cons, ih r fun x hx => h x (List.mem_cons_of_mem _ hx), List.mem_cons]
      tauto

/-- Packs made by the loop: they belong to the arguments under which they are kept, which are neither `help` nor
`scheduler`. -/
def Packs (packs : List (Parser × Act)) : Prop := ∀ qb ∈ packs, qb.2.kind = qb.1 ∧ qb.1 ≠ .scheduler ∧ qb.1 ≠ .help

/-- No argument other than the scheduler is given twice. -/
def NoRepeats (items : List (Parser × Str)) : Prop := ((items.map (·.1)).filter (· ≠ .scheduler)).Nodup

theorem any_iff (packs : List (Parser × Act)) (p : Parser) :
    packs.any (·.1 == p) = true ↔ ∃ qb ∈ packs, qb.1 = p := by
  simp [List.any_eq_true]

/-- One round of the loop. -/
theorem loop_item (cfg : Config) {p : Parser} {tok v : Str} (rest : List Str) (packs : List (Parser × Act)) (s : Settings)
    (hp : Spelled p tok) (hh : p ≠ .help) : loop cfg (tok :: v :: rest) packs s =
      match value cfg p v with
      | none => (.invalid p, s)
      | some a => if packs.any (·.1 == p) then (.repeated p, s)
        else if p = .scheduler then loop cfg rest packs (a.process s) else loop cfg rest (insert p a packs) s := by
  rw [loop, (parserOf_iff tok p).2 hp]
  cases p <;> first | exact absurd rfl hh | rfl

/-- The lines which the loop goes through from given packs. -/
def Fine (cfg : Config) (items : List (Parser × Str)) (packs : List (Parser × Act)) : Prop :=
  (∀ pv ∈ items, (value cfg pv.1 pv.2).isSome = true) ∧ NoRepeats items ∧ ∀ qb ∈ packs, ∀ pv ∈ items, pv.1 ≠ qb.1

theorem run_read_insert {packs : List (Parser × Act)} (hP : Packs packs) {p : Parser} {a : Act} (hk : a.kind = p)
    (hn : ∀ qb ∈ packs, qb.1 ≠ p) (s : Settings) (q : Parser) :
    (run (insert p a packs) s).read q = if p = q then some a else (run packs s).read q := by
  rw [run_insert p a packs s fun qb hqb => ⟨by rw [(hP qb hqb).1, hk]; exact hn qb hqb, hn qb hqb⟩, read_process, hk]

theorem run_read_process {packs : List (Parser × Act)} (hP : Packs packs) {a : Act} (hk : a.kind = .scheduler)
    (s : Settings) (q : Parser) :
    (run packs (a.process s)).read q = if Parser.scheduler = q then some a else (run packs s).read q := by
  rw [run_comm a packs s fun qb hqb => by rw [(hP qb hqb).1, hk]; exact (hP qb hqb).2.1, read_process, hk]

theorem Packs.insert {packs : List (Parser × Act)} (hP : Packs packs) {p : Parser} {a : Act} (hk : a.kind = p)
    (hs : p ≠ .scheduler) (hh : p ≠ .help) (hn : ∀ qb ∈ packs, qb.1 ≠ p) :
    Packs (CommandLine.insert p a packs) := by
  intro r hr
  rcases (mem_insert packs r hn).1 hr with rfl | hr
  · exact ⟨hk, hs, hh⟩
  · exact hP r hr

/-- What the settings are after a line. -/
def After (cfg : Config) (items : List (Parser × Str)) (before after : Settings) : Prop :=
  ∀ p, after.read p = match lastOf items p with
    | some v => value cfg p v
    | none => before.read p

theorem After.step {cfg : Config} {p : Parser} {v : Str} {a : Act} {items : List (Parser × Str)} {s s1 s' : Settings}
    (hv : value cfg p v = some a) (h1 : ∀ q, s1.read q = if p = q then some a else s.read q) :
    After cfg items s1 s' ↔ After cfg ((p, v) :: items) s s' := by
  refine forall_congr' fun q => ?_
  simp only [lastOf]
  cases lastOf items q with
  | some w => rfl
  | none =>
    simp only
    rw [h1 q]
    by_cases e : p = q
    · subst e; rw [if_pos rfl, if_pos rfl]; simp only [hv]
    · rw [if_neg e, if_neg e]

theorem noRepeats_cons (p : Parser) (v : Str) (items : List (Parser × Str)) :
    NoRepeats ((p, v) :: items) ↔ (p ≠ .scheduler → ∀ pv ∈ items, pv.1 ≠ p) ∧ NoRepeats items := by
  unfold NoRepeats
  by_cases hp : p = .scheduler
  · subst hp; simp
  · rw [List.map_cons, List.filter_cons, if_pos (by simpa using hp), List.nodup_cons]
    refine and_congr_left fun _ => ?_
    constructor
    · intro h _ pv hpv e
      exact h (List.mem_filter.2 ⟨List.mem_map.2 ⟨pv, hpv, e⟩, by simpa using hp⟩)
    · intro h hm
      obtain ⟨pv, hpv, e⟩ := List.mem_map.1 (List.mem_filter.1 hm).1
      exact h hp pv hpv e

/-- The loop accepts exactly the lines with accepted values and without repetitions. -/
theorem loop_accepted (cfg : Config) : ∀ (args : List Str) (packs : List (Parser × Act)) (s s' : Settings), Packs packs →
    (loop cfg args packs s = (.accepted, s') ↔
      ∃ items, Line args items ∧ Fine cfg items packs ∧ After cfg items (run packs s) s')
  | [], packs, s, s', hP => by
    constructor
    · intro h
      obtain rfl : run packs s = s' := (Prod.mk.inj h).2
      exact ⟨[], .nil, ⟨by simp, by simp [NoRepeats], by simp⟩, fun p => rfl⟩
    · rintro ⟨items, hl, -, ha⟩
      cases hl
      show (Outcome.accepted, run packs s) = _
      congr 1
      have key : ∀ p, s'.read p = (run packs s).read p := ha
      have h1 := key .concurrency
      have h2 := key .drawer
      have h3 := key .graphics
      have h4 := key .scheduler
      have h5 := key .theme
      have h6 := key .verbosity
      generalize run packs s = r at *
      cases r; cases s'
      simp only [Settings.read, Option.some.injEq, Act.concurrency.injEq, Act.drawer.injEq, Act.graphics.injEq,
        Act.scheduler.injEq, Act.theme.injEq, Act.verbosity.injEq] at h1 h2 h3 h4 h5 h6
      simp [h1, h2, h3, h4, h5, h6]
  | [tok], packs, s, s', hP => by
    constructor
    · intro h
      rw [loop] at h
      cases hq : parserOf tok with
      | none => rw [hq] at h; exact absurd (Prod.mk.inj h).1 (by simp)
      | some p =>
        rw [hq] at h
        cases p <;> first
          | exact absurd (Prod.mk.inj h).1 (by simp)
          | (exfalso; have := (Prod.mk.inj h).1; split_ifs at this)
    · rintro ⟨items, hl, -⟩
      cases hl
  | tok :: v :: rest, packs, s, s', hP => by
    cases hq : parserOf tok with
    | none =>
      constructor
      · intro h; rw [loop, hq] at h; exact absurd (Prod.mk.inj h).1 (by simp)
      · rintro ⟨items, hl, -⟩
        cases hl with
        | cons hsp _ _ => rw [(parserOf_iff _ _).2 hsp] at hq; exact absurd hq (by simp)
    | some p =>
      have hsp := (parserOf_iff _ _).1 hq
      by_cases hh : p = .help
      · subst hh
        constructor
        · intro h
          rw [loop, hq] at h
          exfalso; have := (Prod.mk.inj h).1; split_ifs at this
        · rintro ⟨items, hl, -⟩
          cases hl with
          | cons hsp' hne _ =>
            rw [(parserOf_iff _ _).2 hsp'] at hq
            exact absurd (Option.some.inj hq) hne
      · rw [loop_item cfg rest packs s hsp hh]
        have shape : (∃ items, Line (tok :: v :: rest) items ∧ Fine cfg items packs ∧ After cfg items (run packs s) s') ↔
            ∃ items, Line rest items ∧ Fine cfg ((p, v) :: items) packs ∧ After cfg ((p, v) :: items) (run packs s) s' := by
          constructor
          · rintro ⟨items, hl, h1, h2⟩
            cases hl with
            | cons hsp' hne hl' =>
              rw [(parserOf_iff _ _).2 hsp'] at hq
              obtain rfl := Option.some.inj hq
              exact ⟨_, hl', h1, h2⟩
          · rintro ⟨items, hl, h1, h2⟩
            exact ⟨_, .cons hsp hh hl, h1, h2⟩
        rw [shape]
        cases hv : value cfg p v with
        | none =>
          simp only
          constructor
          · intro h; exact absurd (Prod.mk.inj h).1 (by simp)
          · rintro ⟨items, -, ⟨h1, -⟩, -⟩
            have := h1 (p, v) List.mem_cons_self
            simp only [hv] at this; exact absurd this (by simp)
        | some a =>
          simp only
          by_cases hr : packs.any (·.1 == p) = true
          · rw [if_pos hr]
            constructor
            · intro h; exact absurd (Prod.mk.inj h).1 (by simp)
            · rintro ⟨items, -, ⟨-, -, h3⟩, -⟩
              obtain ⟨qb, hqb, e⟩ := (any_iff packs p).1 hr
              exact absurd e.symm (h3 qb hqb (p, v) List.mem_cons_self)
          · rw [if_neg hr]
            have hn : ∀ qb ∈ packs, qb.1 ≠ p := fun qb hqb e => hr ((any_iff packs p).2 ⟨qb, hqb, e⟩)
            by_cases hs : p = .scheduler
            · subst hs
              rw [if_pos rfl, loop_accepted cfg rest packs _ s' hP]
              refine exists_congr fun items => and_congr_right fun hl => and_congr ?_
                (After.step hv (run_read_process hP (value_kind hv) s))
              unfold Fine
              rw [noRepeats_cons]
              constructor
              · rintro ⟨h1, h2, h3⟩
                refine ⟨?_, ⟨fun e => absurd rfl e, h2⟩, ?_⟩
                · intro pv hpv
                  rcases List.mem_cons.1 hpv with rfl | hpv
                  · simp [hv]
                  · exact h1 pv hpv
                · intro qb hqb pv hpv
                  rcases List.mem_cons.1 hpv with rfl | hpv
                  · exact fun e => hn qb hqb e.symm
                  · exact h3 qb hqb pv hpv
              · rintro ⟨h1, h2, h3⟩
                exact ⟨fun pv hpv => h1 pv (List.mem_cons_of_mem _ hpv), h2.2,
                  fun qb hqb pv hpv => h3 qb hqb pv (List.mem_cons_of_mem _ hpv)⟩
            · rw [if_neg hs, loop_accepted cfg rest _ s s' (hP.insert (value_kind hv) hs hh hn)]
              refine exists_congr fun items => and_congr_right fun hl => and_congr ?_
                (After.step hv (run_read_insert hP (value_kind hv) hn s))
              unfold Fine
              rw [noRepeats_cons]
              constructor
              · rintro ⟨h1, h2, h3⟩
                refine ⟨?_, ⟨fun _ pv hpv e => ?_, h2⟩, ?_⟩
                · intro pv hpv
                  rcases List.mem_cons.1 hpv with rfl | hpv
                  · simp [hv]
                  · exact h1 pv hpv
                · exact h3 (p, a) ((mem_insert packs _ hn).2 (Or.inl rfl)) pv hpv e
                · intro qb hqb pv hpv
                  rcases List.mem_cons.1 hpv with rfl | hpv
                  · exact fun e => hn qb hqb e.symm
                  · exact h3 qb ((mem_insert packs _ hn).2 (Or.inr hqb)) pv hpv
              · rintro ⟨h1, h2, h3⟩
                refine ⟨fun pv hpv => h1 pv (List.mem_cons_of_mem _ hpv), h2.2, fun qb hqb pv hpv => ?_⟩
                rcases (mem_insert packs _ hn).1 hqb with rfl | hqb
                · exact h2.1 hs pv hpv
                · exact h3 qb hqb pv (List.mem_cons_of_mem _ hpv)

/-- After a line without problems the loop goes on with the rest. -/
theorem loop_append (cfg : Config) : ∀ {pre : List Str} {items : List (Parser × Str)}, Line pre items →
    ∀ (packs : List (Parser × Act)) (s : Settings), Packs packs → Fine cfg items packs →
    ∃ packs' s', Packs packs' ∧ (∀ tail, loop cfg (pre ++ tail) packs s = loop cfg tail packs' s') ∧
      ∀ r, (∃ qb ∈ packs', qb.1 = r) ↔ (∃ qb ∈ packs, qb.1 = r) ∨ r ≠ .scheduler ∧ ∃ pv ∈ items, pv.1 = r := by
  intro pre items hl
  induction hl with
  | nil =>
    intro packs s hP _
    exact ⟨packs, s, hP, fun tail => rfl, fun r => by simp⟩
  | @cons p tok v rest items hsp hh hl ih =>
    intro packs s hP hF
    obtain ⟨h1, h2, h3⟩ := hF
    rw [noRepeats_cons] at h2
    obtain ⟨a, hv⟩ := Option.isSome_iff_exists.1 (h1 (p, v) List.mem_cons_self)
    simp only at hv
    have hn : ∀ qb ∈ packs, qb.1 ≠ p := fun qb hqb e => h3 qb hqb (p, v) List.mem_cons_self e.symm
    have hr : ¬ packs.any (·.1 == p) = true := fun e => by
      obtain ⟨qb, hqb, e⟩ := (any_iff packs p).1 e
      exact hn qb hqb e
    by_cases hs : p = .scheduler
    · obtain ⟨packs', s', hP', hloop, hkeys⟩ := ih packs (a.process s) hP
        ⟨fun pv hpv => h1 pv (List.mem_cons_of_mem _ hpv), h2.2, fun qb hqb pv hpv => h3 qb hqb pv (List.mem_cons_of_mem _ hpv)⟩
      refine ⟨packs', s', hP', fun tail => ?_, fun r => ?_⟩
      · rw [List.cons_append, List.cons_append, loop_item cfg _ packs s hsp hh, hv]
        simp only
        rw [if_neg hr, if_pos hs, hloop]
      · rw [hkeys r]
        refine or_congr_right (and_congr_right fun hr' => ?_)
        constructor
        · rintro ⟨pv, h, e⟩; exact ⟨pv, List.mem_cons_of_mem _ h, e⟩
        · rintro ⟨pv, h, e⟩
          rcases List.mem_cons.1 h with rfl | h
          · exact absurd (e.symm.trans hs) hr'
          · exact ⟨pv, h, e⟩
    · obtain ⟨packs', s', hP', hloop, hkeys⟩ := ih (insert p a packs) s (hP.insert (value_kind hv) hs hh hn)
        ⟨fun pv hpv => h1 pv (List.mem_cons_of_mem _ hpv), h2.2, fun qb hqb pv hpv => by
          rcases (mem_insert packs _ hn).1 hqb with rfl | hqb
          · exact h2.1 hs pv hpv
          · exact h3 qb hqb pv (List.mem_cons_of_mem _ hpv)⟩
      refine ⟨packs', s', hP', fun tail => ?_, fun r => ?_⟩
      · rw [List.cons_append, List.cons_append, loop_item cfg _ packs s hsp hh, hv]
        simp only
        rw [if_neg hr, if_neg hs, hloop]
      · rw [hkeys r]
        constructor
        · rintro (⟨qb, h, e⟩ | ⟨hr', pv, h, e⟩)
          · rcases (mem_insert packs _ hn).1 h with rfl | h
            · exact Or.inr ⟨fun e' => hs (e.trans e'), (p, v), List.mem_cons_self, e⟩
            · exact Or.inl ⟨qb, h, e⟩
          · exact Or.inr ⟨hr', pv, List.mem_cons_of_mem _ h, e⟩
        · rintro (⟨qb, h, e⟩ | ⟨hr', pv, h, e⟩)
          · exact Or.inl ⟨qb, (mem_insert packs _ hn).2 (Or.inr h), e⟩
          · rcases List.mem_cons.1 h with rfl | h
            · exact Or.inl ⟨(p, a), (mem_insert packs _ hn).2 (Or.inl rfl), e⟩
            · exact Or.inr ⟨hr', pv, h, e⟩

/-! ### C106 -/

/-- **C106**: a command line is accepted exactly when it consists of names of arguments followed by accepted values, without
help, and no argument but the scheduler repeated; afterwards each argument given has (the last of) its value, and the others
are as before. -/
theorem C106_accepted (cfg : Config) (prog : Str) (args : List Str) (s s' : Settings) :
    acquire cfg (prog :: args) s = some (.accepted, s') ↔
      ∃ items, Line args items ∧ (∀ pv ∈ items, (value cfg pv.1 pv.2).isSome = true) ∧ NoRepeats items ∧
        After cfg items s s' := by
  show some (loop cfg args [] s) = some _ ↔ _
  rw [Option.some.injEq, loop_accepted cfg args [] s s' (by intro qb h; exact absurd h (by simp))]
  refine exists_congr fun items => and_congr_right fun _ => ?_
  unfold Fine
  constructor
  · rintro ⟨⟨h1, h2, -⟩, h3⟩; exact ⟨h1, h2, h3⟩
  · rintro ⟨h1, h2, h3⟩; exact ⟨⟨h1, h2, by simp⟩, h3⟩

/-- **C106**: distinct arguments with documented values are accepted in every order, by short and long names, and set
exactly these values. -/
theorem C106_documented_lines (cfg : Config) (prog : Str) (args : List Str) (items : List (Parser × Str))
    (acts : Parser → Option Act) (s : Settings) (hl : Line args items) (hd : (items.map (·.1)).Nodup)
    (hv : ∀ pv ∈ items, ∃ a, acts pv.1 = some a ∧ Documented cfg pv.1 pv.2 a)
    (hn : ∀ p, (∀ pv ∈ items, pv.1 ≠ p) → acts p = none) :
    ∃ s', acquire cfg (prog :: args) s = some (.accepted, s') ∧
      ∀ p, s'.read p = match acts p with
        | some a => some a
        | none => s.read p := by
  have hF : Fine cfg items [] := ⟨fun pv hpv => by
    obtain ⟨a, -, h⟩ := hv pv hpv
    rw [C106_documented h]; rfl, hd.filter _, by simp⟩
  obtain ⟨packs', s1, -, hloop, -⟩ := loop_append cfg hl [] s (by intro qb h; exact absurd h (by simp)) hF
  have h1 := hloop []
  rw [List.append_nil] at h1
  have h2 : acquire cfg (prog :: args) s = some (.accepted, run packs' s1) := by
    show some (loop cfg args [] s) = _
    rw [h1]; rfl
  refine ⟨_, h2, fun p => ?_⟩
  obtain ⟨items', hl', -, -, hA⟩ := (C106_accepted _ _ _ _ _).1 h2
  have huniq : ∀ {args items items'}, Line args items → Line args items' → items = items' := by
    intro args items items' h
    induction h generalizing items' with
    | nil => intro h'; cases h'; rfl
    | cons hsp _ _ ih =>
      intro h'
      cases h' with
      | cons hsp' _ hl' =>
        have := ((parserOf_iff _ _).2 hsp).symm.trans ((parserOf_iff _ _).2 hsp')
        obtain rfl := Option.some.inj this
        rw [ih hl']
  obtain rfl := huniq hl hl'
  rw [hA p]
  have hlast : ∀ l : List (Parser × Str), (∀ v, lastOf l p = some v → (p, v) ∈ l) ∧
      (lastOf l p = none → ∀ pv ∈ l, pv.1 ≠ p) := by
    intro l
    induction l with
    | nil => exact ⟨fun v h => absurd h (by simp [lastOf]), fun _ pv h => absurd h (by simp)⟩
    | cons qv l ih =>
      obtain ⟨q, v⟩ := qv
      simp only [lastOf]
      cases hc : lastOf l p with
      | some w =>
        simp only
        exact ⟨fun v' e => by obtain rfl := Option.some.inj e; exact List.mem_cons_of_mem _ (ih.1 w hc), fun e => absurd e (by simp)⟩
      | none =>
        simp only
        by_cases e : q = p
        · subst e; rw [if_pos rfl]
          exact ⟨fun v' e => by obtain rfl := Option.some.inj e; exact List.mem_cons_self, fun e => absurd e (by simp)⟩
        · rw [if_neg e]
          refine ⟨fun v' e => absurd e (by simp), fun _ pv hpv => ?_⟩
          rcases List.mem_cons.1 hpv with rfl | hpv
          · exact e
          · exact ih.2 hc pv hpv
  cases hc : lastOf items p with
  | some v =>
    simp only
    obtain ⟨a, ha, hD⟩ := hv (p, v) ((hlast items).1 v hc)
    simp only at ha hD
    rw [ha, C106_documented hD]
  | none =>
    simp only
    rw [hn p ((hlast items).2 hc)]

/-- **C106**: after a line without problems, the first problem decides what is reported. -/
theorem C106_first_problem (cfg : Config) (prog : Str) (pre : List Str) (items : List (Parser × Str)) (s : Settings)
    (hl : Line pre items) (hv : ∀ pv ∈ items, (value cfg pv.1 pv.2).isSome = true) (hd : NoRepeats items) (p : Parser)
    (tok v : Str) (rest : List Str) :
    ((∀ q, ¬ Spelled q tok) → ∃ s', acquire cfg (prog :: (pre ++ tok :: rest)) s = some (.unrecognised tok, s')) ∧
    (Spelled .help tok → ∃ s', acquire cfg (prog :: (pre ++ tok :: rest)) s = some (.help, s')) ∧
    (Spelled p tok → p ≠ .help → ∃ s', acquire cfg (prog :: (pre ++ [tok])) s = some (.missing p, s')) ∧
    (Spelled p tok → p ≠ .help → value cfg p v = none →
      ∃ s', acquire cfg (prog :: (pre ++ tok :: v :: rest)) s = some (.invalid p, s')) ∧
    (Spelled p tok → p ≠ .help → (value cfg p v).isSome = true → p ≠ .scheduler → (∃ pv ∈ items, pv.1 = p) →
      ∃ s', acquire cfg (prog :: (pre ++ tok :: v :: rest)) s = some (.repeated p, s')) := by
  obtain ⟨packs', s1, hP, hloop, hkeys⟩ := loop_append cfg hl [] s (by intro qb h; exact absurd h (by simp)) ⟨hv, hd, by simp⟩
  have e : ∀ tail, acquire cfg (prog :: (pre ++ tail)) s = some (loop cfg tail packs' s1) := fun tail => by
    show some (loop cfg (pre ++ tail) [] s) = _
    rw [hloop]
  simp only [e]
  refine ⟨fun h => ⟨s1, ?_⟩, fun h => ⟨s1, ?_⟩, fun h hh => ⟨s1, ?_⟩, fun h hh hv' => ⟨s1, ?_⟩,
    fun h hh hv' hs hm => ⟨s1, ?_⟩⟩
  · have hq : parserOf tok = none := by
      cases hc : parserOf tok with
      | none => rfl
      | some q => exact absurd ((parserOf_iff _ _).1 hc) (h q)
    cases rest <;> (rw [loop, hq])
  · have hq := (parserOf_iff _ _).2 h
    have hn : ¬ packs'.any (·.1 == .help) = true := fun hc => by
      obtain ⟨qb, hqb, e⟩ := (any_iff packs' .help).1 hc
      exact (hP qb hqb).2.2 e
    cases rest <;> (rw [loop, hq]; simp only; rw [if_neg hn])
  · rw [loop, (parserOf_iff _ _).2 h]
    cases p <;> first | exact absurd rfl hh | rfl
  · rw [loop_item cfg rest packs' s1 h hh, hv']
  · obtain ⟨a, ha⟩ := Option.isSome_iff_exists.1 hv'
    rw [loop_item cfg rest packs' s1 h hh, ha]
    simp only
    rw [if_pos ((any_iff packs' p).2 ((hkeys p).2 (Or.inr ⟨hs, hm⟩)))]

/-- **C106** (partial): a rejected command line changes no setting but the scheduler. Missing: nor the scheduler
(`C106_rejected_fails`). -/
theorem C106_rejected_partial (cfg : Config) (args : List Str) (s s' : Settings) (o : Outcome)
    (h : acquire cfg args s = some (o, s')) (ho : o ≠ .accepted) (p : Parser) (hp : p ≠ .scheduler) :
    s'.read p = s.read p := by
  cases args with
  | nil => exact absurd h (by simp [acquire])
  | cons prog args =>
    have h' : loop cfg args [] s = (o, s') := Option.some.inj h
    have gen : ∀ (args : List Str) (packs : List (Parser × Act)) (s : Settings), loop cfg args packs s = (o, s') →
        s'.read p = s.read p := by
      intro args packs s
      induction args, packs, s using loop.induct (cfg := cfg) with
      | case1 packs s => intro h; exact absurd (Prod.mk.inj h).1.symm ho
      | case2 tok packs s hq => intro h; rw [loop, hq] at h; rw [(Prod.mk.inj h).2]
      | case3 tok packs s hq => intro h; rw [loop, hq] at h; rw [(Prod.mk.inj h).2]
      | case4 tok packs s q hne hq =>
        intro h; rw [loop, hq] at h
        cases q <;> first | exact absurd rfl hne | rw [(Prod.mk.inj h).2]
      | case5 tok v rest packs s hq => intro h; rw [loop, hq] at h; rw [(Prod.mk.inj h).2]
      | case6 tok v rest packs s hq => intro h; rw [loop, hq] at h; rw [(Prod.mk.inj h).2]
      | case7 tok v rest packs s q hne hq hv =>
        intro h; rw [loop_item cfg rest packs s ((parserOf_iff _ _).1 hq) hne, hv] at h; rw [(Prod.mk.inj h).2]
      | case8 tok v rest packs s q hne hq a hv hr =>
        intro h; rw [loop_item cfg rest packs s ((parserOf_iff _ _).1 hq) hne, hv] at h
        simp only at h
        rw [if_pos hr] at h; rw [(Prod.mk.inj h).2]
      | case9 tok v rest packs s a hne hq hv hr ih =>
        intro h; rw [loop_item cfg rest packs s ((parserOf_iff _ _).1 hq) hne, hv] at h
        simp only at h
        rw [if_neg hr, if_pos trivial] at h
        rw [ih h, read_process, value_kind hv, if_neg (Ne.symm hp)]
      | case10 tok v rest packs s q hne hq a hv hr hs ih =>
        intro h; rw [loop_item cfg rest packs s ((parserOf_iff _ _).1 hq) hne, hv] at h
        simp only at h
        rw [if_neg hr, if_neg hs] at h
        exact ih h
    exact gen args [] s h'

/-! ### Counterexamples and examples -/

def defaults : Settings := ⟨some 0, .affine 0, .cairo, .nonblocking, .none, 0⟩
def both : Config := ⟨true, true⟩

/-- **C106**: a rejected command line changes the scheduler: `-s immediate -x`. -/
theorem C106_rejected_fails : ∃ s', acquire both [['p'], ['-','s'], ['i','m','m','e','d','i','a','t','e'], ['-','x']] defaults
    = some (.unrecognised ['-','x'], s') ∧ s'.read .scheduler ≠ defaults.read .scheduler := by
  refine ⟨{ defaults with scheduler := .immediate }, ?_, ?_⟩ <;> decide +kernel

/-- **C106**: a repeated scheduler is not reported: `-s immediate --scheduler blocking`. -/
theorem C106_repeated_fails : acquire both [['p'], ['-','s'], ['i','m','m','e','d','i','a','t','e'],
    '-' :: '-' :: Parser.scheduler.long, ['b','l','o','c','k','i','n','g']] defaults
    = some (.accepted, { defaults with scheduler := .blocking }) := by decide +kernel

/-- **C106**: values which are not documented are accepted: `-v 3x`, `-d grid@2@7`, `-c -0`. -/
theorem C106_values_fails :
    acquire both [['p'], ['-','v'], ['3','x']] defaults = some (.accepted, { defaults with verbosity := 3 }) ∧
    acquire both [['p'], ['-','d'], ['g','r','i','d','@','2','@','7']] defaults
      = some (.accepted, { defaults with drawer := .grid 2 }) ∧
    acquire both [['p'], ['-','c'], ['-','0']] defaults = some (.accepted, { defaults with concurrency := some 0 }) := by
  refine ⟨?_, ?_, ?_⟩ <;> decide +kernel

/-- The precondition: without the name of the program there is no result. -/
theorem C106_no_program (cfg : Config) (s : Settings) : acquire cfg [] s = none := rfl

/-- A documented line: `-t dark --verbosity 12 -d affine@3`. -/
example : acquire both [['p'], ['-','t'], ['d','a','r','k'], '-' :: '-' :: Parser.verbosity.long, ['1','2'], ['-','d'],
    ['a','f','f','i','n','e','@','3']] defaults
    = some (.accepted, { defaults with theme := .dark, verbosity := 12, drawer := .affine 3 }) := by decide +kernel

example : Line [['-','t'], ['d','a','r','k'], '-' :: '-' :: Parser.verbosity.long, ['1','2']]
    [(.theme, ['d','a','r','k']), (.verbosity, ['1','2'])] :=
  .cons (Or.inl rfl) (by decide) (.cons (Or.inr rfl) (by decide) .nil)

example : acquire both [['p'], ['-','v'], ['2'], ['-','v'], ['3']] defaults = some (.repeated .verbosity, defaults) := by
  decide +kernel

example : acquire both [['p'], ['-','v']] defaults = some (.missing .verbosity, defaults) := by decide +kernel

end Verif.CommandLine
