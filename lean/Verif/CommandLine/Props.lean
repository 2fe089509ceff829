import Verif.CommandLine.Model
import Mathlib.Data.Nat.Digits.Defs
import Mathlib.Data.Nat.Digits.Lemmas
import Mathlib.Data.List.Basic
import Mathlib.Tactic.Ring

/-!
# C106: the command line

Specification: a command line is a list of names of arguments, each followed by a value (`Line`); the meaning of a value is
given by the documentation of the arguments (`Documented`); the value which counts is the last one given (`lastOf`).
-/

namespace Verif.CommandLine

/-! ### Specification -/

/-- The two ways of naming an argument. -/
def Spelled (p : Parser) (tok : Str) : Prop := tok = '-' :: p.short ∨ tok = '-' :: '-' :: p.long

/-- A command line giving values to arguments. -/
inductive Line : List Str → List (Parser × Str) → Prop
  | nil : Line [] []
  | cons {p tok v rest items} : Spelled p tok → p ≠ .help → Line rest items → Line (tok :: v :: rest) ((p, v) :: items)

/-- The decimal numeral of a number. -/
def numeral (n : ℕ) : Str := if n = 0 then ['0'] else (Nat.digits 10 n).reverse.map fun d => Char.ofNat (48 + d)

/-- The documented values of the arguments (command_line_interface.cpp 172, 188, 216, 244, 258, 275), numbers being those of
the type `int`, backends those compiled in. -/
inductive Documented (cfg : Config) : Parser → Str → Act → Prop
  | max : Documented cfg .concurrency ['m','a','x'] (.concurrency none)
  | concurrency {n : ℕ} : n < 2147483648 → Documented cfg .concurrency (numeral n) (.concurrency (some n))
  | box : Documented cfg .drawer ['b','o','x'] (.drawer .box)
  | grid {n : ℕ} : n < 2147483648 → Documented cfg .drawer (['g','r','i','d','@'] ++ numeral n) (.drawer (.grid n))
  | affine {n : ℕ} : n < 2147483648 → Documented cfg .drawer (['a','f','f','i','n','e','@'] ++ numeral n) (.drawer (.affine n))
  | nodrawer : Documented cfg .drawer ['n','o','n','e'] (.drawer .none)
  | cairo : cfg.cairo = true → Documented cfg .graphics ['c','a','i','r','o'] (.graphics .cairo)
  | gnuplot : cfg.gnuplot = true → Documented cfg .graphics ['g','n','u','p','l','o','t'] (.graphics .gnuplot)
  | nographics : Documented cfg .graphics ['n','o','n','e'] (.graphics .none)
  | immediate : Documented cfg .scheduler ['i','m','m','e','d','i','a','t','e'] (.scheduler .immediate)
  | blocking : Documented cfg .scheduler ['b','l','o','c','k','i','n','g'] (.scheduler .blocking)
  | nonblocking : Documented cfg .scheduler ['n','o','n','b','l','o','c','k','i','n','g'] (.scheduler .nonblocking)
  | notheme : Documented cfg .theme ['n','o','n','e'] (.theme .none)
  | light : Documented cfg .theme ['l','i','g','h','t'] (.theme .light)
  | dark : Documented cfg .theme ['d','a','r','k'] (.theme .dark)
  | verbosity {n : ℕ} : n < 2147483648 → Documented cfg .verbosity (numeral n) (.verbosity n)

/-- The last value given to an argument. -/
def lastOf : List (Parser × Str) → Parser → Option Str
  | [], _ => none
  | (q, v) :: l, p => match lastOf l p with
    | some w => some w
    | none => if q = p then some v else none

/-- The current setting of an argument. -/
def Settings.read (s : Settings) : Parser → Option Act
  | .concurrency => some (.concurrency s.concurrency)
  | .drawer => some (.drawer s.drawer)
  | .graphics => some (.graphics s.graphics)
  | .help => none
  | .scheduler => some (.scheduler s.scheduler)
  | .theme => some (.theme s.theme)
  | .verbosity => some (.verbosity s.verbosity)

/-- Which argument an action belongs to. -/
def Act.kind : Act → Parser
  | .concurrency _ => .concurrency
  | .drawer _ => .drawer
  | .graphics _ => .graphics
  | .scheduler _ => .scheduler
  | .theme _ => .theme
  | .verbosity _ => .verbosity

/-- The texts which begin with a number: white space, a sign, and digits, followed by anything else. -/
def Begins (s : Str) (n : ℕ) : Prop :=
  ∃ ws sg ds rest : Str, s = ws ++ (sg ++ (ds ++ rest)) ∧ (∀ c ∈ ws, isSpace c = true) ∧
    (sg = [] ∨ sg = ['+'] ∨ sg = ['-'] ∧ n = 0) ∧ ds ≠ [] ∧ (∀ c ∈ ds, isDigit c = true) ∧
    (∀ c ∈ rest.head?, isDigit c = false) ∧ n = Nat.ofDigits 10 (ds.reverse.map digit) ∧ n < 2147483648

/-! ### Names -/

theorem parserOf_iff (tok : Str) (p : Parser) : parserOf tok = some p ↔ Spelled p tok := by
  constructor
  · intro h
    have := List.find?_some h
    simpa [consumable, Spelled] using this
  · rintro (rfl | rfl) <;> cases p <;> rfl

/-! ### Numbers -/

theorem fold_digits : ∀ ds : Str, ds.foldl (fun n c => 10 * n + digit c) 0 = Nat.ofDigits 10 (ds.reverse.map digit) := by
  intro ds
  rw [← List.reverse_reverse ds, List.foldl_reverse, List.reverse_reverse]
  generalize ds.reverse = l
  induction l with
  | nil => rfl
  | cons c l ih => rw [List.foldr_cons, List.map_cons, Nat.ofDigits_cons, ih]; exact Nat.add_comm _ _

theorem dropWhile_append {P : Char → Bool} : ∀ (a b : Str), (∀ c ∈ a, P c = true) → (∀ c ∈ b.head?, P c = false) →
    (a ++ b).dropWhile P = b ∧ (a ++ b).takeWhile P = a := by
  intro a
  induction a with
  | nil =>
    intro b _ hb
    cases b with
    | nil => exact ⟨rfl, rfl⟩
    | cons c b => have := hb c rfl; simp [this]
  | cons c a ih =>
    intro b ha hb
    have h1 := ha c List.mem_cons_self
    obtain ⟨h2, h3⟩ := ih b (fun c hc => ha c (List.mem_cons_of_mem _ hc)) hb
    constructor
    · rw [List.cons_append, List.dropWhile_cons, if_pos h1, h2]
    · rw [List.cons_append, List.takeWhile_cons, if_pos h1, h3]

theorem head_dropWhile (P : Char → Bool) : ∀ s : Str, ∀ c ∈ (s.dropWhile P).head?, P c = false := by
  intro s
  induction s with
  | nil => intro c hc; exact absurd hc (by simp)
  | cons d s ih =>
    intro c hc
    rw [List.dropWhile_cons] at hc
    by_cases hd : P d = true
    · rw [if_pos hd] at hc; exact ih c hc
    · rw [if_neg hd] at hc
      obtain rfl : d = c := by simpa using hc
      simpa using hd

theorem all_takeWhile (P : Char → Bool) : ∀ s : Str, ∀ c ∈ s.takeWhile P, P c = true := by
  intro s
  induction s with
  | nil => intro c hc; exact absurd hc (by simp)
  | cons d s ih =>
    intro c hc
    rw [List.takeWhile_cons] at hc
    by_cases hd : P d = true
    · rw [if_pos hd] at hc
      rcases List.mem_cons.1 hc with rfl | hc
      · exact hd
      · exact ih c hc
    · rw [if_neg hd] at hc; exact absurd hc (by simp)

theorem sign_cases (t : Str) : (∃ u, t = '-' :: u ∧ sign t = (true, u)) ∨ (∃ u, t = '+' :: u ∧ sign t = (false, u)) ∨
    (sign t = (false, t)) := by
  unfold sign
  split
  · exact Or.inl ⟨_, rfl, rfl⟩
  · exact Or.inr (Or.inl ⟨_, rfl, rfl⟩)
  · exact Or.inr (Or.inr rfl)

theorem digit_head {c : Char} (h : isDigit c = true) : c ≠ '-' ∧ c ≠ '+' ∧ isSpace c = false := by
  refine ⟨?_, ?_, ?_⟩
  · rintro rfl; exact absurd h (by decide)
  · rintro rfl; exact absurd h (by decide)
  · have h1 : 48 ≤ c.toNat ∧ c.toNat ≤ 57 := by simpa [isDigit] using h
    have h2 : c ≠ ' ' := by rintro rfl; exact absurd h (by decide)
    simp only [isSpace, Bool.or_eq_false_iff, beq_eq_false_iff_ne, ne_eq, Bool.and_eq_false_iff, decide_eq_false_iff_not]
    exact ⟨h2, Or.inr (by omega)⟩

theorem sign_digit {t : Str} (h : ∀ c ∈ t.head?, isDigit c = true) : sign t = (false, t) := by
  unfold sign
  split
  · exact absurd (h '-' rfl) (by decide)
  · exact absurd (h '+' rfl) (by decide)
  · rfl

/-- **C106**: numbers are read exactly from the texts which begin with one. -/
theorem C106_numbers (s : Str) (n : ℕ) : natural s = some n ↔ Begins s n := by
  constructor
  · intro h
    obtain ⟨z, hz, hn⟩ := Option.bind_eq_some_iff.1 h
    have hz0 : ¬ z < 0 := fun hc => by rw [if_pos hc] at hn; exact absurd hn (by simp)
    rw [if_neg hz0] at hn
    have hn' : z.toNat = n := Option.some.inj hn
    unfold stoi at hz
    generalize hsg : sign (s.dropWhile isSpace) = q at hz
    obtain ⟨neg, t⟩ := q
    simp only at hz
    by_cases hd : t.takeWhile isDigit = []
    · rw [if_pos hd] at hz; exact absurd hz (by simp)
    rw [if_neg hd] at hz
    have hr := fold_digits (t.takeWhile isDigit)
    rw [hr] at hz
    generalize hN : Nat.ofDigits 10 ((t.takeWhile isDigit).reverse.map digit) = N at hz
    have hz2 : z = (if neg = true then -(N : ℤ) else (N : ℤ)) ∧ z ≤ 2147483647 := by
      by_cases hc : -2147483648 ≤ (if neg = true then -(N : ℤ) else (N : ℤ)) ∧ (if neg = true then -(N : ℤ) else (N : ℤ)) ≤ 2147483647
      · rw [if_pos hc] at hz
        have := Option.some.inj hz
        exact ⟨this.symm, this ▸ hc.2⟩
      · rw [if_neg hc] at hz; exact absurd hz (by simp)
    obtain ⟨hz3, hz4⟩ := hz2
    have hNn : n = N ∧ (neg = true → n = 0) := by
      cases neg
      · simp only [Bool.false_eq_true, if_false] at hz3; exact ⟨by omega, by simp⟩
      · simp only [if_true] at hz3; exact ⟨by omega, fun _ => by omega⟩
    have e1 : s = s.takeWhile isSpace ++ s.dropWhile isSpace := List.takeWhile_append_dropWhile.symm
    have e2 : t = t.takeWhile isDigit ++ t.dropWhile isDigit := List.takeWhile_append_dropWhile.symm
    have hlt : n < 2147483648 := by omega
    have fin : ∀ sg : Str, s.dropWhile isSpace = sg ++ t → (sg = [] ∨ sg = ['+'] ∨ sg = ['-'] ∧ n = 0) → Begins s n := by
      intro sg e3 hs
      refine ⟨s.takeWhile isSpace, sg, t.takeWhile isDigit, t.dropWhile isDigit, ?_, all_takeWhile _ _, hs, hd,
        all_takeWhile _ _, head_dropWhile _ _, by rw [hN]; exact hNn.1, hlt⟩
      rw [← e2, ← e3]; exact e1
    rcases sign_cases (s.dropWhile isSpace) with ⟨u, h1, h2⟩ | ⟨u, h1, h2⟩ | h2
    · rw [hsg] at h2
      obtain ⟨h3, rfl⟩ := Prod.mk.inj h2
      exact fin ['-'] h1 (Or.inr (Or.inr ⟨rfl, hNn.2 h3⟩))
    · rw [hsg] at h2
      obtain ⟨h3, rfl⟩ := Prod.mk.inj h2
      exact fin ['+'] h1 (Or.inr (Or.inl rfl))
    · rw [hsg] at h2
      obtain ⟨h3, h4⟩ := Prod.mk.inj h2
      exact fin [] h4.symm (Or.inl rfl)
  · rintro ⟨ws, sg, ds, rest, rfl, hws, hsg, hds, hdig, hrest, hn, hlt⟩
    obtain ⟨c, ds', rfl⟩ := List.exists_cons_of_ne_nil hds
    have hc := digit_head (hdig c List.mem_cons_self)
    have htake := dropWhile_append (P := isDigit) (c :: ds') rest hdig hrest
    have key : ∃ neg : Bool, sign ((ws ++ (sg ++ (c :: ds' ++ rest))).dropWhile isSpace) = (neg, c :: ds' ++ rest) ∧
        (neg = true → n = 0) := by
      rcases hsg with rfl | rfl | ⟨rfl, h0⟩
      · refine ⟨false, ?_, by simp⟩
        rw [(dropWhile_append ws _ hws (by
          intro d hd; obtain rfl : c = d := by simpa using hd
          exact hc.2.2)).1]
        exact sign_digit (by
          intro d hd; obtain rfl : c = d := by simpa using hd
          exact hdig c List.mem_cons_self)
      · refine ⟨false, ?_, by simp⟩
        rw [(dropWhile_append ws _ hws (by
          intro d hd; obtain rfl : '+' = d := by simpa using hd
          decide)).1]
        rfl
      · refine ⟨true, ?_, fun _ => h0⟩
        rw [(dropWhile_append ws _ hws (by
          intro d hd; obtain rfl : '-' = d := by simpa using hd
          decide)).1]
        rfl
    obtain ⟨neg, hs, hneg⟩ := key
    have hst : stoi (ws ++ (sg ++ (c :: ds' ++ rest))) = some (n : ℤ) := by
      unfold stoi
      rw [hs]
      simp only
      rw [htake.2, if_neg (by simp), fold_digits, ← hn]
      cases neg
      · simp only [Bool.false_eq_true, if_false]
        rw [if_pos ⟨by omega, by omega⟩]
      · have := hneg rfl
        subst this
        rfl
    unfold natural
    rw [hst]
    simp

theorem isDigit_ofNat {d : ℕ} (h : d < 10) : isDigit (Char.ofNat (48 + d)) = true ∧ digit (Char.ofNat (48 + d)) = d := by
  have : d = 0 ∨ d = 1 ∨ d = 2 ∨ d = 3 ∨ d = 4 ∨ d = 5 ∨ d = 6 ∨ d = 7 ∨ d = 8 ∨ d = 9 := by omega
  rcases this with rfl | rfl | rfl | rfl | rfl | rfl | rfl | rfl | rfl | rfl <;> decide

theorem begins_numeral {n : ℕ} (h : n < 2147483648) : Begins (numeral n) n := by
  unfold numeral
  by_cases h0 : n = 0
  · subst h0
    exact ⟨[], [], ['0'], [], rfl, by simp, Or.inl rfl, by simp, by decide, by simp, by decide, by omega⟩
  · rw [if_neg h0]
    refine ⟨[], [], (Nat.digits 10 n).reverse.map fun d => Char.ofNat (48 + d), [], by simp, by simp, Or.inl rfl, ?_, ?_, by simp, ?_, h⟩
    · simp [Nat.digits_ne_nil_iff_ne_zero.2 h0]
    · intro c hc
      obtain ⟨d, hd, rfl⟩ := List.mem_map.1 hc
      exact (isDigit_ofNat (Nat.digits_lt_base (by omega) (List.mem_reverse.1 hd))).1
    · rw [← List.map_reverse, List.reverse_reverse, List.map_map]
      have : (Nat.digits 10 n).map (digit ∘ fun d => Char.ofNat (48 + d)) = Nat.digits 10 n := by
        conv_rhs => rw [← List.map_id (Nat.digits 10 n)]
        refine List.map_congr_left fun d hd => ?_
        exact (isDigit_ofNat (Nat.digits_lt_base (by omega) hd)).2
      rw [this, Nat.ofDigits_digits]

theorem natural_numeral {n : ℕ} (h : n < 2147483648) : natural (numeral n) = some n :=
  (C106_numbers _ _).2 (begins_numeral h)

theorem natural_word {c : Char} {s : Str} (hc : isSpace c = false) (hd : isDigit c = false) (h1 : c ≠ '-') (h2 : c ≠ '+') :
    natural (c :: s) = none := by
  have hs : sign (c :: s) = (false, c :: s) := by
    unfold sign
    split
    · rename_i h; exact absurd (List.cons.inj h).1 h1
    · rename_i h; exact absurd (List.cons.inj h).1 h2
    · rfl
  unfold natural stoi
  rw [List.dropWhile_cons, if_neg (by simp [hc]), hs]
  simp [hd]

/-! ### Values -/

theorem value_kind {cfg : Config} {p : Parser} {v : Str} {a : Act} (h : value cfg p v = some a) : a.kind = p := by
  cases p <;> simp only [value] at h
  · split_ifs at h
    · obtain rfl := Option.some.inj h; rfl
    · obtain ⟨n, -, rfl⟩ := Option.map_eq_some_iff.1 h; rfl
  · by_cases h1 : v = ['n','o','n','e']
    · rw [if_pos h1] at h; obtain rfl := Option.some.inj h; rfl
    rw [if_neg h1] at h
    by_cases h2 : v = ['b','o','x']
    · rw [if_pos h2] at h; obtain rfl := Option.some.inj h; rfl
    · rw [if_neg h2] at h
      split at h
      · exact absurd h (by simp)
      · obtain ⟨n, -, h⟩ := Option.bind_eq_some_iff.1 h
        split_ifs at h
        · obtain rfl := Option.some.inj h; rfl
        · obtain rfl := Option.some.inj h; rfl
  · split_ifs at h <;> (obtain rfl := Option.some.inj h; rfl)
  · exact absurd h (by simp)
  · split_ifs at h <;> (obtain rfl := Option.some.inj h; rfl)
  · split_ifs at h <;> (obtain rfl := Option.some.inj h; rfl)
  · obtain ⟨n, -, rfl⟩ := Option.map_eq_some_iff.1 h; rfl

/-- **C106**: every documented value is accepted, with its meaning. -/
theorem C106_documented {cfg : Config} {p : Parser} {v : Str} {a : Act} (h : Documented cfg p v a) :
    value cfg p v = some a := by
  cases h with
  | concurrency hn =>
    have h1 := natural_numeral hn
    have h2 : numeral _ ≠ ['m','a','x'] := fun e => by
      rw [e, natural_word (by decide) (by decide) (by decide) (by decide)] at h1; exact absurd h1 (by simp)
    simp only [value]
    rw [if_neg h2, h1]; rfl
  | grid hn =>
    simp only [value]
    rw [if_neg (by simp), if_neg (by simp)]
    simp [natural_numeral hn]
  | affine hn =>
    simp only [value]
    rw [if_neg (by simp), if_neg (by simp)]
    simp [natural_numeral hn]
  | verbosity hn => simp only [value]; rw [natural_numeral hn]; rfl
  | cairo hc => simp [value, hc]
  | gnuplot hc => simp [value, hc]
  | _ => simp [value]

/-- **C106** (partial): the accepted values are the documented ones, and, where these have a number, those which begin with
one (after white space and a sign) and go on with anything. Missing: nothing else should be accepted. -/
theorem C106_values_partial {cfg : Config} {p : Parser} {v : Str} {a : Act} (h : value cfg p v = some a) :
    Documented cfg p v a ∨
    (∃ n, Begins v n ∧ (p = .concurrency ∧ a = .concurrency (some n) ∨ p = .verbosity ∧ a = .verbosity n)) ∨
    (∃ n t, Begins t n ∧ p = .drawer ∧ (v = ['g','r','i','d','@'] ++ t ∧ a = .drawer (.grid n) ∨
      v = ['a','f','f','i','n','e','@'] ++ t ∧ a = .drawer (.affine n))) := by
  cases p <;> simp only [value] at h
  · split_ifs at h with h1
    · subst h1; obtain rfl := Option.some.inj h; exact Or.inl .max
    · obtain ⟨n, hn, rfl⟩ := Option.map_eq_some_iff.1 h
      exact Or.inr (Or.inl ⟨n, (C106_numbers _ _).1 hn, Or.inl ⟨rfl, rfl⟩⟩)
  · by_cases h1 : v = ['n','o','n','e']
    · rw [if_pos h1] at h; subst h1; obtain rfl := Option.some.inj h; exact Or.inl .nodrawer
    rw [if_neg h1] at h
    by_cases h2 : v = ['b','o','x']
    · rw [if_pos h2] at h; subst h2; obtain rfl := Option.some.inj h; exact Or.inl .box
    · rw [if_neg h2] at h
      split at h
      · exact absurd h (by simp)
      · rename_i d rest hrest
        obtain ⟨n, hn, h⟩ := Option.bind_eq_some_iff.1 h
        have hd : d = '@' := by
          have := head_dropWhile (· != '@') v d (by rw [hrest]; rfl)
          simpa using this
        have e : v = v.takeWhile (· != '@') ++ '@' :: rest := by
          conv_lhs => rw [← List.takeWhile_append_dropWhile (p := (· != '@')) (l := v), hrest, hd]
        refine Or.inr (Or.inr ⟨n, rest, (C106_numbers _ _).1 hn, rfl, ?_⟩)
        split_ifs at h with h3 h4
        · rw [h3] at e; exact Or.inl ⟨e, (Option.some.inj h).symm⟩
        · rw [h4] at e; exact Or.inr ⟨e, (Option.some.inj h).symm⟩
  · split_ifs at h with h1 h2 h3
    · obtain ⟨h0, rfl⟩ := h1; obtain rfl := Option.some.inj h; exact Or.inl (.cairo h0)
    · obtain ⟨h0, rfl⟩ := h2; obtain rfl := Option.some.inj h; exact Or.inl (.gnuplot h0)
    · subst h3; obtain rfl := Option.some.inj h; exact Or.inl .nographics
  · exact absurd h (by simp)
  · split_ifs at h with h1 h2 h3
    · subst h1; obtain rfl := Option.some.inj h; exact Or.inl .immediate
    · subst h2; obtain rfl := Option.some.inj h; exact Or.inl .blocking
    · subst h3; obtain rfl := Option.some.inj h; exact Or.inl .nonblocking
  · split_ifs at h with h1 h2 h3
    · subst h1; obtain rfl := Option.some.inj h; exact Or.inl .notheme
    · subst h2; obtain rfl := Option.some.inj h; exact Or.inl .light
    · subst h3; obtain rfl := Option.some.inj h; exact Or.inl .dark
  · obtain ⟨n, hn, rfl⟩ := Option.map_eq_some_iff.1 h
    exact Or.inr (Or.inl ⟨n, (C106_numbers _ _).1 hn, Or.inr ⟨rfl, rfl⟩⟩)

end Verif.CommandLine
