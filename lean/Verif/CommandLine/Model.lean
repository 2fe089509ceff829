import Mathlib.Data.Nat.Notation
import Mathlib.Data.Int.Notation

/-!
# The command-line interface

Model of /repo/source/io/command_line_interface.cpp: the parsers of the seven arguments, and the loop of
`CommandLineInterface::acquire`.

Simplifications: strings are lists of characters; the messages and the help are replaced by the outcomes which cause them;
`Set<ArgumentPack>`, ordered by the long names, is a list with increasing parsers; setting a value (of the task manager,
graphics manager or logger, the first and last of which are libraries outside the repository) stores it and never throws;
`int` has 32 bits; `stoi` is that of the "C" locale.
-/

namespace Verif.CommandLine

abbrev Str := List Char

/-- The parsers, in the order of their list (command_line_interface.cpp 284-287), which is that of their long names. -/
inductive Parser
  | concurrency | drawer | graphics | help | scheduler | theme | verbosity
  deriving DecidableEq, Repr

namespace Parser

/-- The list of parsers (284-287). -/
def all : List Parser := [concurrency, drawer, graphics, help, scheduler, theme, verbosity]

/-- Short names (172, 188, 216, 234, 244, 258, 275). -/
def short : Parser → Str
  | concurrency => ['c'] | drawer => ['d'] | graphics => ['g'] | help => ['h'] | scheduler => ['s'] | theme => ['t']
  | verbosity => ['v']

/-- Long names (172, 188, 216, 234, 244, 258, 275). -/
def long : Parser → Str
  | concurrency => ['c','o','n','c','u','r','r','e','n','c','y'] | drawer => ['d','r','a','w','e','r']
  | graphics => ['g','r','a','p','h','i','c','s'] | help => ['h','e','l','p']
  | scheduler => ['s','c','h','e','d','u','l','e','r'] | theme => ['t','h','e','m','e']
  | verbosity => ['v','e','r','b','o','s','i','t','y']

/-- The place of a parser in the order of the long names, by which packs are ordered (77-79). -/
def rank : Parser → ℕ
  | concurrency => 0 | drawer => 1 | graphics => 2 | help => 3 | scheduler => 4 | theme => 5 | verbosity => 6

end Parser

/-- `is_consumable` (129-138). -/
def consumable (p : Parser) (tok : Str) : Bool := tok == '-' :: p.short || tok == '-' :: '-' :: p.long

/-- The first parser which accepts the argument (302-303). -/
def parserOf (tok : Str) : Option Parser := Parser.all.find? fun p => consumable p tok

inductive Drawer | none | box | grid (n : ℕ) | affine (n : ℕ) deriving DecidableEq, Repr
inductive Backend | cairo | gnuplot | none deriving DecidableEq, Repr
inductive Scheduler | immediate | blocking | nonblocking deriving DecidableEq, Repr
inductive Theme | none | light | dark deriving DecidableEq, Repr

/-- The processors: the values which they set; `concurrency none` is the hardware concurrency. -/
inductive Act
  | concurrency (n : Option ℕ)
  | drawer (d : Drawer)
  | graphics (b : Backend)
  | scheduler (s : Scheduler)
  | theme (t : Theme)
  | verbosity (n : ℕ)
  deriving DecidableEq, Repr

/-- The settings of the task manager, graphics manager and logger. -/
structure Settings where
  concurrency : Option ℕ
  drawer : Drawer
  graphics : Backend
  scheduler : Scheduler
  theme : Theme
  verbosity : ℕ
  deriving DecidableEq, Repr

/-- `process` (73-75). -/
def Act.process : Act → Settings → Settings
  | .concurrency n, s => { s with concurrency := n }
  | .drawer d, s => { s with drawer := d }
  | .graphics b, s => { s with graphics := b }
  | .scheduler c, s => { s with scheduler := c }
  | .theme t, s => { s with theme := t }
  | .verbosity n, s => { s with verbosity := n }

def isSpace (c : Char) : Bool := c == ' ' || (9 ≤ c.toNat && c.toNat ≤ 13)
def isDigit (c : Char) : Bool := 48 ≤ c.toNat && c.toNat ≤ 57
def digit (c : Char) : ℕ := c.toNat - 48

/-- The sign read by `stoi`, and what follows it. -/
def sign : Str → Bool × Str
  | '-' :: s => (true, s)
  | '+' :: s => (false, s)
  | s => (false, s)

/-- `std::stoi`: white space, a sign and digits are read, the rest is ignored; exceptions are `none`. -/
def stoi (s : Str) : Option ℤ :=
  let (neg, t) := sign (s.dropWhile isSpace)
  let ds := t.takeWhile isDigit
  if ds = [] then none
  else
    let n : ℤ := (ds.foldl (fun n c => 10 * n + digit c) 0 : ℕ)
    let z := if neg then -n else n
    if -2147483648 ≤ z ∧ z ≤ 2147483647 then some z else none

/-- `stoi` and the test for negative numbers (178-179, 200-201, 278-279). -/
def natural (s : Str) : Option ℕ := (stoi s).bind fun z => if z < 0 then none else some z.toNat

/-- Which graphics libraries the library was compiled with (220-225). -/
structure Config where
  cairo : Bool
  gnuplot : Bool

/-- `_create_processor` of the parsers with values (174-182, 190-210, 218-228, 246-252, 260-269, 277-281); exceptions are
`none`. `help` takes no value. -/
def value (cfg : Config) : Parser → Str → Option Act
  | .concurrency, v => if v = ['m','a','x'] then some (.concurrency none) else (natural v).map fun n => .concurrency (some n)
  | .drawer, v =>
    if v = ['n','o','n','e'] then some (.drawer .none)
    else if v = ['b','o','x'] then some (.drawer .box)
    else match v.dropWhile (· != '@') with
      | [] => none
      | _ :: rest => (natural rest).bind fun n =>
        let name := v.takeWhile (· != '@')
        if name = ['g','r','i','d'] then some (.drawer (.grid n))
        else if name = ['a','f','f','i','n','e'] then some (.drawer (.affine n))
        else none
  | .graphics, v =>
    if cfg.cairo ∧ v = ['c','a','i','r','o'] then some (.graphics .cairo)
    else if cfg.gnuplot ∧ v = ['g','n','u','p','l','o','t'] then some (.graphics .gnuplot)
    else if v = ['n','o','n','e'] then some (.graphics .none)
    else none
  | .help, _ => none
  | .scheduler, v =>
    if v = ['i','m','m','e','d','i','a','t','e'] then some (.scheduler .immediate)
    else if v = ['b','l','o','c','k','i','n','g'] then some (.scheduler .blocking)
    else if v = ['n','o','n','b','l','o','c','k','i','n','g'] then some (.scheduler .nonblocking)
    else none
  | .theme, v =>
    if v = ['n','o','n','e'] then some (.theme .none)
    else if v = ['l','i','g','h','t'] then some (.theme .light)
    else if v = ['d','a','r','k'] then some (.theme .dark)
    else none
  | .verbosity, v => (natural v).map .verbosity

/-- `Set::insert` of packs ordered by their names. -/
def insert (p : Parser) (a : Act) : List (Parser × Act) → List (Parser × Act)
  | [] => [(p, a)]
  | (q, b) :: l => if p.rank < q.rank then (p, a) :: (q, b) :: l else if p.rank = q.rank then (q, b) :: l
    else (q, b) :: insert p a l

/-- What `acquire` reports: `accepted` is the result true, the others are the result false, with the message written. -/
inductive Outcome
  | accepted | help | repeated (p : Parser) | missing (p : Parser) | invalid (p : Parser) | unrecognised (tok : Str)
  deriving DecidableEq, Repr

/-- The loop of `acquire` (300-338), with `consume` (140-143) and `create_processor` (149-158, 236-238). -/
def loop (cfg : Config) : List Str → List (Parser × Act) → Settings → Outcome × Settings
  | [], packs, s => (.accepted, packs.foldl (fun s pa => pa.2.process s) s)
  | [tok], packs, s =>
    match parserOf tok with
    | none => (.unrecognised tok, s)
    | some .help => (if packs.any (·.1 == .help) then .repeated .help else .help, s)
    | some p => (.missing p, s)
  | tok :: v :: rest, packs, s =>
    match parserOf tok with
    | none => (.unrecognised tok, s)
    | some .help => (if packs.any (·.1 == .help) then .repeated .help else .help, s)
    | some p =>
      match value cfg p v with
      | none => (.invalid p, s)
      | some a =>
        if packs.any (·.1 == p) then (.repeated p, s)
        else if p = .scheduler then loop cfg rest packs (a.process s)
        else loop cfg rest (insert p a packs) s

/-- `acquire` (295-339); the list is that of all arguments, with the name of the program; without it the precondition of the
stream fails (44), `none`. -/
def acquire (cfg : Config) : List Str → Settings → Option (Outcome × Settings)
  | [], _ => none
  | _ :: args, s => some (loop cfg args [] s)

end Verif.CommandLine
