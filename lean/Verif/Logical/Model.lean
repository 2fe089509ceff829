/-!
# Model of `source/numeric/logical.hpp` and `source/numeric/logical.cpp`

Five-valued logical values, lazily evaluated logical expressions checked with an `Effort`,
and nondeterministic choice.
-/

namespace Ariadne.Logical

/-- Models `enum class LogicalValue` (logical.hpp:73-79). -/
inductive LV where
  | false_ | unlikely | indeterminate | likely | true_
  deriving DecidableEq, Repr

namespace LV

/-- The enumerator codes `-2..2` (logical.hpp:73-79). -/
def code : LV → Int
  | false_ => -2 | unlikely => -1 | indeterminate => 0 | likely => 1 | true_ => 2

/-- Models `make_logical_value` (logical.hpp:80). -/
def ofBool (b : Bool) : LV := if b then true_ else false_

/-- Models `definitely(LogicalValue)` (logical.hpp:81). -/
def definitely (v : LV) : Bool := v == true_
/-- Models `probably(LogicalValue)` (logical.hpp:82). -/
def probably (v : LV) : Bool := decide (v.code ≥ likely.code)
/-- Models `decide(LogicalValue)` (logical.hpp:83). -/
def decide_ (v : LV) : Bool := decide (v.code ≥ likely.code)
/-- Models `possibly(LogicalValue)` (logical.hpp:84). -/
def possibly (v : LV) : Bool := v != false_
/-- Models `is_determinate(LogicalValue)` (logical.hpp:85). -/
def isDeterminate (v : LV) : Bool := v == true_ || v == false_
/-- Models `is_indeterminate(LogicalValue)` (logical.hpp:86). -/
def isIndeterminate (v : LV) : Bool := v == indeterminate || v == unlikely || v == likely

/-- Models `operator!(LogicalValue)`: negation of the enumerator code (logical.hpp:88). -/
def not_ : LV → LV
  | false_ => true_ | unlikely => likely | indeterminate => indeterminate
  | likely => unlikely | true_ => false_

/-- Models `operator&&(LogicalValue,LogicalValue)` = `std::min` (logical.hpp:89). -/
def and_ (a b : LV) : LV := if b.code < a.code then b else a
/-- Models `operator||(LogicalValue,LogicalValue)` = `std::max` (logical.hpp:90). -/
def or_ (a b : LV) : LV := if a.code < b.code then b else a

/-- Models `operator==(LogicalValue,LogicalValue)` (logical.cpp:131-146). -/
def eq_ (l1 l2 : LV) : LV :=
  match l1 with
  | true_ => l2
  | likely => match l2 with
    | true_ => likely
    | false_ => unlikely
    | _ => l2
  | indeterminate => indeterminate
  | unlikely => match l2 with
    | true_ => unlikely
    | false_ => likely
    | _ => not_ l2
  | false_ => not_ l2

/-- Models `operator^(LogicalValue,LogicalValue)` = `not (l1==l2)` (logical.hpp:91). -/
def xor_ (a b : LV) : LV := not_ (eq_ a b)

/-- The clamping done by the constructors of `ValidatedSierpinskian` (logical.hpp:478) and
`ValidatedLowerKleenean` (logical.hpp:519): `lv || UNLIKELY`. -/
def toLower (v : LV) : LV := or_ v unlikely
/-- The clamping done by the constructors of `ValidatedNegatedSierpinskian` (logical.hpp:490) and
`ValidatedUpperKleenean` (logical.hpp:534): `lv && LIKELY`. -/
def toUpper (v : LV) : LV := and_ v likely
/-- The clamping done by the constructor of `ApproximateKleenean` (logical.hpp:551). -/
def toApprox (v : LV) : LV := or_ (and_ v likely) unlikely

end LV

open LV

/-- Lazily evaluated logical expressions: `LogicalHandle`s built from constants, opaque objects
(`LogicalInterface` implementations such as comparisons of reals, named by `ι`), the connectives
(logical.cpp:79-129), and infinite disjunctions/conjunctions (logical.cpp:161-197). -/
inductive Expr (ι : Type) where
  | const (v : LV)
  | atom (i : ι)
  | not (e : Expr ι)
  | and (e₁ e₂ : Expr ι)
  | or (e₁ e₂ : Expr ι)
  | eq (e₁ e₂ : Expr ι)
  | xor (e₁ e₂ : Expr ι)
  | seqOr (es : Nat → Expr ι)
  | seqAnd (es : Nat → Expr ι)

/-- The loop `for(k=0; k!=n; ++k) if(found k) return true; return false`
(logical.cpp:167-170 and 185-188). -/
def scan (found : Nat → Bool) : Nat → Bool
  | 0 => false
  | n+1 => scan found n || found n

/-- Models `check(Effort)`: logical.cpp:42-56 for symbolic nodes, logical.cpp:166-171 and 184-189
for sequences (whose members are checked as `LowerKleenean`/`UpperKleenean`, i.e. clamped). -/
def Expr.check {ι : Type} (leaf : ι → Nat → LV) : Expr ι → Nat → LV
  | const v, _ => v
  | atom i, eff => leaf i eff
  | not e, eff => not_ (e.check leaf eff)
  | and a b, eff => and_ (a.check leaf eff) (b.check leaf eff)
  | or a b, eff => or_ (a.check leaf eff) (b.check leaf eff)
  | eq a b, eff => eq_ (a.check leaf eff) (b.check leaf eff)
  | xor a b, eff => xor_ (a.check leaf eff) (b.check leaf eff)
  | seqOr es, eff =>
      if scan (fun k => definitely (toLower ((es k).check leaf eff))) eff then true_ else indeterminate
  | seqAnd es, eff =>
      if scan (fun k => definitely (toLower (not_ (toUpper ((es k).check leaf eff))))) eff
      then false_ else indeterminate

/-- Models the `for` loop of `nondeterministic_choose_index` at one effort (logical.cpp:251-253):
first index whose condition, checked as a `LowerKleenean`, is definitely true. -/
def chooseAt (ps : List (Nat → LV)) (eff : Nat) (i : Nat) : Option Nat :=
  match ps with
  | [] => none
  | p :: ps => if definitely (toLower (p eff)) then some i else chooseAt ps eff (i+1)

/-- Models the `while(true)` loop of `nondeterministic_choose_index` (logical.cpp:248-257).
The loop in the code is unbounded; `fuel` bounds the number of rounds, `none` = not yet returned. -/
def chooseIndex (ps : List (Nat → LV)) : (fuel : Nat) → (eff : Nat) → Option Nat
  | 0, _ => none
  | fuel+1, eff => match chooseAt ps eff 0 with
    | some i => some i
    | none => chooseIndex ps fuel (eff+1)

/-- Models `NondeterministicBoolean::_choose` (logical.cpp:211-218). -/
def chooseBool (p1 p2 : Nat → LV) : (fuel : Nat) → (eff : Nat) → Option Bool
  | 0, _ => none
  | fuel+1, eff =>
    if definitely (toLower (p1 eff)) then some true
    else if definitely (toLower (p2 eff)) then some false
    else chooseBool p1 p2 fuel (eff+1)

/-- Models `Sierpinskian const& operator||(Sierpinskian const& l1, Boolean const&)`
(logical.hpp:300): returns the first argument. -/
def sierpinskianOrBoolean {ι : Type} (s : Expr ι) (_b : Bool) : Expr ι := s
/-- Models `Sierpinskian const& operator||(Boolean const&, Sierpinskian const& l2)`
(logical.hpp:301): returns the second argument. -/
def booleanOrSierpinskian {ι : Type} (_b : Bool) (s : Expr ι) : Expr ι := s
/-- Models `NegatedSierpinskian const& operator&&(NegatedSierpinskian const& l1, Boolean const&)`
(logical.hpp:330): returns the first argument. -/
def negatedSierpinskianAndBoolean {ι : Type} (s : Expr ι) (_b : Bool) : Expr ι := s
/-- Models `operator&&(Boolean const&, NegatedSierpinskian const&)` (logical.hpp:331). -/
def booleanAndNegatedSierpinskian {ι : Type} (_b : Bool) (s : Expr ι) : Expr ι := s

/-- `Sierpinskian::check` (logical.hpp:569-570): clamps the value of the handle. -/
def checkSierpinskian {ι : Type} (leaf : ι → Nat → LV) (e : Expr ι) (eff : Nat) : LV :=
  toLower (e.check leaf eff)
/-- `NegatedSierpinskian::check` (logical.hpp:571-572). -/
def checkNegatedSierpinskian {ι : Type} (leaf : ι → Nat → LV) (e : Expr ι) (eff : Nat) : LV :=
  toUpper (e.check leaf eff)
/-- `Kleenean(Sierpinskian s)` keeps the handle (logical.hpp:347) and `Kleenean::check` does not
clamp (logical.hpp:573-574). -/
def checkKleenean {ι : Type} (leaf : ι → Nat → LV) (e : Expr ι) (eff : Nat) : LV :=
  e.check leaf eff

end Ariadne.Logical
