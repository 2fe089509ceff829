/-!
# Model of `source/utility/binary_word.hpp`

A `BinaryWord` (a `std::vector<bool>`) is a `List Bool`.
-/
namespace Ariadne.BinaryWord

abbrev Word := List Bool

/-- Models `operator<` (binary_word.hpp:131-138): first differing bit decides, else the length.
The index loop is written as recursion on both words. -/
def lt : Word → Word → Bool
  | [], [] => false
  | [], _ :: _ => true
  | _ :: _, [] => false
  | a :: v, b :: w => if a != b then (!a && b) else lt v w

/-- Models `is_prefix` (binary_word.hpp:140-150): size test, then bitwise comparison. -/
def isPrefix (a b : Word) : Bool :=
  if a.length > b.length then false
  else (List.range a.length).all (fun i => a.getD i false == b.getD i false)

/-- The inner `while` loop of `is_subword` at offset `i` (binary_word.hpp:157-163). -/
def matchesAt (a b : Word) (i : Nat) : Bool :=
  (List.range a.length).all (fun j => a.getD j false == b.getD (i + j) false)

/-- Models `is_subword` (binary_word.hpp:152-166). -/
def isSubword (a b : Word) : Bool :=
  if a.length > b.length then false
  else (List.range (b.length - a.length + 1)).any (fun i => matchesAt a b i)

/-- Models `erase_prefix` (binary_word.hpp:123-129): erase the first bit at most `n` times.
The argument is an `int` in the code; a negative argument erases nothing, as here `0`. -/
def erasePrefix (w : Word) : Nat → Word
  | 0 => w
  | n+1 => match w with
    | [] => []
    | _ :: w => erasePrefix w n

/-- Models `append(BinaryWord)` (binary_word.hpp:172-176): push back bit by bit. -/
def append (a b : Word) : Word := b.foldl (fun acc x => acc ++ [x]) a

/-- Models `bytes` (binary_word.hpp:103) with 8 bits per byte. -/
def bytes (w : Word) : Nat := (w.length + 8 - 1) / 8

/-- Models `operator<<` (binary_word.hpp:221-231). -/
def print (w : Word) : List Char :=
  if w.isEmpty then ['e'] else w.map (fun b => if b then '1' else '0')

/-- The `while` loop of `operator>>` (binary_word.hpp:196-200): returns the bits and the rest. -/
def readBits : List Char → Word × List Char
  | [] => ([], [])
  | c :: cs => if c = '0' ∨ c = '1' then
      let (w, rest) := readBits cs
      ((c = '1') :: w, rest)
    else ([], c :: cs)

/-- Skipping of white space by `input_stream >> symbol`. -/
def skipWs : List Char → List Char
  | [] => []
  | c :: cs => if c.isWhitespace then skipWs cs else c :: cs

/-- Outcome of reading a word from a stream. -/
inductive Read where
  /-- word read and unread remainder of the stream -/
  | ok (w : Word) (rest : List Char)
  /-- empty stream: the code compares an uninitialised `char` -/
  | uninitialised
  /-- text starting with `[` is handed over to the `std::vector` reader, not modelled -/
  | vectorFormat
  deriving DecidableEq, Repr

/-- Models `operator>>` (binary_word.hpp:181-203) and `make_binary_word` (208-213). -/
def read (s : List Char) : Read :=
  match skipWs s with
  | [] => .uninitialised
  | c :: cs =>
    if c = '[' then .vectorFormat
    else let (w, rest) := readBits (c :: cs); .ok w rest

end Ariadne.BinaryWord
