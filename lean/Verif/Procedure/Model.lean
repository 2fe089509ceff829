import Verif.Symbolic.Model

/-!
# Formulae and procedures

Model of `source/function/formula.tpl.hpp`, `source/function/formula.cpp` (formulae),
`source/function/procedure.hpp`, `procedure.tpl.hpp` and `procedure.cpp` (procedures).  A formula is
a directed acyclic graph of immutable nodes, here a tree whose nodes carry their address; nodes with
the same address are the same node (`Formula.Coherent` below).

Simplifications: an argument vector is a function of the index, so that reading beyond its end is not
modelled.  Reading beyond the end of a list of constants or temporaries is `none`.
-/

namespace Verif.Procedure

open Ariadne.Symbolic (UnOp BinOp)

/-- `FormulaNode`, `formula.tpl.hpp` lines 30-61, with the address of the node. -/
inductive Formula (Y : Type*)
  | const (p : ℕ) (c : Y)
  | ind (p : ℕ) (i : ℕ)
  | un (p : ℕ) (op : UnOp) (a : Formula Y)
  | bin (p : ℕ) (op : BinOp) (a b : Formula Y)
  | graded (p : ℕ) (a : Formula Y) (n : ℤ)
  | scalar (p : ℕ) (op : BinOp) (c : Y) (a : Formula Y)

/-- The operations of an algebra `X` over constants `Y` used by evaluation: `make_constant`
(`formula.hpp`), the operators (`source/numeric/operators.hpp` lines 263-420), the mixed binary
operators `op(y,x)` and the zero element. -/
structure Alg (Y X : Type*) where
  cst : Y → X
  un : UnOp → X → X
  bin : BinOp → X → X → X
  pow : X → ℤ → X
  mix : BinOp → Y → X → X
  zero : X

namespace Formula

variable {Y X : Type*}

/-- `node_ptr`, `formula.hpp`. -/
def addr : Formula Y → ℕ
  | const p _ => p
  | ind p _ => p
  | un p _ _ => p
  | bin p _ _ _ => p
  | graded p _ _ => p
  | scalar p _ _ _ => p

/-- All nodes of a formula. -/
def nodes : Formula Y → Set (Formula Y)
  | const p c => {const p c}
  | ind p i => {ind p i}
  | un p op a => insert (un p op a) a.nodes
  | bin p op a b => insert (bin p op a b) (a.nodes ∪ b.nodes)
  | graded p a n => insert (graded p a n) a.nodes
  | scalar p op c a => insert (scalar p op c a) a.nodes

/-- `direct_evaluate`, `formula.tpl.hpp` lines 94-107 and 132-134. -/
def eval (A : Alg Y X) (x : ℕ → X) : Formula Y → X
  | const _ c => A.cst c
  | ind _ i => x i
  | un _ op a => A.un op (a.eval A x)
  | bin _ op a b => A.bin op (a.eval A x) (b.eval A x)
  | graded _ a n => A.pow (a.eval A x) n
  | scalar _ op c a => A.bin op (A.cst c) (a.eval A x)

/-- `_cached_evaluate` of a node, `formula.tpl.hpp` lines 109-124: the arguments are evaluated by
`cached_evaluate(f,v)` (144-147), with a new cache, so only the result for the node itself would be
shared. -/
def evalNode (A : Alg Y X) (x : ℕ → X) (f : Formula Y) : X := f.eval A x

/-- `cached_evaluate(f,x,cache)`, `formula.tpl.hpp` lines 138-142. -/
def cachedEval (A : Alg Y X) (x : ℕ → X) (f : Formula Y) (cache : List (ℕ × X)) :
    X × List (ℕ × X) :=
  match cache.lookup f.addr with
  | some r => (r, cache)
  | none => (evalNode A x f, (f.addr, evalNode A x f) :: cache)

/-- `cached_evaluate(Vector<Formula>,v)`, `formula.tpl.hpp` lines 149-157. -/
def cachedEvalList (A : Alg Y X) (x : ℕ → X) : List (Formula Y) → List (ℕ × X) → List X
  | [], _ => []
  | f :: fs, cache =>
    (cachedEval A x f cache).1 :: cachedEvalList A x fs (cachedEval A x f cache).2

/-- No `ScalarFormulaNode`.  The operators on formulae (`formula.hpp`, `AlgebraOperations`) never
build one; `Formula::scalar` does. -/
def NoScalar : Formula Y → Prop
  | const _ _ => True
  | ind _ _ => True
  | un _ _ a => a.NoScalar
  | bin _ _ a b => a.NoScalar ∧ b.NoScalar
  | graded _ a _ => a.NoScalar
  | scalar _ _ _ _ => False

end Formula

/-- `ProcedureInstruction`, `procedure.hpp` lines 60-72. -/
inductive Instr
  | const (k : ℕ)
  | ind (i : ℕ)
  | un (op : UnOp) (a : ℕ)
  | bin (op : BinOp) (a b : ℕ)
  | graded (a : ℕ) (n : ℤ)
  | scalar (op : BinOp) (k a : ℕ)
  deriving DecidableEq

/-- The state of `_convert`: the instructions, the constants and the cache of addresses. -/
structure Code (Y : Type*) where
  p : List Instr
  c : List Y
  cache : List (ℕ × ℕ)

/-- Appending an instruction for the node with address `a` and caching its position,
`procedure.tpl.hpp` lines 80-83. -/
def Code.push {Y : Type*} (a : ℕ) (i : Instr) (s : Code Y) : ℕ × Code Y :=
  (s.p.length, ⟨s.p ++ [i], s.c, (a, s.p.length) :: s.cache⟩)

/-- `_convert`, `procedure.tpl.hpp` lines 57-84.  The arguments of the call on line 67 (and 71) may
be evaluated in either order: `rf` for right to left.  A scalar node (line 71) becomes a *binary*
instruction, since `ProcedureInstruction(BinaryElementaryOperator,SizeType,SizeType)`
(`procedure.hpp` lines 81-82) makes one; the constant index is read before or after the argument is
converted. -/
def convert {Y : Type*} (rf : Bool) : Formula Y → Code Y → ℕ × Code Y
  | .const p c, s =>
    match s.cache.lookup p with
    | some k => (k, s)
    | none => Code.push p (.const s.c.length) ⟨s.p, s.c ++ [c], s.cache⟩
  | .ind p i, s =>
    match s.cache.lookup p with
    | some k => (k, s)
    | none => Code.push p (.ind i) s
  | .un p op a, s =>
    match s.cache.lookup p with
    | some k => (k, s)
    | none =>
      let r := convert rf a s
      Code.push p (.un op r.1) r.2
  | .bin p op a b, s =>
    match s.cache.lookup p with
    | some k => (k, s)
    | none =>
      if rf then
        let r2 := convert rf b s
        let r1 := convert rf a r2.2
        Code.push p (.bin op r1.1 r2.1) r1.2
      else
        let r1 := convert rf a s
        let r2 := convert rf b r1.2
        Code.push p (.bin op r1.1 r2.1) r2.2
  | .graded p a n, s =>
    match s.cache.lookup p with
    | some k => (k, s)
    | none =>
      let r := convert rf a s
      Code.push p (.graded r.1 n) r.2
  | .scalar p op c a, s =>
    match s.cache.lookup p with
    | some k => (k, s)
    | none =>
      let s1 : Code Y := ⟨s.p, s.c ++ [c], s.cache⟩
      let r := convert rf a s1
      Code.push p (.bin op (if rf then r.2.c.length - 1 else s1.c.length - 1) r.1) r.2

/-- `Procedure`, `procedure.hpp` lines 125-127, without the number of arguments. -/
structure Proc (Y : Type*) where
  c : List Y
  p : List Instr

/-- `Procedure(as,f)`, `procedure.tpl.hpp` lines 121-126. -/
def compile {Y : Type*} (rf : Bool) (f : Formula Y) : Proc Y :=
  let s := (convert rf f ⟨[], [], []⟩).2
  ⟨s.c, s.p⟩

/-- The loop on lines 166-168 of `procedure.tpl.hpp`. -/
def convertList {Y : Type*} (rf : Bool) : List (Formula Y) → Code Y → Code Y
  | [], s => s
  | f :: fs, s => convertList rf fs (convert rf f s).2

/-- `Vector<Procedure>(as,f)`, `procedure.tpl.hpp` lines 161-174: the procedure and the positions of
the results; `ind[...]` of a missing key (which does not occur) is `0`. -/
def compileList {Y : Type*} (rf : Bool) (fs : List (Formula Y)) : Proc Y × List ℕ :=
  let s := convertList rf fs ⟨[], [], []⟩
  (⟨s.c, s.p⟩, fs.map (fun f => (s.cache.lookup f.addr).getD 0))

section Exec

variable {Y X : Type*} (A : Alg Y X)

/-- `_execute_impl`, `procedure.tpl.hpp` lines 213-231. -/
def execInstr (c : List Y) (x : ℕ → X) (v : List X) : Instr → Option X
  | .const k => (c[k]?).map A.cst
  | .ind i => some (x i)
  | .un op a => (v[a]?).map (A.un op)
  | .bin op a b => (v[a]?).bind fun y => (v[b]?).map fun z => A.bin op y z
  | .graded a n => (v[a]?).map fun y => A.pow y n
  | .scalar op k a => (c[k]?).bind fun y => (v[a]?).map fun z => A.mix op y z

/-- The loop of `_execute`, `procedure.tpl.hpp` lines 236-241, from position `r`. -/
def execFrom (c : List Y) (x : ℕ → X) : List Instr → ℕ → List X → Option (List X)
  | [], _, v => some v
  | i :: p, r, v => (execInstr A c x v i).bind fun y => execFrom c x p (r + 1) (v.set r y)

/-- `_execute` on a list of temporaries of the right size filled with zeros (`procedure.hpp` lines
178-179). -/
def exec (P : Proc Y) (x : ℕ → X) : Option (List X) :=
  execFrom A P.c x P.p 0 (List.replicate P.p.length A.zero)

/-- `evaluate(Procedure,x)`, `procedure.hpp` lines 177-181; `back()` of an empty list is `none`. -/
def evaluate (P : Proc Y) (x : ℕ → X) : Option X := (exec A P x).bind (·.getLast?)

/-- The loop on line 188 of `procedure.hpp`: `r[i]=std::move(t[results[i]])`.  `moved s d` is the
value left in the source after it has been moved to an object with value `d`: the source itself for
double-precision numbers, but `d` where moving is done by swapping
(`source/numeric/floatmp.cpp` lines 183-186).  The results are created with the value `init`. -/
def moveResults (moved : X → X → X) (init : X) : List ℕ → List X → Option (List X)
  | [], _ => some []
  | k :: ks, t =>
    (t[k]?).bind fun y => (moveResults moved init ks (t.set k (moved y init))).map (y :: ·)

/-- `evaluate(Vector<Procedure>,x)`, `procedure.hpp` lines 184-190. -/
def evaluateList (moved : X → X → X) (init : X) (P : Proc Y) (res : List ℕ) (x : ℕ → X) :
    Option (List X) :=
  (exec A P x).bind fun t => moveResults moved init res t

end Exec

/-! ## Gradient -/

/-- The arithmetic on values used by the reverse sweep: sums, differences, products and quotients of
values, and the operators; `ofInt` makes an integer constant. -/
structure GAlg (Y X : Type*) extends Alg Y X where
  ofInt : ℤ → X

section Gradient

variable {Y X : Type*} (A : GAlg Y X)

/-- `op.derivative(a,d)` for unary operators, `operators.hpp` lines 313-402. -/
def unDerivative (op : UnOp) (a d : X) : X :=
  let one := A.ofInt 1
  let two := A.ofInt 2
  match op with
  | .nul => A.un .nul d
  | .pos => d
  | .neg => A.un .neg d
  | .hlf => A.un .hlf d
  | .recip => A.bin .div d (A.un .neg (A.un .sqr a))
  | .sqr => A.bin .mul (A.bin .mul two a) d
  | .sqrt => A.bin .div d (A.bin .mul two (A.un .sqrt a))
  | .exp => A.bin .mul (A.un .exp a) d
  | .log => A.bin .div d a
  | .sin => A.bin .mul (A.un .cos a) d
  | .cos => A.bin .mul (A.un .neg (A.un .sin a)) d
  | .tan => A.bin .mul (A.un .recip (A.un .sqr (A.un .cos a))) d
  | .asin => A.bin .mul (A.un .recip (A.bin .sub one (A.un .sqrt a))) d
  | .acos => A.bin .mul (A.un .recip (A.bin .sub one (A.un .sqrt a))) d
  | .atan => A.bin .mul (A.un .recip (A.bin .add one (A.un .sqr a))) d
  | .abs => d

/-- `dv[k]+=d`, or `dv[k]-=d`. -/
def addAt (op : BinOp) (k : ℕ) (d : X) (dv : List X) : List X := dv.modify k (fun y => A.bin op y d)

/-- `_back_gradient_impl`, `procedure.tpl.hpp` lines 329-373, for the instruction at position `r`;
`none` is `assert(false)` (lines 333-334, 340-341 and 344) or a read beyond the end of a list.
The gradient `g` is a function of the index. -/
def backInstr (c : List Y) (v : List X) (r : ℕ) (st : List X × (ℕ → X)) :
    Instr → Option (List X × (ℕ → X))
  | .const _ => some st
  | .ind i => (st.1[r]?).map fun dr => (st.1, Function.update st.2 i (A.bin .add (st.2 i) dr))
  | .un .abs _ => none
  | .un op a => (st.1[r]?).bind fun dr => (v[a]?).map fun y =>
      (addAt A .add a (unDerivative A op y dr) st.1, st.2)
  | .bin op a b => (st.1[r]?).bind fun dr => (v[a]?).bind fun y => (v[b]?).bind fun z =>
      match op with
      | .add => some (addAt A .add b dr (addAt A .add a dr st.1), st.2)
      | .sub => some (addAt A .sub b dr (addAt A .add a dr st.1), st.2)
      | .mul => some (addAt A .add b (A.bin .mul y dr) (addAt A .add a (A.bin .mul dr z) st.1), st.2)
      | .div => some (addAt A .sub b (A.bin .mul (A.bin .div dr z) (A.bin .div y z))
          (addAt A .add a (A.bin .div dr z) st.1), st.2)
      | .max => none
      | .min => none
  | .graded a n => (st.1[r]?).bind fun dr => (v[a]?).map fun y =>
      (addAt A .add a (A.bin .mul (A.bin .mul (A.ofInt n) (A.pow y (n - 1))) dr) st.1, st.2)
  | .scalar op k a => (st.1[r]?).bind fun dr => (c[k]?).bind fun y => (v[a]?).bind fun z =>
      match op with
      | .add => some (addAt A .add a dr st.1, st.2)
      | .sub => some (addAt A .sub a dr st.1, st.2)
      | .mul => some (addAt A .add a (A.mix .mul y dr) st.1, st.2)
      | .div => some (addAt A .sub a (A.bin .mul (A.bin .div dr z) (A.mix .div y z)) st.1, st.2)
      | .max => none
      | .min => none

/-- The loop on lines 390-393 of `procedure.tpl.hpp`: `r` more instructions. -/
def backLoop (c : List Y) (p : List Instr) (v : List X) : ℕ → List X × (ℕ → X) →
    Option (List X × (ℕ → X))
  | 0, st => some st
  | r + 1, st => (p[r]?).bind fun i => (backInstr A c v r st i).bind fun st => backLoop c p v r st

/-- `gradient(Procedure,x)`, `procedure.tpl.hpp` lines 377-395; `dv[r-1]` of an empty procedure is
`none`. -/
def gradient (P : Proc Y) (x : ℕ → X) : Option (ℕ → X) :=
  if P.p.length = 0 then none
  else (exec A.toAlg P x).bind fun v =>
    (backLoop A P.c P.p v P.p.length
      ((List.replicate P.p.length A.zero).set (P.p.length - 1) (A.ofInt 1), fun _ => A.zero)).map
      Prod.snd

end Gradient

/-! ## Back-propagation of intervals -/

/-- Intervals: the operators, the constant `inf` bounds are hidden in the operations; `restrict` is
`procedure.cpp` lines 59-63. -/
structure IAlg (Y X : Type*) extends Alg Y X where
  restrict : X → X → X
  divInt : X → ℤ → X
  mixR : BinOp → X → Y → X

section Backpropagate

variable {Y X : Type*} (A : IAlg Y X)

/-- `backpropagate(r,op,a)` for unary operators, `procedure.tpl.hpp` lines 265-279: the new value of
`a`.  There is no overload for `Nul`, `Hlf` and `Abs`, so that the call on line 287 converts the
operator back to `UnaryElementaryOperator` and recurs for ever: `none`. -/
def backUn (r : X) : UnOp → X → Option X
  | .nul, _ => none
  | .hlf, _ => none
  | .abs, _ => none
  | .pos, a => some (A.restrict a r)
  | .neg, a => some (A.restrict a (A.un .neg r))
  | .recip, a => some (A.restrict a (A.un .recip r))
  | .sqr, a => some (A.restrict a (A.un .sqrt r))
  | .sqrt, a => some (A.restrict a (A.un .sqr r))
  | .exp, a => some (A.restrict a (A.un .log r))
  | .log, a => some (A.restrict a (A.un .exp r))
  | .sin, a => some (A.restrict a (A.un .asin r))
  | .cos, a => some (A.restrict a (A.un .acos r))
  | .tan, a => some (A.restrict a (A.un .atan r))
  | .asin, a => some (A.restrict a (A.un .sin r))
  | .acos, a => some (A.restrict a (A.un .cos r))
  | .atan, a => some (A.restrict a (A.un .tan r))

/-- The interval to which the first argument is restricted, `procedure.tpl.hpp` lines 244-249. -/
def backBin1 (r : X) : BinOp → X → X
  | .add, a2 => A.bin .sub r a2
  | .sub, a2 => A.bin .add a2 r
  | .mul, a2 => A.bin .div r a2
  | .div, a2 => A.bin .mul a2 r
  | .max, a2 => A.bin .max r a2
  | .min, a2 => A.bin .min r a2

/-- The interval to which the second argument is restricted, lines 244-249. -/
def backBin2 (r : X) : BinOp → X → X
  | .add, a1 => A.bin .sub r a1
  | .sub, a1 => A.bin .sub a1 r
  | .mul, a1 => A.bin .div r a1
  | .div, a1 => A.bin .div a1 r
  | .max, a1 => A.bin .max r a1
  | .min, a1 => A.bin .min r a1

/-- The interval to which the argument is restricted when the first operand is a constant, lines
251-256. -/
def backScalar (r : X) : BinOp → Y → X
  | .add, c => A.mixR .sub r c
  | .sub, c => A.mix .sub c r
  | .mul, c => A.mixR .div r c
  | .div, c => A.mix .div c r
  | .max, c => A.mixR .max r c
  | .min, c => A.mixR .min r c

/-- `_backpropagate` for the instruction at position `r`, `procedure.tpl.hpp` lines 297-308.  The
restriction of the second argument (lines 244-249) reads the restricted first argument, which is the
same object when both arguments are the same temporary. -/
def backpropInstr (c : List Y) (r : ℕ) (st : (ℕ → X) × List X) : Instr → Option ((ℕ → X) × List X)
  | .const _ => some st
  | .ind i => (st.2[r]?).map fun y => (Function.update st.1 i (A.restrict (st.1 i) y), st.2)
  | .un op a => (st.2[r]?).bind fun y => (st.2[a]?).bind fun z =>
      (backUn A y op z).map fun w => (st.1, st.2.set a w)
  | .bin op a b => (st.2[r]?).bind fun y => (st.2[a]?).bind fun z1 => (st.2[b]?).bind fun z2 =>
      let v1 := st.2.set a (A.restrict z1 (backBin1 A y op z2))
      (v1[a]?).bind fun w1 => (v1[b]?).map fun w2 =>
        (st.1, v1.set b (A.restrict w2 (backBin2 A y op w1)))
  | .graded a n => (st.2[r]?).bind fun y => (st.2[a]?).map fun z =>
      (st.1, st.2.set a (A.restrict z (A.un .exp (A.divInt (A.un .log y) n))))
  | .scalar op k a => (st.2[r]?).bind fun y => (c[k]?).bind fun d => (st.2[a]?).map fun z =>
      (st.1, st.2.set a (A.restrict z (backScalar A y op d)))

/-- The loop of `_backpropagate`, `procedure.tpl.hpp` lines 313-323. -/
def backpropLoop (c : List Y) (p : List Instr) : ℕ → (ℕ → X) × List X → Option ((ℕ → X) × List X)
  | 0, st => some st
  | r + 1, st => (p[r]?).bind fun i => (backpropInstr A c r st i).bind fun st =>
      backpropLoop c p r st

/-- Restricting the results, `procedure.cpp` lines 84-86. -/
def restrictResults : List ℕ → List X → List X → List X
  | k :: ks, y :: ys, t => restrictResults ks ys (t.modify k (fun z => A.restrict z y))
  | _, _, t => t

/-- `simple_hull_reduce`, `procedure.cpp` lines 65-73 (with `res` the last position) and 75-88: the
new box. -/
def hullReduce (P : Proc Y) (res : List ℕ) (dom : ℕ → X) (codom : List X) : Option (ℕ → X) :=
  (exec A.toAlg P dom).bind fun t =>
    (backpropLoop A P.c P.p P.p.length (dom, restrictResults A res codom t)).map Prod.fst

end Backpropagate

end Verif.Procedure
