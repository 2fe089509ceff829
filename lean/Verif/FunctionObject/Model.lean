import Mathlib.Data.Nat.Notation
import Mathlib.Algebra.Field.Defs

/-!
# Function objects

Model of the operations on functions in /repo/source/function/function.cpp and of the classes of
/repo/source/function/symbolic_function.hpp they build.

A `Function` is a handle on a constant node (`Handle<const Interface>`, function.hpp 255), copying a function
copies the pointer (function.hpp 263, 269; utility/handle.hpp 77-80), and the copy on write of a handle does
nothing for constant nodes (`_make_unique(SharedPointer<const II>&) { }`, utility/handle.hpp 109).  Since vector
functions can be changed (`Function::set`), vector functions are addresses in a heap of nodes here.  Scalar
functions are never changed, so that they are trees, whose leaves can be addresses of vector functions.

Simplifications: arguments and results are lists over a field, the value of a function at a point is `none` where
the code would read past the end of the argument or divide by zero; the elementary operators are those of
`UnOp` and `BinOp`; functions given by a formula (symbolic_function.hpp 112-164) are trees of operators; domains
are euclidean, hence given by their dimension; the operations on univariate functions, which are similar, are
left out.
-/

namespace Verif.FunctionObject

/-- Unary operators (`UnaryElementaryOperator`; only three of them). -/
inductive UnOp
  | pos | neg | sqr
  deriving DecidableEq, Repr

/-- Binary operators (`BinaryElementaryOperator`; without maximum and minimum). -/
inductive BinOp
  | add | sub | mul | div
  deriving DecidableEq, Repr

/-- Values of unary operators. -/
def UnOp.eval {K : Type} [Field K] : UnOp → K → K
  | .pos, x => x
  | .neg, x => -x
  | .sqr, x => x * x

/-- Values of binary operators; there is no quotient by zero. -/
def BinOp.eval {K : Type} [Field K] [DecidableEq K] : BinOp → K → K → Option K
  | .add, x, y => some (x + y)
  | .sub, x, y => some (x - y)
  | .mul, x, y => some (x * y)
  | .div, x, y => if y = 0 then none else some (x / y)

/-- Scalar functions: `ConstantFunction` (symbolic_function.hpp 236-270), `CoordinateFunction` (278-310),
`UnaryFunction` (315-345), `BinaryFunction` (358-398), and `ComposedFunction` (591-640) of a scalar function with a
vector function, which is a handle. -/
inductive SF (K : Type)
  | const (n : ℕ) (c : K)
  | coord (n i : ℕ)
  | un (op : UnOp) (f : SF K)
  | bin (op : BinOp) (f g : SF K)
  | comp (f : SF K) (g : ℕ)
  deriving DecidableEq, Repr

/-- Nodes of vector functions: `VectorOfScalarFunction` (symbolic_function.hpp 452-519), `ComposedFunction`
(591-640) of two vector functions and `JoinedFunction` (643-679). -/
inductive Node (K : Type)
  | vec (n : ℕ) (fs : List (SF K))
  | comp (f g : ℕ)
  | join (f g : ℕ)
  deriving DecidableEq, Repr

/-- The nodes of vector functions which have been created, in order of creation. -/
abbrev Heap (K : Type) := List (Node K)

variable {K : Type}

section Eval
variable [Field K] [DecidableEq K]

/-- Evaluation of a scalar function, given that of vector functions (symbolic_function.hpp 257-267, 299, 331-332,
378-379, 615-616). -/
def evalS (ev : ℕ → List K → Option (List K)) : SF K → List K → Option K
  | .const _ c, _ => some c
  | .coord _ i, x => x[i]?
  | .un op f, x => (evalS ev f x).map op.eval
  | .bin op f g, x => (evalS ev f x).bind fun u => (evalS ev g x).bind fun v => op.eval u v
  | .comp f g, x => (ev g x).bind fun y => evalS ev f y

/-- Evaluation of a vector function, following at most `t` handles (symbolic_function.hpp 490-494, 615-616,
670-671). -/
def evalV (h : Heap K) : ℕ → ℕ → List K → Option (List K)
  | 0, _, _ => none
  | t + 1, a, x =>
    match h[a]? with
    | none => none
    | some (.vec _ fs) => fs.mapM fun f => evalS (evalV h t) f x
    | some (.comp f g) => (evalV h t g x).bind fun y => evalV h t f y
    | some (.join f g) => (evalV h t f x).bind fun u => (evalV h t g x).map fun v => u ++ v

/-- The value of the vector function with handle `a`.  Nodes refer to older nodes unless components have been
assigned by the user, so that `a+1` handles are enough. -/
def value (h : Heap K) (a : ℕ) (x : List K) : Option (List K) := evalV h (a + 1) a x

/-- The value of a scalar function. -/
def valueS (h : Heap K) (s : SF K) (x : List K) : Option K := evalS (value h) s x

end Eval

/-- Argument sizes of vector functions (symbolic_function.hpp 480-481, 611, 669). -/
def argV (h : Heap K) : ℕ → ℕ → ℕ
  | 0, _ => 0
  | t + 1, a =>
    match h[a]? with
    | none => 0
    | some (.vec n _) => n
    | some (.comp _ g) => argV h t g
    | some (.join f _) => argV h t f

/-- `argument_size()` of a vector function. -/
def arg (h : Heap K) (a : ℕ) : ℕ := argV h (a + 1) a

/-- `argument_size()` of a scalar function (symbolic_function.hpp 253, 296, 328, 373-374, 611). -/
def argS (h : Heap K) : SF K → ℕ
  | .const n _ => n
  | .coord n _ => n
  | .un _ f => argS h f
  | .bin _ f _ => argS h f
  | .comp _ g => arg h g

/-- Result sizes of vector functions (symbolic_function.hpp 478-479, 612, 668). -/
def resV (h : Heap K) : ℕ → ℕ → ℕ
  | 0, _ => 0
  | t + 1, a =>
    match h[a]? with
    | none => 0
    | some (.vec _ fs) => fs.length
    | some (.comp f _) => resV h t f
    | some (.join f g) => resV h t f + resV h t g

/-- `result_size()` of a vector function. -/
def res (h : Heap K) (a : ℕ) : ℕ := resV h (a + 1) a

/-- Components of vector functions (symbolic_function.hpp 485-486, 613, 663-664). -/
def getV (h : Heap K) : ℕ → ℕ → ℕ → Option (SF K)
  | 0, _, _ => none
  | t + 1, a, i =>
    match h[a]? with
    | none => none
    | some (.vec _ fs) => fs[i]?
    | some (.comp f g) => (getV h t f i).map fun s => .comp s g
    | some (.join f g) => if i < resV h t f then getV h t f i else getV h t g (i - resV h t f)

/-- `Function::get` and `Function::operator[]` (function.cpp 384-394): `none` is the failure of the assertion. -/
def get (h : Heap K) (a i : ℕ) : Option (SF K) := if i < res h a then getV h (a + 1) a i else none

/-- `Function::set` (function.cpp 396-412), by which the components of `VectorFunctionElementReference` are
assigned too (function.hpp 559-562): the node is changed in place, whoever holds it.  It must be a vector of scalar
functions (401-405), and the assignment asserts that the domain stays the same (symbolic_function.hpp 443-447). -/
def set (h : Heap K) (a i : ℕ) (s : SF K) : Option (Heap K) :=
  match h[a]? with
  | some (.vec n fs) =>
    match fs[i]? with
    | some f => if argS h f = argS h s then some (List.set h a (.vec n (List.set fs i s))) else none
    | none => none
  | _ => none

/-- Copying a vector function (function.hpp 263, 269): the copy is a handle on the same node. -/
def copy (h : Heap K) (a : ℕ) : Heap K × ℕ := (h, a)

section Ops
variable [Field K]

/-- `Function(rs,dom)`, that is `FunctionConstructors::zeros` (function.cpp 105-106, 189-191). -/
def zeros (h : Heap K) (m n : ℕ) : Heap K × ℕ := (h ++ [.vec n (List.replicate m (.const n 0))], h.length)

/-- A sequence of assignments of components to the vector function `r`; the values are computed in turn. -/
def sets (r : ℕ) : List (ℕ × (Heap K → Option (SF K))) → Heap K → Option (Heap K)
  | [], h => some h
  | (p, gen) :: ps, h => (gen h).bind fun s => (set h r p s).bind fun h' => sets r ps h'

/-- A new vector function, to which components are assigned: the form of all the operations below. -/
def build (h : Heap K) (m n : ℕ) (ps : List (ℕ × (Heap K → Option (SF K)))) : Option (Heap K × ℕ) :=
  let (h0, r) := zeros h m n
  (sets r ps h0).map fun h' => (h', r)

/-- The constructor of `BinaryFunction` asserts that the argument sizes are equal (symbolic_function.hpp
369-370). -/
def mkBin (h : Heap K) (op : BinOp) (f g : SF K) : Option (SF K) :=
  if argS h f = argS h g then some (.bin op f g) else none

/-- The loop `for(i=0; i!=m; ++i) { r.set(i,gen(i)); }`. -/
def loop (m : ℕ) (gen : Heap K → ℕ → Option (SF K)) : List (ℕ × (Heap K → Option (SF K))) :=
  (List.range m).map fun i => (i, fun h => gen h i)

/-- `operator+`, `operator-` of one vector function (function.cpp 447-461). -/
def unV (op : UnOp) (h : Heap K) (a : ℕ) : Option (Heap K × ℕ) :=
  build h (res h a) (arg h a) (loop (res h a) fun h i => (get h a i).map fun s => .un op s)

/-- `operator+`, `operator-` of two vector functions (function.cpp 463-481). -/
def binVV (op : BinOp) (h : Heap K) (a b : ℕ) : Option (Heap K × ℕ) :=
  if res h a = res h b ∧ arg h a = arg h b then
    build h (res h a) (arg h a) (loop (res h a) fun h i =>
      (get h a i).bind fun s => (get h b i).bind fun u => mkBin h op s u)
  else none

/-- `operator*` of a scalar and a vector function (function.cpp 483-490). -/
def mulSV (h : Heap K) (s : SF K) (b : ℕ) : Option (Heap K × ℕ) :=
  if argS h s = arg h b then
    build h (res h b) (arg h b) (loop (res h b) fun h i => (get h b i).bind fun u => mkBin h .mul s u)
  else none

/-- `operator*` and `operator/` of a vector and a scalar function (function.cpp 492-508). -/
def binVS (op : BinOp) (h : Heap K) (a : ℕ) (s : SF K) : Option (Heap K × ℕ) :=
  if arg h a = argS h s then
    build h (res h a) (arg h a) (loop (res h a) fun h i => (get h a i).bind fun u => mkBin h op u s)
  else none

/-- `operator+`, `operator-` of a vector function and a vector of numbers (function.cpp 520-527, 538-545). -/
def binVC (op : BinOp) (h : Heap K) (a : ℕ) (c : List K) : Option (Heap K × ℕ) :=
  if res h a = c.length then
    build h (res h a) (arg h a) (loop (res h a) fun h i =>
      (get h a i).bind fun u => c[i]?.bind fun k => mkBin h op u (.const (argS h u) k))
  else none

/-- `operator*`, `operator/` of a vector function and a number (function.cpp 555-569). -/
def binVN (op : BinOp) (h : Heap K) (a : ℕ) (c : K) : Option (Heap K × ℕ) :=
  build h (res h a) (arg h a) (loop (res h a) fun h i =>
    (get h a i).bind fun u => mkBin h op u (.const (argS h u) c))

/-- `join` of two scalar functions (function.cpp 573-579, 967-973, 1007-1013; validated functions 913-916). -/
def joinSS (h : Heap K) (f g : SF K) : Option (Heap K × ℕ) :=
  if argS h f = argS h g then
    build h 2 (argS h f) [(0, fun _ => some f), (1, fun _ => some g)]
  else none

/-- `join` of a vector function and a scalar function (function.cpp 581-589, 975-983, 1015-1023; validated functions
879-882). -/
def joinVS (h : Heap K) (a : ℕ) (g : SF K) : Option (Heap K × ℕ) :=
  if arg h a = argS h g then
    build h (res h a + 1) (arg h a) (loop (res h a) (fun h i => get h a i) ++ [(res h a, fun _ => some g)])
  else none

/-- `join` of a scalar function and a vector function (function.cpp 591-599, 985-993, 1025-1033). -/
def joinSV (h : Heap K) (f : SF K) (b : ℕ) : Option (Heap K × ℕ) :=
  if argS h f = arg h b then
    build h (res h b + 1) (argS h f) ((0, fun _ => some f) ::
      (List.range (res h b)).map fun i => (i + 1, fun h => get h b i))
  else none

/-- `join` of two vector functions (function.cpp 601-611, 995-1005, 1035-1045). -/
def joinVV (h : Heap K) (a b : ℕ) : Option (Heap K × ℕ) :=
  if arg h a = arg h b then
    build h (res h a + res h b) (arg h a) (loop (res h a) (fun h i => get h a i) ++
      (List.range (res h b)).map fun i => (i + res h a, fun h => get h b i))
  else none

/-- `join` of a validated scalar function and a validated vector function which are not function patches
(function.cpp 896-899): the result and the loop have the size of the scalar function, which is one. -/
def vjoinSV (h : Heap K) (f : SF K) (b : ℕ) : Option (Heap K × ℕ) :=
  build h (1 + 1) (argS h f) ((0, fun _ => some f) ::
    (List.range 1).map fun i => (i + 1, fun h => get h b i))

/-- `join` of two validated vector functions which are not function patches (function.cpp 863-865). -/
def vjoinVV (h : Heap K) (a b : ℕ) : Option (Heap K × ℕ) :=
  if arg h a = arg h b then some (h ++ [.join a b], h.length) else none

/-- `operator+`, `operator-` of two validated vector functions which are not function patches (function.cpp 728-732,
746-750): the result sizes are not compared. -/
def vbinVV (op : BinOp) (h : Heap K) (a b : ℕ) : Option (Heap K × ℕ) :=
  build h (res h a) (arg h a) (loop (res h a) fun h i =>
    (get h a i).bind fun s => (get h b i).bind fun u => mkBin h op s u)

/-- `compose` of a scalar function with a vector function (function.cpp 353, 644-646; symbolic_function.hpp
607-608). -/
def composeSV (h : Heap K) (f : SF K) (b : ℕ) : Option (SF K) :=
  if argS h f = res h b then some (.comp f b) else none

/-- `compose` of vector functions (function.cpp 652-654; symbolic_function.hpp 607-608). -/
def composeVV (h : Heap K) (a b : ℕ) : Option (Heap K × ℕ) :=
  if arg h a = res h b then some (h ++ [.comp a b], h.length) else none

/-- `embed` of a function, given the numbers of new variables (function.cpp 614-622): the constructor of
`EmbeddedFunction` from sizes throws (symbolic_function.hpp 567-568; utility/macros.hpp 143-144). -/
def embed (_h : Heap K) (_n1 _a _n3 : ℕ) : Option (Heap K × ℕ) := none

end Ops

/-- How a validated function is represented: by a function patch or otherwise. -/
inductive Kind
  | patch | plain
  deriving DecidableEq, Repr

/-- What an operator of validated functions does. -/
inductive Call
  | patches      -- operation of function patches
  | symbolic     -- a new symbolic function
  | unfinished   -- no result after the given number of calls
  deriving DecidableEq, Repr

/-- `operator*` of a validated scalar function and a validated vector function (function.cpp 754-770), with at most
`t` nested calls: the products of lines 758, 760 and 762 are of functions, not of patches, hence calls of the same
operator, and the copies `ValidatedScalarMultivariateFunction(*f1ptr)` are of the same kind. -/
def vmulSV : ℕ → Kind → Kind → Call
  | 0, _, _ => .unfinished
  | t + 1, k1, k2 =>
    if k1 = .patch ∧ k2 = .patch then vmulSV t k1 k2
    else if k1 = .patch then vmulSV t k1 k2
    else if k2 = .patch then vmulSV t k1 k2
    else .symbolic

/-- `operator*` of a validated vector function and a validated scalar function (function.cpp 772-788). -/
def vmulVS : ℕ → Kind → Kind → Call
  | 0, _, _ => .unfinished
  | _ + 1, k1, k2 =>
    if k1 = .patch ∧ k2 = .patch then .patches
    else if k1 = .patch then .patches
    else if k2 = .patch then .patches
    else .symbolic

/-- A binary operator of a validated scalar function and a number (function.cpp 1114-1118): line 1116 applies the
operator to `f1` again, not to the patch. -/
def vapplySC : ℕ → Kind → Call
  | 0, _ => .unfinished
  | t + 1, k1 => if k1 = .patch then vapplySC t k1 else .symbolic

/-- A binary operator of a number and a validated scalar function (function.cpp 1120-1124). -/
def vapplyCS : ℕ → Kind → Call
  | 0, _ => .unfinished
  | _ + 1, k2 => if k2 = .patch then .patches else .symbolic

end Verif.FunctionObject
