# Formal model of Ariadne in Lean 4 — design

## Method

* The code in `/repo` is read as text.  Each C++ function that matters for a property is
  re-expressed as a small total Lean function, carrying a comment with the file and lines it models.
* Loops become folds or structural recursion.  C++ undefined behaviour and thrown exceptions /
  failed assertions are modelled as `none`/`Except.error` outcomes, not as default values.
* Specifications live apart from the model's helpers: a theorem relates the model's result to
  mathematical objects (real or rational points, sets of points, finite maps, classical Booleans,
  `HasDerivAt`, permutations, ...), not to other model functions.
* Model files: `lean/Verif/<Area>/Model.lean` (or `<Area>.lean`), property theorems: files called
  `Props*.lean`.  Beside each theorem an `example` exhibits a non-trivial instance of its hypotheses.
* Where the code contradicts the property, the negation is proved with a concrete witness
  (`*_counterexample`/`*_unsound` theorems) and the largest true part is proved with the suffix `_partial`.

## Numbers and rounding

Floating-point values are modelled as elements of a linearly ordered field `K` together with
rounding operators `down`, `up`, `near : K -> K`; the laws assumed of them (`Rounding`) are proved
for a concrete executable instance: rational numbers rounded to `p` significant bits (`p >= 1`)
with unbounded exponent.  This is MPFR's semantics without exponent overflow (`FloatMP`) and IEEE
double semantics (`p = 53`) away from overflow/underflow (`FloatDP`).  Infinities are modelled
explicitly where the code produces them (division by an interval containing zero, empty intervals).

## Trusted base

* Lean 4 kernel; axioms used: at most `propext`, `Classical.choice`, `Quot.sound`.
* The reading of the C++ by the author of the model (overload resolution, templates, aliasing).
* GMP/MPFR/hardware floating point: assumed to implement exact arithmetic / correct rounding.
* Not modelled: memory management, threads, logging, graphics, Python bindings, text parsing other
  than where stated, numerical tuning constants.

## Plan per property
* **C01** (Three-valued connectives never give a definite wrong answer): `LogicalValue` as an inductive type, connectives as in logical.cpp; spec `Describes v b`.
* **C02** (Checking a logical expression at any effort is sound): Expression trees with effort-indexed leaves; induction on trees; sequence loops by induction on effort.
* **C03** (Nondeterministic choice only picks cases whose condition is definitely true): Search loop over effort as bounded-fuel recursion with completeness for large fuel.
* **C04** (Mixing a semidecidable proposition with a Boolean keeps the Boolean's information): Direct model of the overloads; the `Sierpinskian || Boolean` overload drops its Boolean: negation + partial.
* **C05** (Bounds arithmetic encloses exact arithmetic): `Bounds` over a rounding structure; inclusion theorems by sign cases. The unused-in-operators `_add(F,Bounds)` and `PositiveBounds` min are wrong: negation + partial.
* **C06** (Bounds division and reciprocal enclose the exact quotient or give the whole line): Endpoints extended by +-inf; inclusion theorem and whole-line theorem.
* **C07** (Comparisons of Bounds are sound and as decisive as the data allow): Kleenean results related to all points.
* **C08** (Refinement, coarsening and value/error of Bounds): Set-theoretic statements about members of bounds/balls.
* **C09** (Ball arithmetic encloses exact arithmetic): Balls over the same rounding structure.
* **C10** (Decimal arithmetic is exact and its comparisons decide the order of the represented numbers): Decimals as (Int, Nat) pairs with value in ℚ.
* **C11** (Decimal text round-trip): Printer and parser over `List Char`; induction over digits.
* **C12** (Dyadic representation and printing): Dyadics as (Int, Nat); writers as fuelled loops with termination theorem; `Dyadic(mpf_t)` and scientific writer of 0 are wrong.
* **C13** (LRU cache returns what was stored and evicts the least recently used entry): State = association list with ages; invariant: ages are a permutation of 0..n-1 ordered by recency; refinement to a recency list.
* **C14** (Binary words: order and prefix relations): Words as `List Bool`.
* **C15** (Binary tree operations implement set algebra on marked regions): Inductive trees; denotation = set of infinite bit streams.
* **C16** (Mincing and recombining a tree never change the set): As C15.
* **C17** (Tree serialisation round-trip and counting): Serialiser/deserialiser on trees; enumeration of leaves.
* **C18** (Grid cell addresses denote boxes consistently): Cells as (extent, word); boxes with rational/integer lattice coordinates.
* **C19** (Paving updates: adjoin, restrict, remove): Paving = (extent, tree); set of points of the lattice space.
* **C20** (Paving queries): As C19.
* **C21** (Outer and inner approximations of sets by pavings): Recursive approximation with three-valued predicates, soundness by induction on depth.
* **C22** (Monomial orders): Multi-indices as `List Nat`/functions.
* **C23** (Polynomial expansions behave as finite maps from exponents to coefficients): Expansions as lists of (index, coefficient); denotation `Finsupp`/evaluation at points.
* **C24** (Taylor model addition, subtraction and scalar operations are validated): Taylor models over rounding structure; enclosure `|f s - p(s)| <= e` on the unit box. `add_err/mul_err` with inexact scalar are unsound: negation at 53-bit precision + partial.
* **C25** (Taylor model multiplication is validated): As C24; `fma_err` double rounding is unsound: negation + partial with single rounding.
* **C26** (Sweeping (simplifying) a Taylor model never loses enclosed functions): Float sweeper proved; Bounds/interval coefficient sweeper drops the error (`te+mag(..)`): negation.
* **C27** (Range, norm and bounds of Taylor models contain all values): Interval evaluation of the quadratic-grouped range.
* **C28** (Refinement relations of Taylor models): `refines` and `inconsistent` proved; `refinement` is unsound: negation.
* **C29** (Structural Taylor model operations are validated): Polynomial identities plus error accounting.
* **C30** (Interval predicates decide the set relations they name): Intervals over a linear order; `equal` is wrong (tests `<=` on lower bounds): negation.
* **C31** (Unions of intervals): Merge loops on sorted lists; `_intersection` advances the wrong iterator: negation + partial.
* **C32** (Compiling a formula to a procedure preserves its value): Formula DAG as node table with sharing; compiler with cache; execution semantics.
* **C33** (Reverse-mode gradient of a procedure is the derivative): Reverse sweep invariant relating adjoints to derivatives.
* **C34** (The hull contractor never removes a solution): Interval back-propagation per operator; unsound operators (sqr, pow, max, min, sin, cos, tan) get negations, the rest a partial theorem.
* **C35** (Symbolic simplification preserves meaning): Expression trees with partial real semantics; `sqrt(sqr x) -> x`, `atan(tan x) -> x` are wrong: negation + partial.
* **C36** (Symbolic derivative is the derivative): `HasDerivAt` by structural induction.
* **C37** (Syntactic classification is sound): Semantic independence/affinity/polynomiality.
* **C38** (Substitution lemma): Structural induction.
* **C39** (Ordering algebraic equations): Kahn-like loop; permutation + topological order + error iff cyclic.
* **C40** (A positive safety certificate is correct): Abstract storage as finite sets of cells with an over-approximating evolver; loop skips the last check: negation + partial.
* **C41** (Outer chain reachability covers all reachable states): As C40; invariant of the worklist loop.
* **C42** (Finite-time upper reach and evolve sets): As C40; `round` in time steps and premature removal of cells make `upper_evolve`/`upper_reach` unsound: negation + partial.
* **C43** (State space indexing): List model of Space.
* **C44** (Truncated power-series (differential) arithmetic): Coefficients of truncated products against `MvPowerSeries`/`PowerSeries`.
* **C45** (Rounding to working precision): Concrete rounding on ℚ by scaling with powers of two and `Int.floor`.
* **C46** (Rounded square roots enclose the exact root): Newton loop with directed rounding and arbitrary fuel; every exit condition is shown to bracket the root.
* **C47** (Exact bounds and balls): Endpoint formulas over ℚ, points over ℝ; `hlf` and even powers of rational bounds and `neg` of dyadic bounds are wrong: negations + partial theorems.
* **C48** (Extended arithmetic): Denotation in `EReal` with NaN as undefined; rational `<` and dyadic `<=` hold with NaN: negation.
* **C49** (Integers and rationals): Conversion loops on naturals; `quot`/`rem` mismatch, 64-bit conversions beyond 2^63-2^32 and the 512 character buffer: negations + exact characterisations.
* **C50** (Indicator functions): Signs of indicator expressions against Kleenean truth at real points; the negative sign of And/Or is wrong: negation + partial.
* **C51** (Common subexpression elimination): Evaluation is preserved by any sharing of equal nodes; equality of constants up to double bounds is not an order: negation.
* **C52** (Incrementing multi-indices): Successor in the graded order, enumeration by iteration; the write behind the array is a distinct outcome.
* **C53** (Evaluation of polynomials): Horner scheme over sorted expansions, induction on variables, exactly and over enclosures.
* **C54** (Factorials and binomial coefficients): Wrap-around arithmetic on fixed widths.
* **C55** (Matrix inverse and solving): Gauss-Jordan steps over an enclosing arithmetic; each step keeps `A x = b` for every real member.
* **C56** (Constraint solver): Contractors, splitting and feasibility as functions on boxes over a rounding structure; every solution is kept.
* **C57** (Equation solver): Interval Newton and Krawczyk operators; existence and uniqueness proved from compactness and the mean value theorem.
* **C58** (Implicit functions): As C57 with parameters; latching of components modelled as in the code.
* **C59** (Flow bounds): Picard-Lindelöf on the bounding box proved in `Flow/ODE.lean`; rounding of time as in the code.
* **C60** (Picard integrators): Taylor models of C24-C29 iterated; validation conditions as coded.
* **C61** (Container wrappers): Sorted lists for `std::set`/`std::map`; extensional specifications.
* **C62** (Discrete locations): Finite maps with three-valued comparison.
* **C63** (Hybrid automata): Construction calls as steps of a transition system, invariant by induction over histories; reachability by loop invariant and measure.
* **C64** (Functions of modes): Formulae as expressions in coordinates; every function made is evaluated at a solution of the auxiliary equations, independently of the order of substitution; existence and uniqueness of the solution.
* **C65** (Composition): The modes of the components in a location as a list (`At`); the merged mode, target and predicates compared with this list; loop invariant of `order`; discrete reachability within the finite product of the locations; functions as in C64 for the joint equations.
* **C66** (Hybrid pavings): A hybrid paving is a sorted list of locations with pavings; its points in a location are those of its entry, or none. Every operation is the operation of C19–C21 at each entry; histories by induction over the list of operations.
* **C67** (Hybrid sets): Continuous sets and boxes are abstract, with tests assumed sound; the hybrid tests are proved sound for the states, using equality of locations from C62 and maps from C61.
* **C68** (Constraint sets): Functions are pairs of real values and interval evaluation; sets are sets of points in exact arithmetic. Tests reduce to the contraction theorem of C56 and to rounding of boxes; `covers` is proved to give the interior in the topology of ℝⁿ.
* **C69** (Constrained image sets): The sets a program can make are an inductive family; the invariant (the reduced domain keeps every feasible parameter) is proved by induction over the history, and the tests from it. `satisfies` uses the strict form of the feasibility theorem of C56.
* **C70** (Certificates of feasibility): The iterations are arbitrary sequences of points; each test is proved from interval Newton theorems (`projected_newton` for fewer equations than variables, `newton_exists` in the coordinates of the search) or the mean value theorem. Weighted sums of unbounded constraints may have NaN ends; the ends which are not NaN are bounds (`Weak`).
* **C71** (Pavings of constrained image sets): The recursions of the pavers are modelled with fuel over the pavings of C15-C21 and the contractors of C56; coverage (`target ⊆ q.closed`) is by induction on the fuel, following each point through contraction and splits of domain and cell; tightness follows the cells added back to a subdomain whose image meets them. The interior-point steps called by the constraint pavers have empty bodies (nonlinear_programming.hpp 247-254), so their multipliers are constants, which is what makes the optimal paver never add a cell.
* **C72** (Enclosures of evolved sets): An enclosure is a box of parameters with patches for the state, time and dwell time. A patch is a relation "value allowed at a parameter" together with a sound interval evaluation, so that Taylor functions, formulas and any other validated functions are instances; the operations on patches are a parameter with sound laws (values are kept) and exact laws (no values are added). The points `pts` are triples of state, time and dwell time. Each operation has a coverage theorem from the sound laws and an equation for the set from the exact laws. The reduced domain is an invariant over all sequences of operations (`Made`). Kuhn reconditioning is modelled on lists of Taylor models. The exact operations are an instance of the laws (`real`), and operations with rounding errors of the sound laws (`noisy`).
* **C73** (Orbits of vector fields and of maps): The thread pool is a transition system: a state has the list of waiting sets, the actions left to each busy thread, and the orbit so far; a step takes a waiting set, carries out one action (append to reach, intermediate or final sets, give up, append to the list), or ends a thread. Coverage of a trajectory is an invariant of the steps, so it holds for every schedule and at every moment. Independence of the schedule is proved by a big-step evaluation of each waiting set, which steps preserve up to the order of the sets and which counts the steps left. The loop of the map evolver is shown to be one of the schedules.
* **C74** (Orbits of hybrid systems): An execution is a sequence of solutions, each ended by an event whose guard is active at the end while no blocking guard has been exceeded before; this is defined without reference to the evolver. One theorem for each part of a step says where a given execution goes: the crossing times of a guard (increasing, transverse, convex, concave, degenerate), the guards applied to a jump set, the eight kinds of evolution time with the three ways of finishing, the creep up to a guard, the starting events. Put together, an execution in a working set is in a reached set, a new working set or a jumped set (`evolution_moves`), and coverage of the whole execution is an invariant of the work list, which is that of C73. The function operations are parameters with soundness laws; exact operations over an ordered field which satisfy them are constructed, so that the model runs.
* **C75** (Taylor models stay in canonical form): Canonical form is a list of indices in strictly increasing reverse lexicographic order. Merging (sum, fused multiply-add) keeps it by induction on the two lists; multiplication by a monomial keeps it because the order is compatible with addition of indices (C22) as long as exponents do not wrap; differentiation lowers one exponent of every remaining index. Composition carries the invariant together with a bound on the degree.
* **C76** (Function patches): A patch represents `F` if on the scaled unit box `F` is within the error of the polynomial (`SPatch.Represents`); every point of the domain is a scaled point, so this is about all points of the domain. Evaluation divides by the rounded radius, which is positive for an Archimedean field because powers of two are representable. Unscaling gives models of `(f-med)/rad`, which are composed by C75. The calculus theorems are over the reals: the chain rule turns derivatives on the interval into derivatives on the unit interval. Restriction of vectors is an invariant of the loop which sets the components.
* **C77** (Real numbers): `Denotes r x` gives the value of an expression, as a relation; `code` evaluates as the code does and `clean` refuses NaN, so that `clean fl r = some b` says that no NaN arose. Soundness is by induction over expressions. Convergence uses filters on bounds: `nE x` for endpoints near `x` and `nB x` for bounds near `x`; an operator is tight if it maps `nB` to `nB` as the rounding becomes fine, which is a composition of limits for every rational operator. Rounding to `p` bits is shown to be fine.
* **C78** (Affine models): `Encl a f` says that `f` is within the error of the affine polynomial at every point of the unit box. Each operation is modelled with its rounded coefficients and its accumulated error; the constructor of `Error` refuses negative numbers, so operations have optional results.
* **C79** (Linear programs): `Feasible` and `StrictlyFeasible` are stated with sums over the field. The iterations of the interior point method are an arbitrary sequence of approximations, so only the validation counts. Infeasibility: the dual certificate is followed endpoint by endpoint, where a NaN endpoint claims nothing and infinite multipliers are treated by absorbing sets of endpoints. Feasibility: the corrected point solves the equations by C55 (`lu_inverse`).
* **C80** (Affine sets): `points S f g` is stated for any functions enclosed by the models; a parameter gives a feasible point of the linear program, so that C79 refutes separation. The recursion over cells is that of the pavers (C71), with termination. The affine paver of C71 gets its missing part from here.
* **C81** (Inclusion): solutions are curves with derivatives from the right, for arbitrary inputs within their bounds. `norm_le_growth` is a Grönwall inequality with logarithmic norms, from which the bounds of the code follow; the constants are computed from lists of interval coefficients that describe the functions and their first derivatives on the flow box.
* **C82** (InclusionEvolver): the state is the schedule with delays and counters; `Reachable` is the set of states after any number of rounds with any best approximation. `Inv` says that the schedule is ordered by steps and has each approximation of the configuration.
* **C83** (InclusionEvolver): the loop over time with reconditioning; the parts of a step are parameters (`Method`), for which `Sound` states what C76, C81 and C84 provide.
* **C84** (InclusionEvolver): `Point` says that a point is in the set which a function patch with errors describes. Errors are parameters with coefficients, and removed parameters are bounded by the sum of the coefficients of their terms.
* **C85** (Bounds): Rounded upwards, the iterates decrease and are multiples of a fixed power of two, so that the loop stops; rounded downwards they can form a cycle.
* **C86** (Elementary): Each step of the Horner scheme is bounded by the exact polynomial, and this by the cosine or sine (Taylor sums with Lagrange rests); the remaining error is the neglected term and the square that is rounded in the wrong direction. Counterexamples compare the computed rational numbers with rational enclosures of the exact values.
* **C87** (Elementary): The reduction by multiples of the bounds for log 2 has the right direction, and the rest of the Taylor sum of the exponential is bounded relative to it. For the logarithm, 1-y is exact for y between 1/2 and 1, and the polynomial in (y-1)/(y+1) is increasing.
* **C88** (Elementary): The functions of single numbers and the bounds of pi are parameters that are assumed to be sound; the argument after subtracting multiples of pi contains the exact one, and each case uses monotonicity on half a period. In the first case the midpoint must not be left of -pi, which the rounded quotient does not ensure.
* **C89** (Polynomial): The specification is Mathlib's `MvPolynomial`; `Encl In p f` says that choosing a number inside each stored coefficient can give `f`. The coefficient arithmetic is a parameter assumed to be sound (`Sound`), which is shown for exact rational numbers and for intervals. Evaluation and composition reuse the invariant of Horner's rule of C53.
* **C90** (Box): The specification is the set of points of a box, coordinate by coordinate, and of its interior. Widths, volumes and widening are exact; the midpoint as computed is a parameter which is assumed to lie in the interval.
* **C91** (Box): The tests of a set against boxes are parameters assumed to be right whenever they say yes. The recursion has a depth; `running` means it has not ended at that depth, and an answer does not depend on the depth.
* **C92** (Directed): The specification is `IsUpper` and `IsLower` of C05–C08: which numbers a datum, possibly infinite, bounds. A NaN bounds nothing, so every theorem also says that NaN does not appear. `fma` is rounded once for finite arguments; powers are those of double.cpp.
* **C93** (Complex): The specification is Mathlib's field of complex numbers with its `exp`, `log` and `arg`. A relation says which real numbers a datum represents; the operations of the number type are assumed right for it, and this is proved for exact numbers and for floating-point bounds.
* **C94** (Chebyshev): `Denotes` says which functions a list of terms may stand for: the combinations of basis functions with numbers the coefficients represent. The basis functions are products of Mathlib's Chebyshev polynomials. Reading or writing outside an expansion or buffer is `none`.
* **C95** (Simplex): `Feasible` is the system of equations and inequalities over the ordered field, with infinite bounds as in IEEE arithmetic. The theorem about `true` produces the basic solution as witness; that about `false` refutes every point.
* **C96** (Graded): the Taylor coefficients are Mathlib's `iteratedDeriv k g 0 / k!`; solutions are functions with derivatives near time zero, not assumed smooth. The coefficients are any type with sound operations (`GSound`), instantiated with exact functions of the initial value and with rounded bounds.
* **C97** (SeriesFlow): a differential encloses the expansion of a function at a point when some coefficients within its bounds give, in every direction, the Taylor coefficients of the function along that direction (`Expands`); the trajectory is to be a value of the assembled terms for some coefficients within their bounds (`Choice`). Taylor's theorem is Mathlib's.
* **C98** (Structured): a symmetric matrix holds entries `A` when every access inside the matrix gives the entry of `A` (`Holds`); arithmetic is compared with Mathlib's `Matrix.diagonal` and with sums over indices; numbers are any type with sound operations (`Verif.Matrix.Encl`).
* **C99** (FixedDifferential): the specification is Mathlib's Fréchet derivative, applied to coordinate vectors (`pd`) or in one variable (`deriv`): a differential holds enclosures of `g p`, `pd j g p` and `pd j (pd k g) p / 2` for a function `g` which is differentiable (first) or twice continuously differentiable (second) at `p`. Numbers are any type with sound operations (`Sound`).
* **C100** (Simulator): the specification of a trajectory is a solution of the differential equation in a normed space (`HasDerivWithinAt`), that of a record is the list of multiples of the step size with the iterates of the step, and that of concurrency is the set of all interleavings of the tasks' insertions (`Shuffle`).
* **C101** (Simulator, hybrid part): the specification of a simulation is a relation between consecutive states (`Step`), stated with the enabled events of the system and independent of the loops of the code; `Allowed` describes the invariants as they are tested, and two theorems relate this to the automata of C63-C65: in a `HybridAutomaton` no state of a location with an invariant is allowed, and in a composition every state is. The specification of an orbit (`Holds`) is that the curve of number m holds exactly the points with m discrete steps.
* **C102** (ExprSet): the specification is in terms of valuations: a valuation satisfies a set (`Sat`) if each variable lies in its bounds and no constraint is false, and a point lies in a euclidean set (`InSet`) if its coordinates lie in the domain and the constraint functions are at most zero there. The meaning of an interval is an arbitrary predicate.
* **C103** (Printing): the specification is a grammar of arithmetic (`Reads`), with a separate table of names (`meaning`), which is proved to be unambiguous; the output of the writers is a list of tokens. An expression may be printed with fewer parentheses than its structure has, so what is read back is an expression with the same values.
* **C104** (FunctionObject): vector functions are addresses in a heap of nodes, since `Function` is a handle on a shared node which `set` changes in place; scalar functions are trees with addresses as leaves. The specification is pointwise evaluation: `Makes` says that an operation succeeds, gives a function of the expected sizes with the values given by a relation between the argument and the result, and leaves the values of the existing functions alone. Evaluation follows a bounded number of handles; without assignments nodes refer to older nodes only, so that the bound is immaterial (`evalV_agree`), whereas an assignment can close a cycle.
* **C105** (FunctionObject): derivatives are new scalar functions in the same heap, following handles with fuel; the specification is Mathlib's `HasDerivAt`, for the real function obtained by varying one argument and, for the induction and for Lie derivatives, along all differentiable curves of points. The theorems also say that the derivative exists and has a value wherever the function has one.
* **C106** (CommandLine): the loop of `acquire` is a recursion on the list of arguments which takes one or two at a time; the settings are a record. The specification is separate: `Line` (names followed by values), `Documented` (the help texts), `Begins` (what a number is, with Mathlib's `Nat.ofDigits`), `lastOf` and `After` (the value which counts).
* **C107** (ArrayMemory): the state is a list of blocks (live or freed) and the arrays in existence, each a size and a pointer; undefined behaviour is `none`. The specification knows neither blocks nor pointers: `Op.spec` says what an operation does to a map from arrays to lists, `Op.Allowed` which arrays must exist. `Leaked` are live blocks to which no array points. `C107_step` is the refinement for one operation, with the invariant that pointers are live, of the right length and distinct; `C107_programs` is its induction over histories.
* **C108** (PDE): one step is a function of the values in all cells, with the wrapping of indices as in the code; the histories are its iterates. The specification is stated on the equation: totals (`Finset` sums), constants, sums of data, shifted data, bounds, and an explicit solution with Mathlib's `HasDerivAt` for the counterexample with a right-hand side.
* **C109** (Tensor): the array of a tensor is a list, and access past its end is `none`. The specification is that of maps from lists of indices to elements: reading after writing, for all indices within the sizes (`List.Forall₂`). For the string it is the recurrence `scheme` on functions of time and point, without arrays.
* **C110** (ListSet): outcomes are a result, an exception or undefined behaviour. The specification is about points: `Union` of the basic sets in the list, for any relation between basic sets and points, `InBox` and `SubBox`.
* **C111** (Orthogonal): the specification is about sums of products of elements of the matrices, for any sizes and any ordered field; a division by zero is `none`.
* **C112** (Orthogonal, `Householder.lean`): as C111, on real numbers, with a square root; the matrix of the pivots is that of `pivot_matrix`.

## Parts of the code modelled

| Area (directory `lean/Verif/`) | Code in `/repo/source` | Not modelled |
| --- | --- | --- |
| Logical | numeric/logical.{hpp,cpp}, numeric/sequence | threads, printing |
| LRUCache | utility/lru_cache.hpp | allocation failure |
| BinaryWord, BinaryTree | utility/binary_word.*, geometry/binary_tree.* | ownership of nodes except where a double free or use after free is the finding |
| Rounding, Bounds, Ball | numeric/float_bounds.*, float_ball.*, rounding primitives | exponent overflow except in C05, C48, C59 (explicit infinities); transcendental functions of MPFR |
| Decimal, Exact, Numeric | numeric/decimal.*, dyadic.*, rational.*, integer.*, int.* | 65535-bit truncation in `mpf`, GMP itself |
| Interval | geometry/interval.*, union_of_intervals.* | `interior` (does not compile) |
| AlgebraicSort, Hybrid | hybrid/hybrid_automaton.*, hybrid_automaton-composite.*, discrete_location.*, hybrid_paving.*, hybrid_set.* | printing, names, caches, virtual dispatch |
| FunctionSet | geometry/function_set.* (ConstraintSet, BoundedConstraintSet, ConstrainedImageSet, ValidatedConstrainedImageSet), tests of geometry/box.hpp and interval.inl.hpp | drawing, printing, affine approximations, `join`; optimiser and contractor are parameters |
| Optimiser | solvers/nonlinear_programming.cpp: the tests is_feasible_point, contains_feasible_point, validate_feasibility, validate_infeasibility, is_infeasibility_certificate, the loop of NonlinearInfeasibleInteriorPointOptimiser::feasible, PenaltyFunctionOptimiser::check_feasibility, ApproximateOptimiser::feasible_zero | the approximate steps (their results are arbitrary), minimise, the Taylor model of y.g (a parameter) |
| Paver | geometry/paver.cpp: `SubdivisionPaver`, `AffinePaver` (splitting; the affine over-approximation is a parameter), `ReducePaver`, `ConstraintPaver`, `OptimalConstraintPaver`, `average_width`, `maximum_scaled_width`; `lipschitz_index_and_error` of function_set.cpp |
| Enclosure | dynamics/enclosure.cpp: constructors, constraints, maps, evolve and reach steps, tests, `reduce`, splitting (zeroth order), `restrict`, `uniform_error_recondition`, `kuhn_recondition` (on Taylor models), products; `make_domain(Interval<Real>)` of geometry/affine_set.cpp. Not modelled: auxiliary mappings, drawing, paving by affine over-approximations, splitting to first order |
| Evolver | dynamics/vector_field_evolver.cpp: `orbit`, `_append_initial_set`, `_process_timed_enclosure`, `_process_timed_enclosure_step`; dynamics/iterated_map_evolver.cpp: `orbit`, `_evolution`, `_evolution_step`. The integrator is a parameter. The source of the thread library (submodules/betterthreads) is not in the checkout: each action on the queue and the orbit is taken as atomic. Not modelled: logging, exceptions of the integrator |
| HybridEvolver | hybrid/hybrid_evolver.cpp: `orbit`, `_extract_transitions`, `_apply_invariants`, `_process_starting_events`, `_compute_flow`, `_compute_active_events`, `_compute_crossings`, `_apply_reach_step`, `_apply_evolve_step`, `_apply_guard_step`, `_apply_guard`, `_process_jumped_set`, `_process_working_set`, `_evolution_step`, `_apply_evolution_step`, `GeneralHybridEvolver::_estimate_timing`. Implicit functions, the integrator and function arithmetic are parameters. Simplified: the set of events erased while it is iterated (746) and the list appended to while it is iterated (1081, 1084), which are undefined behaviour, give `none` if the parameter `strict` is set and otherwise do what is intended. Not modelled: logging, exceptions of the solver other than those caught, `HybridEvolverBase::_estimate_timing` |
| FunctionPatch | function/scaled_function_patch.hpp and .tpl.hpp, function/scaling.hpp, scaling and unscaling of function/taylor_model.tpl.hpp. Simplified: numbers passed to `partial_evaluate` and `antiderivative` are exact; an infinite reciprocal is `none`; endpoints of domains are representable in the working precision. Not modelled: `min`, `max` (`min(number,f)` is not implemented in the code), gradients, conversion from and to functions, printing, factories |
| Real | numeric/real.cpp, comparisons of dyadic bounds of numeric/dyadic.hpp, `two^n` of numeric/twoexp.hpp. Simplified: efforts and bits are unbounded; operators are arbitrary functions on bounds; constants are exact real numbers, rounded outwards; the cached double precision bounds are computed again. Not modelled: validated reals, naive reals, `get_d`, comparisons with `Int64` (not implemented in the code), printing |
| Affine | `function/affine_model.hpp`, `affine_model.tpl.hpp` (constructors, arithmetic, conversions, scaling, range, evaluate, compose), `model_utilities.hpp` (errors used there) | Numbers of a field with rounding, no infinities; the approximate variant and jets are not modelled |
| LinearProgram | `solvers/linear_programming.cpp` (`validate_feasibility`, `feasible`), sums and products of vectors and matrices from `algebra/vector.hpp`, `algebra/matrix.hpp` | The approximate steps (`_minimisation_step`) and `minimise` are arbitrary; matrix and right-hand side are finite |
| AffineSet | `geometry/affine_set.cpp`: constructors, `bounding_box`, `separated`, `is_empty`, `inside`, `construct_linear_program`, `adjoin_outer_approximation_to`, `outer_approximation` | Not modelled: the variant with the simplex solver, `image`, `boundary` and drawing. Models and cells are finite, boxes and bounds of constraints need not be |
| Inclusion | `solvers/inclusion_integrator.cpp`: `compute_constants`, errors of the zero and the constant approximation, `ApproximationErrorProcessor::process`, adding of the errors | Not modelled: approximations with two parameters, second derivatives, `build_reach_function` (the flow of the replaced equation is assumed to be enclosed), overflow |
| InclusionEvolver | `dynamics/differential_inclusion_evolver.cpp`: `InclusionEvolverState`, `orbit`, `LohnerReconditioner::incorporate_errors`, `LohnerReconditioner::reduce_parameters`, `must_reduce_parameters` | Not modelled: `std::sort` (any function that sorts), conversion of systems and initial sets, `InclusionIntegrator` (see Inclusion), drawing, logging, overflow of counters |
| Elementary | `numeric/double.cpp`: `exp_rnd`, `log_rnd`, `sin_rnd`, `cos_rnd`, `tan_rnd`, `atan_rnd`, `asin_rnd`, `acos_rnd` and their series; `numeric/float_bounds.tpl.hpp`: `_sin`, `_cos`, `_tan` | Doubles are rational numbers with 53 bits; not modelled: infinities, NaN, overflow and underflow, signed zeros, rounding to nearest, overflow of `long int` |
| Polynomial | `function/polynomial.hpp`, `function/polynomial.tpl.hpp`: construction, arithmetic, calculus, clean-up, comparison, evaluation; `algebra/evaluate.tpl.hpp`: `horner_evaluate` for one variable | Any coefficient type with sound operations; not modelled: exceptions in coefficient operations, output, memory, Lie derivatives and Picard iteration |
| Box | `geometry/box.hpp`, `geometry/box.tpl.hpp`, `geometry/box.cpp`: tests, set operations, splitting, vertices; `geometry/geometry.hpp`: `irmax`, `split`; `geometry/geometry.cpp`: all tests of two sets | Exact arithmetic except for the midpoint; not modelled: drawing, reading and writing, boxes with symbolic bounds, `image_separated`, `image_inside`, `remove_subsets`, `remove_supersets` |
| Directed | `numeric/float_upper_bound.hpp`, `numeric/float_lower_bound.hpp`, `numeric/float_error.hpp`: arithmetic, lattice operations, comparisons, refinement, casts | Not modelled: sqrt, exp, log and atan of bounds (see C85, C86), conversions to approximations and from numbers, output; natural numbers of 32 bits are stored exactly by `F(m,pr)` |
| Complex | `numeric/complex.hpp`: construction, arithmetic also with reals, comparisons, `sqrt`, `exp`, `log`, `modulus`, `argument`, `conj`, `dist` | Not modelled: comparisons with reals, output, `pow` (declared only); division by 2 is halving; the elementary functions of the number type are parameters (see C85–C88) |
| Chebyshev | `function/chebyshev_polynomial.hpp`, `function/chebyshev_polynomial.tpl.hpp`: construction, arithmetic, evaluation, norm, in one and several variables | Not modelled: precisions, output, division by scalars; arguments have the type of the coefficients; division by 2 is halving; in several variables degrees whose sum reaches 65535 are outside the model (`none`) |
| Simplex | `solvers/simplex_algorithm.cpp` 259-296, 399-416, 445-504, 554-593, 1343-1426: `compute_vt`, `compute_p`, `compute_B`, `compute_x`, `compute_c`, `compute_y`, `compute_z`, `verify_feasibility` | Not modelled: the simplex steps, `compute_basis`, `hotstarted_feasible` (which returns the unvalidated answer, 1332-1334), minimisation, the approximate instances. Entries of `A` and `b` are finite; the assertion on the residual (500-502) is an arbitrary test; failed assertions and exceptions are `none` |
| Graded | `algebra/graded.hpp` 83-109, 164-216, 261-507; `function/procedure.tpl.hpp` 220-241 for graded series; `solvers/integrator.cpp` 520-579, 730-736: `graded_flow_init`, `graded_flow_iterate` | Not modelled: `compatible`, truncation of differentials to a spatial order, (the assembly is C97). Failed assertions, exceptions and calls of unimplemented functions are all `none` |
| SeriesFlow | `solvers/integrator.cpp` 581-677, 757-801: `graded_flow_differential`, `differential`, `flow_differential`, `make_taylor_function_model`, adaptation of orders | One component at a time. Not modelled: composition with the scaling is the multiplication of coefficients by powers of the radii (a parameter enclosing the product), `cleanup` (C26), the `restriction` of line 684 to forward times; the centre is the exact midpoint of the domain. |
| Structured | `algebra/symmetric_matrix.hpp`; `algebra/diagonal_matrix.hpp`; `algebra/tensor.hpp` 50-165 | The zero element (precision) stored with a matrix, conversions between number types, drawing of tensors, printing of matrices and of tensors of ranks two and three are not modelled. |
| FixedDifferential | `algebra/fixed_differential.hpp` 102-116, 142-344, 421-679; `algebra/fixed_univariate_differential.hpp` 41-74, 155-162, 228-431; `algebra/series.hpp` 59-66; `function/procedure.tpl.hpp` 404-409 | Sizes are types, so the assertions on sizes are not modelled; printing, precisions, vectors of differentials (only collections of their elements), and the remaining unary operators of `UnivariateFirstDifferential` are not modelled. Operators whose template is ill-formed are unavailable (`none`). |
| Simulator | `solvers/runge_kutta_integrator.cpp` 49-76; `geometry/curve.cpp` 117-121, 135-145; `dynamics/orbit.cpp` 68-78; `dynamics/vector_field_simulator.cpp` 52-61, 97-128, 155-232; `dynamics/vector_field_simulator.hpp` 83-89 | Steps are computed in exact arithmetic (the convergence theorem allows errors); the mutual exclusion of the lock and the completion of the workload (BetterThreads) are trusted; the widening of boxes with some zero widths and drawing are not modelled. |
| Simulator (hybrid) | `hybrid/hybrid_simulator.cpp` 65-90, 198-279, 330-439; `hybrid/hybrid_set.cpp` 67-98, 113-120; `hybrid/hybrid_time.hpp` 109-112 | Points, resets and steps of the integrator are arbitrary functions; guards have exact values; the extension of points by auxiliary variables is that of C100; the initial points of boxes (303-328), where a widened box is computed and then not used, are not modelled. |
| ExprSet | `symbolic/expression_set.hpp` 252-272, 306-309, 340-341, 362-376; `symbolic/expression_set.cpp` 47-69, 99-123, 135-162, 183-228; `geometry/function_set.cpp` 227-233; `hybrid/hybrid_set.cpp` 341-344, 421-444, 523-534 | Intervals are of any type; the bounds of approximations are rounded once, by any rounding; points, drawing, printing and `approximate_euclidean_set` are not modelled. |
| Printing | `symbolic/templates.tpl.hpp` 38-138; `symbolic/expression.tpl.hpp` 224-234; `symbolic/constant.hpp` 57-58; `numeric/operators.cpp` 85-135; `function/formula.cpp` 89-103 | The characters of numbers and names (a negative number is a minus sign and a number, and `--` is two tokens); vectors, logical expressions and the scalar operations of formulae. |
| FunctionObject | `function/function.cpp` 660-675, 99-320 (zeros), 384-412, 438-445 (not), 447-508, 520-527, 538-569, 573-611, 614-654, 728-765, 853-917, 1007-1045, 1114-1124; `function/symbolic_function.hpp` 236-400 (with derivatives 259-260, 302-304, 333-337, 381-386, 617-631), 443-519, 567-568, 591-679; `function/function.hpp` 255-269, 559-562; `utility/handle.hpp` 77-110 | Univariate functions; derivatives of whole vector functions and of `abs`, `max`, `min` (assertions or not implemented); formula functions are trees of operators; the operations of function patches themselves (see FunctionPatch) |
| CommandLine | `io/command_line_interface.cpp` 43-65, 67-79, 129-143, 145-339 | The texts of the help and of the messages; the libraries in which concurrency, scheduler, theme and verbosity are set (the values are stored); `stoi` is modelled from its specification |
| ArrayMemory | `utility/array.hpp` 48-160, 167, 181-221, 249-260 | Failure of `operator new`; effects and exceptions of constructors of elements; the configurations of `uniform_array.hpp`, whose memory management is the same; `SharedArray` (223-247), which is not used (its destructor decrements the pointer to the count, not the count) |
| PDE | `dynamics/first_order_pde.cpp` 86-96, 147-149, 183-238 | Rounded arithmetic (exact here; the code computes with `Bounds`); the choice of the grid and the error bound (131-142, 153); inverses of matrices are given; undecidable signs of eigenvalues |
| Tensor | `algebra/tensor.hpp` 50-103, `dynamics/1D_pde.hpp` 36-54, 58-77, 100-127 | Drawing and writing of tensors; rows (`TensorRow`, 40-46); `2D_pde.hpp`; the numbers from which the coefficients of the string come |
| ListSet | `geometry/list_set.hpp` 66-148, `geometry/box.hpp` 314-321 | Drawing, writing, capacity; rounding of hulls (none is needed: minima and maxima are exact) |
| Orthogonal | `algebra/matrix.tpl.hpp` 782-794, 804-917, 968-1047; `algebra/matrix.hpp` 257-267 | Rounding; the decomposition by Gram-Schmidt (943-966) |
| Reachability | dynamics/reachability_analyser.tpl.hpp | lower_reach; the evolver is a parameter with an enclosure law (see C73 for the evolvers) |
| Symbolic | symbolic/expression.*, templates, identifier handling of constants | printing, parsing |
| Expansion, Differential | algebra/multi_index.*, expansion.*, differential.*, series.*, evaluate.tpl.hpp | aliasing, capacity, coefficients with rounding in Differential |
| TaylorModel | function/taylor_model.tpl.hpp | models of analytic functions (`compose(AnalyticFunction)`); scaling to other domains is in FunctionPatch |
| Procedure | function/procedure.*, formula.* | caches across calls |
| Grid | geometry/grid.*, grid_cell.*, grid_paving.* | open cells, cursors, drawing |
| Space | symbolic/space.*, valuation.* | |
| Matrix | algebra/matrix.tpl.hpp (inverse, solve, decompositions, norms) | eigenvalues, QR |
| ConstraintSolver, Solver, Flow | solvers/constraint_solver.*, solver.*, bounder.*, integrator.cpp (Picard) | nonlinear programming (a parameter), Taylor series integrator |
| Container | utility/container.hpp, array.hpp (complement) | iterators' invalidation |

Everything else in `/repo/source` (graphics, io, Python, zonotopes, polytopes, the simplex method, the steps of the interior point methods,
simulators) has no model.

## Simplifications that apply throughout

* Function objects of C++ templates are Lean functions; a template is modelled once, over the algebraic laws it uses.
* Unbounded recursion and loops without an evident measure take a fuel argument; theorems either hold for every fuel or
  give the fuel that suffices. Where the code may run for ever, that is a theorem (`*_diverges`).
* Exceptions and failed assertions are values (`none`, `Except.error`, an error code beside the state).
* Dereferencing `end()`, reading behind an array and signed overflow are distinct outcomes where a theorem mentions them.

## Disagreements between the code and the properties

Each line is a place where the code does not do what it says; the theorem proves this about the model.

| Property | Code | Disagreement | Theorem |
| --- | --- | --- | --- |
| C04 | logical.hpp 300-301, 330-331 | mixed connectives drop the Boolean | C04_or_counterexample, C04_and_counterexample |
| C05 | float_bounds.inl.hpp 37-39 | `_add(F,Bounds)` rounds the upper bound down | C05_op_add_counterexample |
| C08 | float_bounds.hpp 303-304 | `narrow` moves the upper bound outward | C08_narrow_counterexample |
| C09 | float_ball | reciprocal through zero, abs of negative, max/min, `Ball(Decimal,Decimal)` | C09_*_counterexample |
| C10 | decimal.hpp 85, 88 | `<=` and `>` swapped | C10_le_counterexample |
| C12 | dyadic.cpp 109-112, 453-466 | construction from `mpf_t` gives 0; scientific writer on 0 does not end | C12_ofMpf_counterexample, C12_scientific_zero_diverges |
| C18 | grid_cell | smallest enclosing cell is not minimal | C18_enclosing_not_minimal |
| C19 | grid_paving.cpp 1183-1186 | `clone` of a subpaving loses it | C19_clone_wrong |
| C20 | grid_paving.cpp 1558, 1574, 1965-1969 | `subset` for empty pavings; disjointness of touching boxes | C20_subset_wrong_for_empty, C20_box_disjoint_wrong |
| C22 | multi_index | 16-bit degrees overflow | C22_add_counterexample |
| C24-C29 | taylor_model.tpl.hpp | rounding of bounded scalars, double rounding in fma, sweeping with bounds, refinement, composition, splitting | C24_scal_counterexample, C25_mul_counterexample, C26_bounds_counterexample, C28_refinement_counterexample, C29_compose_counterexample, C29_split_fails |
| C30, C31 | interval.inl.hpp 90-91, union_of_intervals | `equal`; converting constructors, `subset`, `intersection` | C30_equal_counterexample, C31_*_counterexample |
| C32-C34 | procedure.* | scalar nodes, moved results, derivatives of asin/acos, contractors of max, min, pow, sin, cos | C32_scalar_wrong, C32_shared_result_wrong, C33_asin_wrong, C34_*_loses_solution |
| C35, C36 | expression simplification, operators.hpp 388, 394 | `sqrt(sqr x)`, `atan(tan x)`; derivatives of asin and acos | C35_*_counterexample, C36_*_counterexample |
| C38 | expression.tpl.hpp 392-398 | list substitution is sequential | C38_simultaneous_counterexample |
| C39 | hybrid_automaton.cpp 222 | some loops end in an assertion | C39_loop_counterexample |
| C40, C42 | reachability_analyser | last reach not checked; steps rounded up; reached cells removed | C40_verify_safety_counterexample, C42_*_counterexample |
| C44 | differential.* | affine vectors, degree zero, flow with parameters, univariate derivative | C44_*_wrong |
| C47, C48 | rational.cpp 665-666, 680-681; dyadic.hpp 307-308; NaN comparisons | `hlf`, `pow`, `neg` of bounds | C47_*_counterexample, C48_nan_counterexample |
| C49 | integer.cpp | quotient and remainder, 64-bit conversion, printing buffer | C49_quot_rem_mismatch, C49_ofNat64_counterexample, C49_print_counterexample |
| C50 | expression.cpp 323-324 | negative indicator of And/Or | C50_indicator_and_counterexample |
| C51 | real.cpp 374-380 | equality of constants is approximate | C51_eliminate_counterexample |
| C52 | multi_index.cpp 31-41 | writes behind the array | C52_overrun |
| C53 | evaluate.tpl.hpp 118-148 | lowest power omitted | C53_univariate_counterexample |
| C54 | int.cpp 46-60 | 8-bit binomials overflow | C54_bin8_counterexample |
| C55 | matrix.tpl.hpp | pivots of the wrong matrix; diagonally dominant solver | C55_triangular_pivots_wrong, C55_dd_solve_wrong |
| C56 | constraint_solver.cpp 153-162; nonlinear_programming.hpp 247-250 | the steps of the optimiser are empty, so that `feasible` tries the midpoint of the domain only and never splits | C56_feasible_actual, C56_feasible_incomplete |
| C56 | constraint_solver.cpp | overflow of cutting points, monotone reduction may not end | C56_box_reduce_overflow, C56_monotone_reduce_diverges |
| C57, C58 | solver.cpp | given-up boxes forgotten; flags latched per component | C57_solve_not_unique, C58_flags_wrong |
| C59 | bounder.cpp 133, interval.hpp 439-440 | widening inverted; time rounded down | C59_widening_inverted |
| C60 | integrator.cpp 177-180, 393-397 | halving without progress; validation by errors only | C60_halving_diverges |
| C61 | container.hpp 167-169, 186-189; array.hpp 249-260 | `Set::subset`, `Set::restrict` inverted; `complement` out of bounds | C61_member_*_inverted, C61_complement_undefined |
| C62 | discrete_location.cpp 104-107 | `restrict` asserts the wrong inclusion | C62_restrict_counterexample |
| C63 | hybrid_automaton.cpp 440-456; hybrid_automaton.hpp 379-385 | failed `new_transition` keeps its guard; urgent guards have no invariant | C63_transition_not_atomic, C63_urgent_invariant_counterexample |
| C64 | hybrid_automaton.cpp 238, 250, 262, 274 | substituting sorted equations one after another leaves auxiliary variables, so functions cannot be made | C64_chain_fails, C64_chain_counterexample |
| C64 | hybrid_automaton.cpp 262 | components of the reset function in the order of assignment, not of the target space | C64_reset_order_counterexample |
| C64 | hybrid_automaton.cpp 776 | invariant functions of conjunctions have the wrong sign | C64_invariant_counterexample |
| C65 | hybrid_automaton-composite.cpp 226-230, 285-289 | the kind of an event is that of the first component with it, so an urgent event may become permissive | C65_event_kind_counterexample |
| C65 | hybrid_automaton-composite.cpp 293-305 | with shared discrete variables a component may not reach the target of its transition | C65_target_counterexample |
| C65 | hybrid_automaton-composite.cpp 678-695 | components with the same name count as one, so several urgent components are accepted | C65_urgent_names_counterexample |
| C65 | hybrid_automaton-composite.cpp 465 | invariant functions of conjunctions have the wrong sign | C65_invariant_counterexample |
| C65 | hybrid_automaton-composite.cpp 441, 453, 464, 472 | auxiliary equations are substituted in the order of declaration; functions cannot be made if one uses a variable declared before it | C65_chain_counterexample |
| C66 | hybrid_paving.cpp 89-93 | `restrict` keeps the points of locations for which the argument has no entry | C66_restrict_wrong |
| C66 | hybrid_paving.cpp 197-200 | `separated` is true for every location with an entry, and reads the end of the map otherwise | C66_separated_wrong, C66_separated_covered |
| C66 | hybrid_paving.cpp 212-221 | `inside` returns after the first location which is not empty | C66_inside_wrong |
| C66 | hybrid_paving.cpp 235-259 | `subset` and `intersect` fail an assertion for locations without entry in the second paving | C66_subset_fails |
| C66 | hybrid_paving.cpp 154-157 | the constant `operator[]` adds an entry | C66_lookup_inserts |
| C67 | hybrid_set.cpp 320-322, 421-425; hybrid_set.hpp 150-151 | adjoining (or setting) a set in a location which is present is ignored | C67_adjoin_ignored, C67_adjoin_wrong |
| C67 | hybrid_set.cpp 474-485 | `inside` fails an assertion if a location of the set has no box, also if the set is empty there | C67_inside_fails |
| C67 | hybrid_set.cpp 523-534 | `intersection` fails an assertion before the test whether the location has constraints | C67_intersection_fails |
| C68 | function_set.cpp 516-526, 534-538 | intersections of a bounded constraint set use the bounds of the constraints in place of the domain | C68_intersection_bounded_wrong, C68_intersection_box_wrong, C68_intersection_set_wrong |
| C68 | function_set.cpp 227-233, 371-375 | the intersection of sets without constraints has dimension 0 | C68_intersection_dimension_lost, C68_intersection_bounded_dimension |
| C68 | function_set.cpp 457-465 | `overlaps` is true for boxes which only touch; an empty intersection is split into parts which may have points | C68_overlaps_touching, C68_bounded_overlaps_wrong |
| C69 | function_set.cpp 625, 1125; logical.hpp 503 | `satisfies`: the result starts as true, so that a constraint with a lower bound only is reported as violated | C69_satisfies_lower_only, C69_satisfies_wrong |
| C69 | function_set.cpp 900-907, 1052 | `overlaps` uses the bounds of constraints rounded outwards | C69_overlaps_wrong |
| C69 | function_set.cpp 628, 634 | `satisfies` of a set given exactly answers false from points outside the domain | C69_image_satisfies_wrong |
| C69 | function_set.cpp 556-562 | conversion of a bounded constraint set rounds the domain | C69_of_bounded_wrong |
| C70 | nonlinear_programming.cpp 503, 514; float_lower_bound.hpp 198-200 | `contains_feasible_point`: the negation of `subset` of an upper interval is never definite, so that neither the domain nor the inequalities are checked | C70_contains_wrong |
| C70 | nonlinear_programming.cpp 553 | the inverse is computed once outside of the `try` block; a singular matrix makes the function throw | C70_contains_singular |
| C70 | nonlinear_programming.cpp 581-690 | `validate_feasibility` (and `feasible`) accept solutions outside of the domain | C70_validate_feasibility_outside |
| C70 | nonlinear_programming.cpp 693-729 | `validate_infeasibility` does not check that the centre is in the domain | C70_validate_infeasibility_wrong |
| C70 | nonlinear_programming.cpp 1937-1939 | `check_feasibility` answers false if one point violates a constraint | C70_penalty_false_wrong |
| C70 | nonlinear_programming.cpp 1943, 1948, 1970 | `check_feasibility` checks inequalities at the point and equalities somewhere near it; without equalities the domain is not checked | C70_penalty_inequality_wrong, C70_penalty_outside |
| C70 | nonlinear_programming.cpp 1855 | `feasible_zero` accepts an approximate zero | C70_zero_true_wrong |
| C71 | nonlinear_programming.hpp 247-254; paver.cpp 534-577 | the interior-point steps are empty, so that the multipliers stay equal; the optimal constraint paver then splits the domain for ever and never adds a cell | C71_optimal_never_adds |
| C71 | paver.cpp 639 | the optimal constraint paver starts from the primary cell of the range of the constraint function `g` instead of `f` | C71_optimal_root_wrong |
| C71 | paver.cpp 312-317, 465; function_set.cpp 811-831 | for a function known up to an error wider than a cell the recursions split the domain for ever; if the range of the Jacobian matrix is zero the index of the coordinate to be split is out of range | C71_reduce_uncertain, C71_constraint_uncertain, C71_uncertain_diverges |
| C72 | enclosure.cpp 536, 420 | `apply_parameter_reach_step` calls `apply_map`, which sets the dwell time to zero, so that the dwell time before the step is lost | C72_reach_forgets_dwell |
| C72 | enclosure.cpp 765-768 | `inside(bx)` tests for a subset, so that it is true for a set touching the boundary | C72_inside_touches |
| C72 | enclosure.cpp 854-876, 920 | `split()` fails if no parameter has an influence on the state: the index is out of range | C72_split_fails |
| C73 | vector_field_evolver.cpp 127-159, 200-225 | The last step is not cut at the evolution time: `final()` holds states after the evolution time, `reach()` goes beyond it | C73_overshoot |
| C73 | vector_field_evolver.cpp 145-146, iterated_map_evolver.cpp 182-190 | `reach()` is empty for evolution time zero, and for maps never holds the initial set | C73_zero_time, C73_map_reach_lacks_start |
| C73 | vector_field_evolver.cpp 184-189, enclosure.cpp 1018 | With reconditioning enabled and `maximum_spacial_error` below `1024*epsilon`, a set with errors between the two is reconditioned for ever | C73_recondition_loops |
| C74 | hybrid_evolver.cpp 1141-1144, 1225-1228 | A set with no time before the final time is discarded: for final time zero the orbit is empty, and an event at the final time leaves nothing | C74_zero_time |
| C74 | hybrid_evolver.cpp 938-944, 1469-1472 | The jump set of an urgent event of which the guard decreases is the whole starting set: states jump in which the guard is not active; if another event blocks the flow the assertion on line 1001 fails | C74_decreasing_spurious, C74_decreasing_assertion |
| C74 | hybrid_evolver.cpp 506 | Impacts are left out of the starting events: a state in which the guard is positive is lost without notice | C74_impact_start |
| C74 | hybrid_evolver.cpp 746, 1081, 1084 | Sets and lists are changed while they are iterated (undefined behaviour); not a theorem, see the row of the table of modelled code | |
| C75 | multi_index.hpp, taylor_model.tpl.hpp `_ifma` | Exponents are 16 bit and wrap: the product of models of degree 65536 is not in order, so later sums do not combine equal terms | C75_mul_overflow |
| C76 | taylor_model.tpl.hpp 472-479, interval.inl.hpp 47-49 | The identity on a domain is scaled by the rounded midpoint and the largest distance from it, whereas everything else uses the exact centre and radius: on [1,9/8] with four bits the identity is off by 1/8 with error zero | C76_identity_wrong |
| C76 | scaled_function_patch.hpp 387-389 | The model is split at the exact centre, the domain at the rounded midpoint: the halves represent other functions | C76_split_wrong |
| C76 | scaled_function_patch.hpp 834 | `operator-=` of vector patches adds | C76_isub_wrong |
| C76 | scaled_function_patch.hpp 504-511 | `inconsistent` on disjoint domains compares the constant terms on an empty intersection and returns true | C76_inconsistent_disjoint |
| C76 | scaled_function_patch.hpp 805-811 | `partial_restriction` of vectors creates the result with the old domain: setting a component throws whenever the domain changes | C76_partial_restriction_fails |
| C77 | real.cpp 192, 194 | In `+two^(-n)` the unary plus binds first and makes an unsigned integer, so that `^` is exclusive or: the floating-point upper bound of a limit of real numbers is too large by about 2^32, and arithmetic with limits never becomes accurate | C77_limit_float_wrong, C77_limit_arithmetic_wrong |
| C77 | real.cpp 190 | The n-th element of a sequence is evaluated with effort n-1 only: the bounds of a limit need not converge although those of all elements do | C77_limit_stalls |
| C77 | real.cpp 319-337 | Alternatives of `when` whose condition is false are evaluated as long as the condition is possible, and can throw | C77_when_throws |
| C77 | float_bounds.hpp 267-270 | `max` and `min` drop NaN, which arises from an infinite reciprocal times zero: the bounds do not contain the number, a comparison is definitely wrong, and any accuracy is reported as met | C77_nan_wrong |
| C78 | model_utilities.hpp 101 | Adding a number to an affine model adds the lower bound to `-x` instead of subtracting it: the error decreases by a negative number and increases by a positive one | C78_add_number_counterexample |
| C78 | affine_model.tpl.hpp 301-310 | The scaling onto an interval with a negative midpoint has a negative error, and its range is smaller than the interval | C78_scaling_counterexample |
| C78 | affine_model.tpl.hpp 191 | In the error of a product `mag(value)+norm(gradient)` is not in brackets, so the value is not multiplied by the error of the other factor | C78_mul_counterexample |
| C78 | model_utilities.hpp 175-196 | The error of a multiple by an interval is the mean of two one-sided errors, not their maximum | C78_scale_counterexample |
| C78 | affine_model.tpl.hpp 380-388 | Composition subtracts and adds values as numbers: the result does not enclose the composition, or the model with a negative error throws | C78_compose_counterexample, C78_compose_throws |
| C79 | linear_programming.cpp 222 | The lower bounds enter with the wrong sign, so that a feasible problem is reported as infeasible by `validate_feasibility` | C79_validate_infeasible_wrong |
| C79 | linear_programming.cpp 204 | An approximation which is NaN passes the test and is reported as feasible by `validate_feasibility` | C79_validate_nan |
| C79 | linear_programming.cpp 334 | Contradictory bounds make `feasible` throw instead of returning false | C79_empty_bounds_throw |
| C80 | affine_set.cpp 424-425 | The errors of the models of constraints are ignored, so that sets with points are found to be separated and empty and have empty outer approximations; this includes the affine over-approximations made by the affine paver | C80_separated_error, C80_outer_error |
| C80 | affine_set.cpp 424-425 | Of an uncertain bound of a constraint only the middle is used | C80_separated_bounds |
| C80 | affine_set.cpp 182-195, 418-421 | The domain of the set `{Gy+h | y in D}` is ignored | C80_domain_ignored |
| C80 | affine_set.cpp 127-132 | The functions are ignored unless the domain is the unit box | C80_affine_functions_ignored |
| C80 | affine_set.cpp 98 | The error of the upper end point is ignored | C80_ball_error |
| C81 | inclusion_integrator.cpp 256-257 | For additive inputs `pK` is the largest input, although several inputs may act on the same component and the coefficients may be larger than one: the error of the zero approximation is too small | C81_zero_additive |
| C81 | inclusion_integrator.cpp 158-161, 183-184 | `pK` does not contain the size of the inputs: the error of the zero approximation is too small for inputs larger than one | C81_zero_large |
| C81 | inclusion_integrator.cpp 174, 191-192 | `expLambda` is one for a negative logarithmic norm, and so the error of the constant approximation is zero for additive inputs, although the end points of solutions are not reached with constant inputs | C81_constant_contracting |
| C82 | differential_inclusion_evolver.cpp 121-131 | An approximation given several times has its delay increased several times a step, and `1u<<delay` is undefined for 32 | C82_overflow |
| C82 | differential_inclusion_evolver.cpp 264-292 | If volumes are infinite, there is no evolved or reached set and null functions are used | C82_unbounded, C82_no_reach |
| C83 | differential_inclusion_evolver.cpp 235 | Steps are not cut at the final time: the final set is for a later time | C83_overshoot |
| C83 | differential_inclusion_evolver.cpp 235 | A step size which does not change the rounded time gives an infinite loop | C83_infinite_loop |
| C84 | differential_inclusion_evolver.cpp 381-382 | Errors made by sweeping the new terms are set to zero: points are lost | C84_incorporate_swept |
| C85 | double.cpp 135-139 | Rounded downwards, the loop of `sqrt_rnd` alternates between two neighbouring numbers for ever, e.g. for 1+2^-51 | C85_infinite_loop |
| C86 | double.cpp 375-377, 391-393 | `cos_rnd` of negative numbers and of numbers in (3π/4, π) is rounded in the wrong direction | C86_cos_inverted, C86_cos_up, C86_cos_down |
| C86 | double.cpp 430, 444 | The square in the series of the sine is rounded in the wrong direction; the bounds are not valid even for \|x\|<3/4 | C86_sin_up, C86_sin_down |
| C86 | double.cpp 299-306 | Near π/2 `sin_rnd` is too large rounded downwards and fails an assertion rounded upwards | C86_sin_half_pi |
| C86 | double.cpp 487, 549 | `tan_rnd` is not a bound near −π/2 and 3π | C86_tan_up, C86_tan_down |
| C86 | double.cpp 608 | In `atan_rnd` the denominator is rounded in the wrong direction if the numerator is negative | C86_atan_down |
| C87 | double.cpp 228 | The logarithm of zero is plus infinity | C87_log_zero |
| C88 | float_bounds.tpl.hpp 88-95 | If the midpoint is rounded to π, the upper bound of the cosine is taken at the wrong end | C88_cos_unsound |
| C88 | float_bounds.tpl.hpp 91-92 | An assertion fails for the cosine of some numbers, e.g. the double 97.38937226128358 | C88_cos_assertion |
| C88 | float_bounds.tpl.hpp 117-124 | If π is rounded upwards in the precision, e.g. with 55 bits, bounds that contain a pole of the tangent are accepted | C88_tan_pole |
| C88 | float_bounds.tpl.hpp 122-123 | Poles are detected only by `assert`, which is not compiled in release builds | C88_tan_unchecked |
| C89 | polynomial.tpl.hpp 140-149 | A derivative keeps the terms that vanish, with repeated indices; evaluating or negating the result goes wrong | C89_derivative_invariant |
| C89 | polynomial.tpl.hpp 408-409 | Partial evaluation of a polynomial of degree zero writes beyond the end of an array | C89_partial_evaluate_undefined |
| C89 | multi_index.hpp (DegreeType) | Products of degree 65536 wrap around | C89_mul_wrap |
| C89 | polynomial.tpl.hpp 163-173 | Truncation drops interval coefficients that contain zero | C89_truncate_unsound |
| C89 | polynomial.tpl.hpp 80-98, 234-242 | In one variable, constants are added to the linear term, assignment of a constant gives zero, and the degree is always zero | C89_univariate_constants |
| C89 | evaluate.tpl.hpp 118-148 | In one variable, the power of the last term is forgotten: the value of x at 3 is 1 | C89_univariate_evaluate_wrong |
| C90 | box.hpp, interval.inl.hpp | Empty boxes are not subsets of, and are reported to intersect, other boxes; the hull of an empty box and another is too large | C90_empty_violated |
| C90 | box.hpp, box.tpl.hpp | Tests of boxes of different dimensions use the dimension of the first one | C90_dimension_violated |
| C90 | box.cpp 120-158, box.tpl.hpp 60-67, 127-136, 171-180 | The box without sides has no vertices; its widest side, radius and volume read beyond the end | C90_zero_dimension_violated |
| C91 | geometry.cpp 93 | `inside` for a located and a regular set tests whether the sets are separated, not whether the box is covered | C91_inside_is_separated, C91_inside_never, C91_inside_violated |
| C91 | geometry.cpp 71-73 | `overlap` is true as soon as the regular set covers a box from which the located set is not known to be separated | C91_overlap_violated |
| C91 | geometry.cpp 74, 95, 116 | The recursion does not end for a tolerance zero, or below the distance of neighbouring numbers | C91_no_tolerance_violated, C91_resolution_violated |
| C92 | float_lower_bound.hpp 313-314, 319-320 | The operators `/` and `/=` of a positive lower bound by a positive upper bound multiply | C92_lower_operator_div_violated |
| C92 | float_upper_bound.hpp 344-345 | An exact positive number over a positive lower bound is rounded down though an upper bound is returned | C92_exact_div_violated, C92_exact_div_third |
| C92 | float_lower_bound.hpp 272-273, 342-343 | Negative lower bounds become positive ones unchecked; their squares and products are wrong | C92_positive_lower_cast_violated |
| C92 | float_upper_bound.hpp 298-299, float_error.hpp 127 | Exponents from 2^31 on become negative | C92_pow_violated |
| C93 | complex.hpp 146-147, 172 | Polar construction takes the logarithm of the modulus as radius (documented for the constructor only) | C93_polar, C93_polar_violated |
| C93 | complex.hpp 62-67 | No argument, logarithm or square root on the negative real line | C93_negative_violated |
| C94 | chebyshev_polynomial.tpl.hpp 386-389, 398-399, 284 | In several variables sums are sorted in reverse lexicographic order, but the product sizes its buffers by the last term of each group: `(x+1)*(x+1)` writes beyond the end | C94_mul_violated |
| C94 | chebyshev_polynomial.tpl.hpp 101, 264 | Adding a scalar to a polynomial whose first term is not the constant fails an assertion: `x+1` | C94_add_scalar_violated |
| C94 | chebyshev_polynomial.tpl.hpp 183, 349, 370 | Polynomials without terms are read beyond the end in products and in evaluation in several variables | C94_mul_empty_violated, C94_evaluate_empty_violated |
| C94 | multi_index.hpp 50 | Differences of indices are `short int`: from degree 32769 on a product with a constant is wrong | C94_mul_overflow_violated |
| C95 | simplex_algorithm.cpp 452-453, 1394-1396, 1411-1412 | The certificate of infeasibility counts variables which may be at their bound as violating it: with `3*x0+6*x2=1`, `x1-x2=0`, `x0` at least `1/3` rounded down, `x1` at least `2^-60`, the answer is false in double precision although the problem is feasible | C95_false_wrong |
| C95 | simplex_algorithm.cpp 1388-1403 | The bounds of non-basic variables are not compared: the answer is true although they cross | C95_crossed_bounds_wrong |
| C95 | simplex_algorithm.cpp 478-480 | Variables of kind FIXED are taken to be zero whatever their bounds | C95_fixed_wrong |
| C96 | graded.hpp 109, 261-279 | `degree()` of an empty series is 65535, so the assertions of `nul`, `pos` and `hlf` fail at the first coefficient: no equation using them can be integrated | C96_unsupported, C96_half_fails |
| C96 | graded.hpp 215-216; 187-188, 207-208 | A number times a series multiplies the coefficient of order zero only; a series times a number multiplies the last coefficient only | C96_number_left_wrong, C96_number_right_wrong |
| C96 | graded.hpp 338-347 | `pow` divides by the coefficient of order zero also for positive powers, so the coefficients are unbounded where the argument contains zero | C96_pow_zero_wrong |
| C96 | graded.hpp 452-466, 477-482 | Tangents and inverse trigonometric functions are not implemented; absolute values, maxima and minima throw | C96_unsupported |
| C97 | integrator.cpp 602-605 | At the highest order in time, terms of low degree in space are taken on the bounds: the expansion is around the centre moved along with the trajectory, so bounds which merely contain the trajectories (accepted by `flow_step(f,domx,h,bndx)`) give a flow which does not contain the solution | C97_invariant_bounds_wrong |
| C97 | integrator.cpp 785-787 | `old_error` is overwritten before the comparison: the order in space is always raised to its maximum first, and an infinite error makes the loop endless | C97_space_first, C97_infinite_error_loops |
| C98 | symmetric_matrix.hpp 205 | `resize(n)` allocates n(n-1)/2 entries instead of n(n+1)/2: the last diagonal entry is outside the array | C98_resize_wrong |
| C98 | tensor.hpp 148-165 | Printing a tensor of rank above three prints as many entries as the sum of the sizes, with wrong indices, and reads beyond the end when the sum exceeds the product | C98_tensor_write_wrong, C98_tensor_rank_four_wrong |
| C98 | tensor.hpp 88; diagonal_matrix.hpp 224 | `transform` of an empty tensor, and the constructor from an empty array, read the first entry | C98_tensor_transform_empty_wrong, C98_diagonal_empty_wrong |
| C99 | fixed_differential.hpp 278-279 | The gradient of a quotient of first differentials adds the term of the divisor instead of subtracting it | C99_first_quotient_partial, C99_first_quotient_wrong |
| C99 | fixed_differential.hpp 639-677 | Second differentials of sqrt, exp, log, sin, cos and tan use f'' where half of it is needed | C99_second_elementary_partial, C99_second_elementary_wrong |
| C99 | fixed_differential.hpp 631-633 | The second differential of a square halves the product of the gradients | C99_second_square_partial, C99_second_square_wrong |
| C99 | fixed_differential.hpp 635-637; fixed_univariate_differential.hpp 400-401 | Second differentials of powers forget the product of the gradients: the second derivative of pow(x,2) is zero | C99_second_power_wrong, C99_hessian_power_wrong |
| C99 | fixed_differential.hpp 504-513 | The coefficient of the product of two different variables is half of what it should be | C99_second_coefficient_wrong |
| C99 | fixed_univariate_differential.hpp 397-398 | The univariate second differential of a square halves the term with the second derivative; the Hessian of sqr(sqr(x)) is wrong | C99_univariate_square_partial, C99_hessian_square_wrong |
| C100 | runge_kutta_integrator.cpp 57 | The weights of the stages are 1,1,2,2 instead of 1,2,2,1: the method has order one instead of four | C100_second_order_fails, C100_fourth_order_fails |
| C100 | runge_kutta_integrator.cpp 63 | The step size is a static variable: every integrator uses the step size of the first one | C100_static_step_size_fails |
| C100 | vector_field_simulator.cpp 97-128, 175-179 | Cells which only touch the initial box give initial points outside it | C100_initial_points_outside |
| C100 | curve.cpp 138 | The bounding box of a curve without points reads its first point | C100_bounding_box_empty |
| C101 | hybrid_simulator.cpp 83 | Invariants are tested with the guard functions of their events: simulations throw for a `HybridAutomaton` with an invariant, and ignore the invariants of a composition | C101_invariant_fails, C101_composite_ignores_invariants |
| C101 | hybrid_simulator.cpp 345 | The event traces of the points of a list start with the default event, so that nothing is simulated if it is a terminating one | C101_listed_default_event |
| C101 | hybrid_set.cpp 92 | States whose times round to the same number are lost | C101_orbit_fails |
| C101 | hybrid_set.cpp 115 | The orbit of an empty list reads its first point | C101_empty_list |
| C102 | expression_set.cpp 157, 224 | Conjunctions and disjunctions of constraints are exchanged in the euclidean set | C102_conjunction_fails, C102_disjunction_fails |
| C102 | expression_set.cpp 224 | The constructor accepts equality constraints, but there is no euclidean set with them | C102_equality_fails |
| C102 | expression_set.hpp 252 | A box made of a list of bounds ignores all but the first bound of a variable | C102_duplicate_bounds_fails |
| C102 | function_set.cpp 228 | A set without constraints has dimension zero in every space | C102_constraint_dimension_fails |
| C102 | expression_set.hpp 364 | Labelled sets in spaces with different orders of the same variables cannot be compared | C102_labelled_comparison_fails |
| C102 | hybrid_set.cpp 424 | Adjoining a set to a location which has one is ignored | C102_hybrid_adjoin_fails |
| C102 | hybrid_set.cpp 527 | The intersection of boxes with constraints fails if a location has no constraints, although there is a branch for it | C102_intersection_fails |
| C103 | templates.tpl.hpp 93 | A plus sign is printed without parentheses around its argument: `(+(x+y))*z` is printed as `+x+y*z` | C103_plus_sign_fails, C103_plus_sign_difference_fails |
| C103 | operators.cpp 133 | The operator `nul` has no name (it is never printed, since the constructors replace it) | C103_nul_fails |
| C104 | function.cpp 396-412; handle.hpp 109 | `set` and `f[i]=g` change the node shared with the copies of the function and with the functions composed with it | C104_set_shared_fails, C104_set_composed_fails |
| C104 | function.cpp 396-412 | `f[0]=compose(s,f)` makes `f` refer to itself, and its evaluation never ends | C104_set_cycle_fails |
| C104 | function.cpp 896-898 | The join of a validated scalar function and a validated vector function has two components, whatever the size of the latter, and fails if that is zero | C104_join_validated_size, C104_join_validated_fails |
| C104 | function.cpp 728-732, 746-750 | Sums and differences of validated vector functions do not compare the sizes, and drop components of the second one | C104_sum_validated_fails |
| C104 | function.cpp 758-762 | The product of a validated scalar and a validated vector function, one of which is a function patch, calls itself without end (the casts are to functions, not patches) | C104_product_validated_fails |
| C104 | function.cpp 1116 | An operator with a function patch on the left and a number on the right calls itself without end | C104_operator_number_fails |
| C104 | function.cpp 614-622; symbolic_function.hpp 567-568 | `embed` with sizes chooses the constructor which throws, so it never gives a result | (modelled as no result) |
| C106 | command_line_interface.cpp 314-317 | A rejected command line has already set the scheduler, when one was given before the problem | C106_rejected_fails |
| C106 | command_line_interface.cpp 307-317 | The scheduler is not kept among the packs, so that repeating it is not reported | C106_repeated_fails |
| C106 | command_line_interface.cpp 178, 200, 278 | `stoi` ignores what follows a number, so that `-v 3x` and `-d grid@2@7` are accepted; `-0` is also | C106_values_fails |
| C107 | array.hpp 134-135 | Move assignment overwrites the pointer of its target, whose block is never freed | C107_move_assign_fails |
| C107 | array.hpp 249-260 | `complement` of indices which are repeated or not increasing writes past the end of the result | C107_complement_fails |
| C108 | first_order_pde.cpp 147-148 | The step is chosen from the harmonic sum of the norms in the two directions, which is below the smaller, and not from their sum: for velocity 3/2 in both directions alternating data grow by 5 in each step. (The conversion of `log2(...)+1` to `Nat` is also undefined when the sum is below 1/4, not modelled) | C108_courant_fails |
| C108 | first_order_pde.cpp 105, 228 | The right-hand side `f` is checked for its sizes and never used | C108_source_fails |
| C108 | first_order_pde.cpp 95 | The mixed term of the interpolation is multiplied by `a0` and not by `a0*a1` | C108_interpolate_fails |
| C109 | 1D_pde.hpp 100, 115-124, tensor.hpp 82 | The tensor has as many columns as steps, and the last step writes one column further, which is the first column of the next row: the initial data | C109_string_initial_fails, C109_alias_fails |
| C109 | 1D_pde.hpp 110 | The first step subtracts the second difference instead of adding it | C109_string_first_fails |
| C109 | 1D_pde.hpp 46-51 | Points are spaced by `L/n` and the last is `L`, so that the last interval is twice as long | C109_linspace_fails |
| C110 | list_set.hpp 128-130 | `ls.adjoin(ls)` inserts a part of a vector into itself, which the library does not define | C110_self_fails |
| C110 | list_set.hpp 69-74, 124, 129 | Constructors do not check dimensions, and `adjoin` compares last elements only: mixed list sets are accepted | C110_mixed_fails |
| C111 | matrix.tpl.hpp 996-997, 1025 | The pivot found is ignored, and a column which depends on earlier ones is divided by zero, although a decomposition exists | C111_dependent_fails |
| C112 | matrix.tpl.hpp 876 | A zero working column gives a zero vector and a division by zero, although no reflection is needed | C112_zero_fails |

Further disagreements found by reading, without a model: copying of `Array` and `SharedArray` (array.hpp 134-135, 231);
`Procedure` vector constructors leave a size uninitialised (procedure.tpl.hpp 184-189); `pow` of a Taylor model with
negative exponent computes the positive power (taylor_model.tpl.hpp 1455-1460); `HybridGridTreePaving::separated` and
`inside` (hybrid_paving.cpp 197-221).

## Testing the theorems

Definitions of the model are changed like realistic bugs in a copy outside this directory and rebuilt; every attempt is
a line of `seeded/LOG.jsonl`. Attempts that were not caught led to stronger theorems, named there.
