{"id": "C01", "title": "Three-valued connectives never give a definite wrong answer", "statement": "If each operand of !, &&, ||, == or ^ on Kleenean/validated logical values correctly describes an underlying Boolean (definitely true only if it is true, definitely false only if it is false), then the combined value correctly describes the classical combination; the connectives obey De Morgan's laws, are commutative, associative and monotone in information.", "quantifier": "all pairs/triples of logical values and all Booleans they may describe", "why_tests_cant": "The claim relates five-valued data to every Boolean it could stand for and composes through arbitrarily nested expressions.", "anchors": ["source/numeric/logical.hpp:LogicalValue, operator&&, operator||, operator!", "source/numeric/logical.cpp:equal, negation, conjunction, disjunction"]}
{"id": "C02", "title": "Checking a logical expression at any effort is sound", "statement": "Whenever check(effort) of a lazily built logical expression reports definitely true (false), the expression's classical value is true (false); in particular the disjunction of a sequence of LowerKleeneans is reported true only if some member is true and the conjunction of UpperKleeneans false only if some member is false.", "quantifier": "all expression trees, all efforts, all infinite sequences of leaf verdicts that are themselves sound", "why_tests_cant": "Efforts and sequences are unbounded.", "anchors": ["source/numeric/logical.cpp:LogicalHandle, LogicalExpression, disjunction(Sequence), conjunction(Sequence)", "source/numeric/logical.hpp:Effort, check"]}
{"id": "C03", "title": "Nondeterministic choice only picks cases whose condition is definitely true", "statement": "If choose(...) over a family of LowerKleenean conditions returns case k, then condition k was definitely true at some effort; if some condition eventually becomes definitely true the choice returns.", "quantifier": "all finite families of conditions, all effort-indexed verdict histories", "why_tests_cant": "The loop runs over an unbounded increasing effort.", "anchors": ["source/numeric/logical.cpp:nondeterministic_choose_index", "source/numeric/logical.hpp:choose, NondeterministicBoolean"]}
{"id": "C04", "title": "Mixing a semidecidable proposition with a Boolean keeps the Boolean's information", "statement": "For a Sierpinskian (or negated Sierpinskian) s and a Boolean b, s||b and s&&b describe the classical disjunction and conjunction.", "quantifier": "all logical values and all Booleans", "why_tests_cant": "Needs every combination of value, operand order and subsequent conversion.", "anchors": ["source/numeric/logical.hpp:operator||(Sierpinskian,Boolean), operator&&(NegatedSierpinskian,Boolean)"]}
{"id": "C05", "title": "Bounds arithmetic encloses exact arithmetic", "statement": "If x lies in the floating-point Bounds X and y lies in Y then x+y, x-y, x*y, -x, x^2, x/2, |x|, max(x,y), min(x,y), x^n lie in the Bounds computed for these operations, for every precision and every directed-rounding arithmetic that rounds in the correct direction; the result is a non-empty enclosure whenever the arguments are.", "quantifier": "all bounds, all real points in them, all precisions", "why_tests_cant": "Inclusion must hold for a continuum of points and every rounding outcome in a nine-way sign case analysis.", "anchors": ["source/numeric/float_bounds.inl.hpp:Operations<Bounds>::_add,_sub,_mul,_sqr,_pow,_abs,_max,_min", "source/numeric/float_bounds.hpp:friend mul, add, sub"]}
{"id": "C06", "title": "Bounds division and reciprocal enclose the exact quotient or give the whole line", "statement": "If x lies in X, y lies in Y and y is nonzero then x/y lies in X/Y and 1/y lies in rec(Y); if Y contains zero the result is the whole extended line and never NaN-like or falsely bounded.", "quantifier": "all bounds and points", "why_tests_cant": "Sign combinations, zero boundaries and infinite endpoints over a continuum.", "anchors": ["source/numeric/float_bounds.inl.hpp:_div,_rec", "source/numeric/float_bounds.hpp:div, rec"]}
{"id": "C07", "title": "Comparisons of Bounds are sound and as decisive as the data allow", "statement": "x<y, x==y, sgn, is_zero, is_positive on Bounds return definitely true only if the relation holds for all points, definitely false only if it fails for all points; refines/models/consistent/inconsistent decide set inclusion, membership, and (non-)emptiness of the intersection.", "quantifier": "all bounds and all points in them", "why_tests_cant": "Universal quantification over points of both operands.", "anchors": ["source/numeric/float_bounds.inl.hpp:_eq,_lt,_sgn,_is_zero,_is_positive", "source/numeric/float_bounds.hpp:refines, models, consistent, inconsistent"]}
{"id": "C08", "title": "Refinement, coarsening and value/error of Bounds", "statement": "refinement(X,Y) contains exactly the common points, coarsening contains all points of both, and the ball value()+/-error() of Bounds contains every point of the Bounds.", "quantifier": "all bounds, all precisions", "why_tests_cant": "Rounding of the midpoint must never lose points.", "anchors": ["source/numeric/float_bounds.hpp:refinement, coarsening, value, error"]}
{"id": "C09", "title": "Ball arithmetic encloses exact arithmetic", "statement": "If |x-v|<=e and |y-w|<=d then the Ball computed for x+y, x-y, x*y, x/y, -x, |x|, x^2 contains the exact result; conversions between Ball and Bounds lose no points.", "quantifier": "all balls, all points, all precisions", "why_tests_cant": "Error terms are accumulated with upward rounding whose sufficiency depends on every rounding outcome.", "anchors": ["source/numeric/float_ball.tpl.hpp", "source/numeric/float_ball.hpp", "source/numeric/float_ball.inl.hpp"]}
{"id": "C10", "title": "Decimal arithmetic is exact and its comparisons decide the order of the represented numbers", "statement": "For decimals a,b, the decimals returned for a+b, a-b, a*b, -a, a^2, a/2, |a|, and the rational a/b represent exactly the mathematical result; cmp/eq/lt agree with the order of the represented numbers, whatever the representation.", "quantifier": "all decimals in any (non-)canonical representation", "why_tests_cant": "Unbounded numerators and scales.", "anchors": ["source/numeric/decimal.cpp:operator+, operator-, operator*, operator/, hlf, sqr, abs, cmp, eq, lt, canonicalize"]}
{"id": "C11", "title": "Decimal text round-trip", "statement": "Writing a decimal and constructing a decimal from the written text gives an equal number; construction from text rejects malformed text and otherwise yields the number the text denotes.", "quantifier": "all decimals, all strings", "why_tests_cant": "Unbounded strings, leading/trailing zeros and signs.", "anchors": ["source/numeric/decimal.cpp:Decimal(String), operator<<"]}
{"id": "C12", "title": "Dyadic representation and printing", "statement": "For every finite dyadic x, x = mantissa()/2^exponent() with the mantissa odd unless exponent()=0; the decimal writer terminates and prints exactly x; the scientific writer terminates and denotes x; floor, ceil and round return the mathematical floor, ceiling and nearest integer; conversion to Decimal is exact.", "quantifier": "all dyadic numbers", "why_tests_cant": "Termination and exactness of digit loops for unbounded numbers.", "anchors": ["source/numeric/dyadic.cpp:mantissa, exponent, floor, ceil, round, DecimalWriter::_write, ScientificWriter::_write, Dyadic(mpf_t)", "source/numeric/decimal.cpp:Decimal(Dyadic)"]}
{"id": "C13", "title": "LRU cache returns what was stored and evicts the least recently used entry", "statement": "After any sequence of valid put/get operations the cache holds at most the configured number of entries, each get returns the last value put for that label, has_label is accurate, and when full a put removes exactly the entry whose last use is oldest.", "quantifier": "all histories of operations, all positive capacities", "why_tests_cant": "Quantifies over operation histories.", "anchors": ["source/utility/lru_cache.hpp:LRUCache::put,get,has_label,age,current_size"]}
{"id": "C14", "title": "Binary words: order and prefix relations", "statement": "operator< on binary words is a strict total order in which a proper prefix precedes its extensions; is_prefix decides prefixes; appending and erasing a prefix are mutually inverse; text output can be read back.", "quantifier": "all words", "why_tests_cant": "Words of any length.", "anchors": ["source/utility/binary_word.hpp"]}
{"id": "C15", "title": "Binary tree operations implement set algebra on marked regions", "statement": "Interpreting a tree as the set of infinite bit paths passing through an enabled leaf: restrict(t,u) is intersection, remove(t,u) is difference, add_enabled(t,u) is union, add_enabled(t,path) adds exactly the subtree at path; subset(t,u) and intersect(t,u) decide inclusion and non-empty intersection; has_enabled/all_enabled decide emptiness/fullness.", "quantifier": "all trees (with any mixture of enabled/disabled leaves), all paths", "why_tests_cant": "Structural induction over unbounded trees.", "anchors": ["source/geometry/binary_tree.cpp", "source/geometry/binary_tree.hpp"]}
{"id": "C16", "title": "Mincing and recombining a tree never change the set", "statement": "mince(depth), split and recombine preserve the denoted set; after recombine no two sibling leaves carry the same flag; after mince every enabled leaf is at depth at least the requested one.", "quantifier": "all trees and depths", "why_tests_cant": "Unbounded trees.", "anchors": ["source/geometry/binary_tree.cpp:mince_node, recombine_node, split"]}
{"id": "C17", "title": "Tree serialisation round-trip and counting", "statement": "Rebuilding a tree from its depth-first (tree,leaf) bit arrays gives the original tree; count_enabled_leaf_nodes and depth agree with an enumeration of enabled leaves; the iteration visits each enabled leaf exactly once and in order.", "quantifier": "all trees", "why_tests_cant": "Unbounded trees.", "anchors": ["source/geometry/binary_tree.cpp:restore_node, tree_to_binary_words, count_enabled_leaf_nodes, depth", "source/geometry/grid_paving.cpp:GridTreeCursor, GridTreeConstIterator"]}
{"id": "C18", "title": "Grid cell addresses denote boxes consistently", "statement": "The lattice box of a cell determined by (extent, word) is halved alternately by coordinate; child cells partition the parent's box; re-rooting a cell to a higher extent with the primary-cell path does not change its box; equal boxes iff equal cells after re-rooting; the cell order is a strict total order consistent with this identification.", "quantifier": "all dimensions, extents and words", "why_tests_cant": "Unbounded extents and word lengths.", "anchors": ["source/geometry/grid_paving.cpp:primary_cell_lattice_box, primary_cell_path, compute_lattice_box, compare_abstract_grid_cells", "source/geometry/grid_cell.hpp"]}
{"id": "C19", "title": "Paving updates: adjoin, restrict, remove", "statement": "For grid tree pavings, adjoin(cell), adjoin(paving), restrict(paving) and remove(cell/paving) yield exactly the union, intersection (up to the paving's region) and difference of the point sets, even when the operands are rooted at different extents.", "quantifier": "all pavings, cells and histories of updates", "why_tests_cant": "Histories and re-rooting to unbounded extents.", "anchors": ["source/geometry/grid_paving.cpp:_adjoin_cell, adjoin, restrict, remove, up_to_primary_cell"]}
{"id": "C20", "title": "Paving queries", "statement": "subset, superset, disjoint, intersects, covers between pavings/cells/boxes answer true only when the corresponding relation between point sets holds, and decide it exactly for pavings against pavings and cells.", "quantifier": "all pavings, cells, boxes", "why_tests_cant": "Unbounded trees of different roots.", "anchors": ["source/geometry/grid_paving.cpp:subset, intersect, superset, disjoint, intersects"]}
{"id": "C21", "title": "Outer and inner approximations of sets by pavings", "statement": "adjoin_outer_approximation(set) yields a paving that contains every point of the set, adjoin_inner_approximation(set) a paving contained in the set, adjoin_lower_approximation only cells meeting the set, for any sound three-valued set predicates.", "quantifier": "all sets presented by sound predicates, all grids, all fineness levels", "why_tests_cant": "Predicates may answer indeterminate arbitrarily; recursion depth unbounded.", "anchors": ["source/geometry/grid_paving.cpp:_adjoin_outer_approximation, _adjoin_inner_approximation, _adjoin_lower_approximation, adjoin_over_approximation"]}
{"id": "C22", "title": "Monomial orders", "statement": "The graded, lexicographic and reverse-lexicographic comparisons of multi-indices of equal size are strict total orders compatible with addition of exponents.", "quantifier": "all multi-indices of any number of variables and degree", "why_tests_cant": "Infinitely many exponents.", "anchors": ["source/algebra/multi_index.inl.hpp:graded_less, lexicographic_less, reverse_lexicographic_less"]}
{"id": "C23", "title": "Polynomial expansions behave as finite maps from exponents to coefficients", "statement": "For sorted expansions get/set/at/insert/append/remove_zeros/combine_terms refine the corresponding operations on finitely supported maps, keep terms strictly sorted, and equality decides equality of maps; combining and removing zero terms never changes the polynomial value at any point.", "quantifier": "all expansions, indices, histories of updates", "why_tests_cant": "Histories of updates over unbounded term lists.", "anchors": ["source/algebra/expansion.tpl.hpp:Expansion, SortedExpansion"]}
{"id": "C24", "title": "Taylor model addition, subtraction and scalar operations are validated", "statement": "If f is within the error of Taylor model F (on the unit box) and g within that of G then f+g, f-g, -f, c+f, c*f are within the error of the computed models, for any rounding arithmetic and any number c inside the supplied number's enclosure.", "quantifier": "all models, all functions they enclose, all points, all precisions", "why_tests_cant": "Functions and points form a continuum; every rounding matters.", "anchors": ["source/function/taylor_model.tpl.hpp:_add,_sub,_acc,_scal,_sparse_apply,add_err,sub_err,mul_err"]}
{"id": "C25", "title": "Taylor model multiplication is validated", "statement": "If f is in F and g in G then f*g is in the computed product F*G.", "quantifier": "all models, functions, points, precisions", "why_tests_cant": "as above, with accumulated products of all term pairs.", "anchors": ["source/function/taylor_model.tpl.hpp:_ifma,_mul,fma_err"]}
{"id": "C26", "title": "Sweeping (simplifying) a Taylor model never loses enclosed functions", "statement": "For every sweeper, every function enclosed by a model before sweep is enclosed by the model after, for all coefficient types.", "quantifier": "all models, all sweep criteria", "why_tests_cant": "The discarded set is arbitrary.", "anchors": ["source/function/taylor_model.tpl.hpp:SweeperBase::_sweep, RelativeSweeperBase::_sweep"]}
{"id": "C27", "title": "Range, norm and bounds of Taylor models contain all values", "statement": "Every value of every enclosed function on the unit box lies in range(); |f| is bounded by norm().", "quantifier": "all models, functions, points", "why_tests_cant": "Continuum of points.", "anchors": ["source/function/taylor_model.tpl.hpp:range, norm, gradient_range, radius"]}
{"id": "C28", "title": "Refinement relations of Taylor models", "statement": "refines(F,G) implies every function enclosed by F is enclosed by G; inconsistent(F,G) implies no function is enclosed by both; refinement(F,G) encloses every function enclosed by both.", "quantifier": "all models, all functions", "why_tests_cant": "Quantifies over all functions.", "anchors": ["source/function/taylor_model.tpl.hpp:_refines,_inconsistent,_consistent,_refinement"]}
{"id": "C29", "title": "Structural Taylor model operations are validated", "statement": "embed, discard_variables, split, antidifferentiate, evaluate and compose map enclosures to enclosures: the resulting model encloses the corresponding transformed function.", "quantifier": "all models, functions, arguments", "why_tests_cant": "Continuum of functions.", "anchors": ["source/function/taylor_model.tpl.hpp:_embed,_embed_error,_discard_variables,_split,antidifferentiate,compose"]}
{"id": "C30", "title": "Interval predicates decide the set relations they name", "statement": "For intervals with l<=u: element/contains, subset, superset, disjoint, intersect, overlap, inside, covers, separated, equal are true iff the named relation holds between the point sets (closed or interior); intersection and hull denote intersection and convex hull; split returns two intervals whose union is the interval.", "quantifier": "all intervals and points", "why_tests_cant": "Universally quantified over points.", "anchors": ["source/geometry/interval.inl.hpp", "source/geometry/box.hpp"]}
{"id": "C31", "title": "Unions of intervals", "statement": "UnionOfIntervals built from any list of intervals denotes their union; intersection, join, intersect and subset compute or decide the set operations; components stay sorted and disjoint; measure is the total length.", "quantifier": "all finite lists of intervals", "why_tests_cant": "Unbounded lists, merge-loop invariants.", "anchors": ["source/geometry/union_of_intervals.hpp"]}
{"id": "C32", "title": "Compiling a formula to a procedure preserves its value", "statement": "Executing the procedure obtained from a (possibly shared/DAG) formula gives, for every argument vector and every algebra, the formula's value, with every instruction reading only earlier results.", "quantifier": "all formulae, all arguments, all result algebras", "why_tests_cant": "Structural induction over DAGs with a cache.", "anchors": ["source/function/procedure.tpl.hpp:_convert,_execute", "source/function/formula.tpl.hpp:evaluate"]}
{"id": "C33", "title": "Reverse-mode gradient of a procedure is the derivative", "statement": "gradient(procedure,x) equals the vector of partial derivatives of the computed function at x.", "quantifier": "all procedures, all points of differentiability", "why_tests_cant": "Continuum of points, unbounded programs.", "anchors": ["source/function/procedure.tpl.hpp:gradient, back_gradient"]}
{"id": "C34", "title": "The hull contractor never removes a solution", "statement": "Reducing a box by forward evaluation and back-propagation through a procedure for the constraint f(x) in C keeps every x in the box with f(x) in C.", "quantifier": "all procedures, boxes, targets, points", "why_tests_cant": "Every point of a box and every program.", "anchors": ["source/function/procedure.tpl.hpp:backpropagate", "source/function/procedure.cpp:simple_hull_reduce"]}
{"id": "C35", "title": "Symbolic simplification preserves meaning", "statement": "simplify(e) evaluates to the same value as e wherever e is defined; simplification of logical expressions preserves truth value; identical(e1,e2) implies equal values.", "quantifier": "all expressions and valuations", "why_tests_cant": "Structural induction.", "anchors": ["source/symbolic/templates.tpl.hpp:_simpl,_simplify_node,IdenticalSymbolic", "source/numeric/operators.hpp:are_inverses"]}
{"id": "C36", "title": "Symbolic derivative is the derivative", "statement": "derivative(e,v) evaluates to the partial derivative of the value of e with respect to v wherever e is defined and differentiable by its operators.", "quantifier": "all expressions, variables, points", "why_tests_cant": "Continuum of points.", "anchors": ["source/symbolic/templates.tpl.hpp:_derivative_impl", "source/numeric/operators.hpp:derivative members"]}
{"id": "C37", "title": "Syntactic classification is sound", "statement": "is_constant_in(e,V), is_affine_in(e,V), is_polynomial_in(e,V) and is_additive_in imply that the value of e is independent of, affine in, polynomial in the variables V.", "quantifier": "all expressions, all variable sets, all valuations", "why_tests_cant": "Semantic claim over all valuations.", "anchors": ["source/symbolic/templates.tpl.hpp:is_constant_in,is_affine_in,is_polynomial_in", "source/function/formula.tpl.hpp:is_additive_in"]}
{"id": "C38", "title": "Substitution lemma", "statement": "Evaluating substitute(e,v,s) at a valuation equals evaluating e at the valuation updated with the value of s at v; simultaneous substitution by a list of assignments likewise; the arguments of the result are the expected ones.", "quantifier": "all expressions, variables, substituends, valuations", "why_tests_cant": "Structural induction.", "anchors": ["source/symbolic/templates.tpl.hpp:_substitute", "source/symbolic/expression.tpl.hpp:substitute"]}
{"id": "C39", "title": "Ordering algebraic equations", "statement": "algebraic_sort returns a permutation of the equations in which every equation only uses variables defined earlier (or not defined by equations), and signals an error exactly when the dependencies are cyclic.", "quantifier": "all finite systems of equations with distinct left-hand sides", "why_tests_cant": "Dependency graphs of any size.", "anchors": ["source/hybrid/hybrid_automaton.cpp:algebraic_sort"]}
{"id": "C40", "title": "A positive safety certificate is correct", "statement": "If verify_safety returns true then no state reachable from the initial set at any time lies outside the safe set, given an evolver whose reach/final sets over-approximate.", "quantifier": "all systems, all times, all initial and safe sets", "why_tests_cant": "Infinite time horizon and continuum of states.", "anchors": ["source/dynamics/reachability_analyser.tpl.hpp:verify_safety"]}
{"id": "C41", "title": "Outer chain reachability covers all reachable states", "statement": "If outer_chain_reach returns without raising an overspill error (policy ERROR), its result contains every state reachable from the initial set at any time.", "quantifier": "all systems, all times", "why_tests_cant": "Infinite horizon.", "anchors": ["source/dynamics/reachability_analyser.tpl.hpp:outer_chain_reach,_checked_restriction"]}
{"id": "C42", "title": "Finite-time upper reach and evolve sets", "statement": "upper_reach(X,t) contains all states reachable from X at times in [0,t]; upper_evolve(X,t) contains all states reachable at time t.", "quantifier": "all systems, sets, times and lock-to-grid times", "why_tests_cant": "Continuum of times; the time is divided by a lock-to-grid step.", "anchors": ["source/dynamics/reachability_analyser.tpl.hpp:upper_reach,upper_evolve,upper_reach_evolve,compute_time_steps"]}
{"id": "C43", "title": "State space indexing", "statement": "A Space maps its distinct variables to indices 0..n-1 bijectively in order; index/contains/operator[] agree; appending, joining and adjoining preserve this or raise an error on duplicates.", "quantifier": "all spaces and histories of construction", "why_tests_cant": "Histories.", "anchors": ["source/symbolic/space.cpp", "source/symbolic/space.hpp"]}
{"id": "C44", "title": "Truncated power-series (differential) arithmetic", "statement": "Sums, products, quotients and elementary functions of Differential objects of degree d have exactly the Taylor coefficients, up to degree d, of the corresponding operation on the represented germs.", "quantifier": "all degrees, numbers of variables, coefficients", "why_tests_cant": "Unbounded degree.", "anchors": ["source/algebra/differential.tpl.hpp", "source/algebra/univariate_differential.cpp"]}
{"id": "C45", "title": "Rounding to working precision", "statement": "For every precision p>=1, rounding a number down/up/nearest to p significant bits returns a p-bit number below/above/nearest the argument, is monotone and is the identity on p-bit numbers.", "quantifier": "all numbers, all precisions", "why_tests_cant": "Infinitely many numbers.", "anchors": ["source/numeric/floatmp.hpp", "source/numeric/floatdp.hpp", "source/numeric/rounding.hpp"]}
{"id": "C46", "title": "Rounded square roots enclose the exact root", "statement": "For every nonnegative number, the square root rounded down is at most, and rounded up at least, the exact square root, and the square root of Bounds contains the exact square root of every contained number.", "quantifier": "all nonnegative numbers and bounds, all precisions, any number of Newton iterations", "why_tests_cant": "Infinitely many numbers; the number of iterations depends on the argument.", "anchors": ["source/numeric/double.cpp:sqrt_rnd", "source/numeric/float_bounds.hpp:sqrt"]}
{"id": "C47", "title": "Exact bounds and balls enclose exact arithmetic", "statement": "If x lies in rational or dyadic Bounds X (or a dyadic Ball) and y in Y then x+y, x-y, x*y, x/y, -x, x/2, x^2, |x|, x^n, max, min lie in the result; division gives up exactly if the divisor may be zero; comparisons are definite only if right for all points and definite whenever all points agree; refines, inconsistent, refinement and coarsening are inclusion, disjointness, intersection and a common superset.", "quantifier": "all rational endpoints, all reals between them, all exponents", "why_tests_cant": "Continuum of points in infinitely many bounds.", "anchors": ["source/numeric/rational.cpp:_mul,_div,_sqr,_rec,RationalBounds", "source/numeric/dyadic.hpp:Bounds<Dyadic>,Ball<Dyadic,Dyadic>", "source/numeric/dyadic.cpp:pow"]}
{"id": "C48", "title": "Extended rational and dyadic arithmetic", "statement": "Arithmetic on rationals and dyadics with infinities and NaN agrees with the extended real line, giving NaN exactly where the result is undefined or an argument is NaN; comparison and equality decide the extended real order, and no comparison holds with NaN.", "quantifier": "all finite and infinite values and NaN", "why_tests_cant": "All combinations of signs, infinities and NaN with infinitely many finite values.", "anchors": ["source/numeric/extended.hpp:ExtendedOperations", "source/numeric/rational.cpp:cmp,eq,lt", "source/numeric/dyadic.cpp:cmp,eq,lt"]}
{"id": "C49", "title": "Integer and rational conversion, division, rounding, powers and text", "statement": "Constructing an Integer from any builtin integer gives that integer; quot and rem satisfy quot*b+rem=a; floor, ceil and round of a rational are the mathematical floor, ceiling and nearest integer (ties away from zero); integer powers are exact; a rational is written as its numerator and denominator in lowest terms.", "quantifier": "all builtin integers, all integers and rationals", "why_tests_cant": "2^64 builtin values and unboundedly many integers.", "anchors": ["source/numeric/integer.cpp", "source/numeric/rational.cpp:round,floor,ceil,pow,operator<<"]}
{"id": "C50", "title": "Indicator functions of predicates have the sign of the predicate", "statement": "indicator(p,POSITIVE) is positive exactly where the predicate p is true and negative exactly where it is false; indicator(p,NEGATIVE) has the opposite sign. The function fails exactly for predicates with logical variables, == or !=.", "quantifier": "for all predicates and all valuations at which they are defined", "why_tests_cant": "The predicate is an arbitrary tree of connectives and comparisons over arbitrary real expressions, and the claim is about every point of the state space.", "anchors": ["source/symbolic/expression.cpp: indicator, _indicator", "source/hybrid/hybrid_automaton.cpp: make_constraint_function", "source/symbolic/expression_set.cpp"]}
{"id": "C51", "title": "Common subexpression elimination preserves expressions and shares all equal nodes", "statement": "eliminate_common_subexpressions leaves the meaning of every expression in the vector unchanged, and afterwards equal subexpressions are the same node in memory and different ones are different nodes.", "quantifier": "for all vectors of expressions with any sharing, and any constants", "why_tests_cant": "Depends on the comparison of arbitrary expression trees being a strict weak order, including undecidable comparisons of constants.", "anchors": ["source/symbolic/expression.tpl.hpp: before, CommonSubroutineEliminator, eliminate_common_subexpressions", "source/numeric/real.cpp: same"]}
{"id": "C52", "title": "Incrementing a multi-index enumerates all monomials in graded order", "statement": "Incrementing a multi-index gives its immediate successor in the graded order, touches no memory but its own, and so counting up from zero visits every multi-index exactly once in increasing order.", "quantifier": "for all numbers of variables and all multi-indices whose degree can still be incremented", "why_tests_cant": "There are infinitely many indices, and no index may be skipped, repeated, or cause a write outside the object.", "anchors": ["source/algebra/multi_index.cpp: MultiIndex::operator++", "source/algebra/multi_index.inl.hpp: MultiIndex::MultiIndex(SizeType), graded_less"]}
{"id": "C53", "title": "Evaluating a polynomial gives its value", "statement": "Evaluating a polynomial, by Horner's rule or as a sum of powers, gives the sum over its terms of the coefficient times the product of powers of the arguments; evaluated over enclosures it gives an enclosure of the value.", "quantifier": "for all numbers of variables, all polynomials and all arguments", "why_tests_cant": "Horner's rule keeps partial sums in one register per variable, and which registers are live depends on how consecutive exponents differ; tests only try a few exponent patterns.", "anchors": ["source/algebra/evaluate.tpl.hpp: horner_evaluate, power_evaluate, evaluate"]}
{"id": "C54", "title": "Factorials and binomial coefficients are exact or refused", "statement": "The factorial and binomial coefficient functions return the exact number for every argument they accept, and fail for arguments whose result or whose computation does not fit in the integer type.", "quantifier": "for all arguments of all four integer widths", "why_tests_cant": "Intermediate products overflow silently for arguments close to the stated limits; tests only use small arguments.", "anchors": ["source/numeric/int.cpp: fac, bin"]}
{"id": "C55", "title": "Matrix inverses and solutions of linear systems are right or refused", "statement": "If a matrix of bounds is inverted without an exception then every matrix within the bounds is invertible and its inverse lies within the result; a matrix of bounds containing a singular matrix is refused. Over exact numbers inversion succeeds exactly when the determinant is nonzero and returns the inverse. Solving a system of bounds, by elimination or by preconditioned Gauss-Seidel iteration, encloses the solution of every system within the bounds. The supremum and logarithmic norms bound the growth under every enclosed matrix. The triangular decomposition satisfies PA=LU.", "quantifier": "for all square matrices of all sizes, all right-hand sides, all roundings and all preconditioners", "why_tests_cant": "Enclosure must hold for every point matrix in the bounds and every pattern of pivots; tests invert a few matrices and compare with approximate answers.", "anchors": ["source/algebra/matrix.tpl.hpp: lu_inverse, lu_solve, gs_solve_bounds, gs_step, dd_solve_bounds, triangular_decomposition, sup_norm, log_norm", "source/algebra/matrix.hpp: operator*", "source/algebra/matrix.cpp: inverse, solve"]}
{"id": "C56", "title": "The constraint solver loses no solution and its answers are right", "statement": "Every contraction of a box by a constraint (box reduction, Newton reduction, reduction by a combination of constraints, and the repeated reduction of all constraints) keeps every point of the box that satisfies the constraint, returns a box inside the original one, and reports infeasibility only if no point of the box satisfies it. The feasibility test answers \"true\" only if it returns a point of the domain that satisfies the constraints, and \"false\" only if there is none, whatever the optimiser suggests. Splitting a box covers it. Checking a point answers \"true\" only if the constraint intervals strictly contain the values and \"false\" only if some value is outside.", "quantifier": "for all dimensions, boxes, constraint functions with enclosing evaluation, constraint intervals (one-sided or two-sided), optimiser results and roundings", "why_tests_cant": "Loss of a solution shows only for particular boxes, roundings and cutting points; unit tests reduce a few boxes and test the size of the result.", "anchors": ["source/solvers/constraint_solver.cpp: ConstraintSolver::feasible, ConstraintSolver::reduce, ConstraintSolver::monotone_reduce, ConstraintSolver::lyapunov_reduce, ConstraintSolver::box_reduce, ConstraintSolver::split, ConstraintSolver::check_feasibility, affine"]}
{"id": "C57", "title": "Enclosures returned by the equation solver contain solutions, and no solution is lost", "statement": "Each contraction step of the interval Newton, Krawczyk and factored Krawczyk solvers keeps every solution of f(x)=0 in the box, and if its result is inside the box there is a solution in the result. If zero(f,bx) returns an enclosure, it contains a solution and every solution in bx; if it reports that there is no solution, there is none in bx. Each enclosure returned by solve_all(f,bx), solve(f,bx) and fixed_point(f,bx) contains a solution; every solution in bx is in an enclosure found or in a box, smaller than the maximum error, that was given up with a warning; solve reports that there is no solution only if there is none.", "quantifier": "for all dimensions, continuously differentiable functions with enclosing evaluation of values and Jacobian matrices, boxes, maximum errors, numbers of steps and roundings", "why_tests_cant": "The existence of a solution in the result is a topological fact, and loss of solutions depends on rounding, on the number of steps and on splitting; tests solve a few equations.", "anchors": ["source/solvers/solver.cpp: SolverBase::solve, SolverBase::solve_all, SolverBase::zero, SolverBase::fixed_point, IntervalNewtonSolver::step, KrawczykSolver::step, FactoredKrawczykSolver::step", "source/solvers/solver_interface.hpp: ContainerComparison<Vector<X>>, NoSolutionException", "source/geometry/box.tpl.hpp: split"]}
{"id": "C58", "title": "The implicit-function solver returns enclosures of solutions", "statement": "If implicit(f,A,X) returns a function patch h, then for each parameter a in A there is a solution of f(a,x)=0 in h(a), every solution with x in X is in h(a), for one equation the solution is unique and depends continuously on the parameter, and there are solutions in X for some parameter. It reports that there is no solution only if there is none in X for any parameter.", "quantifier": "for all parameter domains, continuously differentiable functions with enclosing evaluation, boxes, numbers of steps, tests and errors of the function patches", "why_tests_cant": "The claim is about infinitely many parameters, and depends on the step at which each component of the function is found to be refined; tests solve a few equations and evaluate the result at some points.", "anchors": ["source/solvers/solver.cpp: SolverBase::implicit, IntervalNewtonSolver::implicit_step, KrawczykSolver::implicit_step", "source/solvers/solver_interface.hpp: SolverInterface::implicit"]}
{"id": "C59", "title": "Flow bounds contain every solution over the step", "statement": "If the bounder returns a step h and a box B for a differential equation, an initial box D and initial time t, then from every point of D, for every value of the parameters, the solution exists on [t,t+h], is unique and stays in B. The step is never larger than suggested nor than the Lipschitz bound allows, and the search ends, with a bound or with the report that none was found.", "quantifier": "for all vector fields with enclosing evaluation and locally Lipschitz in the state, boxes, times, parameters, suggested steps and roundings", "why_tests_cant": "Existence of solutions over a whole time interval from a continuum of initial points is a fixed-point argument; tests can only integrate some points numerically.", "anchors": ["source/solvers/bounder.cpp: EulerBounder::compute, EulerBounder::_compute, EulerBounder::_formula, EulerBounder::_refinement", "source/geometry/interval.hpp: to_time_bounds"]}
{"id": "C60", "title": "Picard integrators enclose the flow", "statement": "If the Taylor-Picard or the graded Taylor-Picard integrator returns a flow model for a step h from a box that bounds the flow, then from every initial state and for every parameter the solution exists on the whole step and, at every time of the step, lies in the model evaluated there; the error of the model is at most the step maximum error. A flow step with a suggested step size uses a positive step no longer than the one for which the flow is bounded. The graded integrator, which is also used with boxes that are not known to bound the flow, returns an enclosure only after validating it.", "quantifier": "for all vector fields with enclosing composition and locally Lipschitz in the state, initial boxes, parameters, times, orders, sweepers, tolerances and roundings", "why_tests_cant": "The claim is about all solutions from a continuum of initial states at all times; tests compare the model with a few exact solutions.", "anchors": ["source/solvers/integrator.cpp: TaylorPicardIntegrator::_flow_step, GradedTaylorPicardIntegrator::_flow_step, BoundedIntegratorBase::flow_step, IntegratorBase::flow_step", "source/function/scaled_function_patch.hpp: antiderivative"]}
{"id": "C61", "title": "Containers: sets, maps and index complements", "statement": "The Set and Map wrappers keep their elements unique and ordered under every sequence of operations, and every operation has its set-theoretic meaning: adjoin/join is union, remove/difference is difference, restrict/intersection is intersection, subset and disjoint decide inclusion and disjointness; Map::insert, adjoin and join keep the entry already present while assignment replaces it, remove_keys and restrict_keys keep exactly the entries outside/inside the set, keys and values list all entries in order. unique_elements decides whether a list has repetitions and duplicate_elements is the set of repeated elements. complement(n,vars) lists the indices below n not in vars.", "quantifier": "for all element types with a linear order, all sets, maps and lists, and all index lists", "why_tests_cant": "The operations are generic and their inputs unbounded; tests try a few literals, and the inverted member functions are not exercised at all.", "anchors": ["source/utility/container.hpp: Set, Map, join, subset, disjoint, intersection, difference, remove, restrict, restrict_keys, unique_elements, duplicate_elements", "source/utility/array.hpp: complement"]}
{"id": "C62", "title": "Discrete locations: equality, order, restriction and join", "statement": "Equality of locations is true exactly when all variables have the same values, false exactly when some variable has two different values, and throws IndistinguishableLocationsError otherwise; it is symmetric. operator< is a strict total order on all locations, including indistinguishable ones. are_distinguishable, are_same and is_restriction decide their documented relations; is_restriction is a partial order, and distinguishable locations have no common extension. join has the values of its first argument and the other values of its second; for indistinguishable locations it is the least common extension. restrict keeps exactly the values of the given variables.", "quantifier": "for all locations over any linearly ordered names and values, and all sets of variables", "why_tests_cant": "The relations are over all pairs and triples of locations with arbitrary sets of variables; tests compare a few fixed locations.", "anchors": ["source/hybrid/discrete_location.cpp: operator==, operator<, are_distinguishable, are_same, is_restriction, restrict, join", "source/hybrid/discrete_location.hpp: DiscreteLocation::adjoin"]}
{"id": "C63", "title": "Hybrid automata: construction, modes, discrete reachability and checking", "statement": "Any sequence of calls that build a hybrid automaton, with exceptions caught, leaves one in which different locations are distinguishable, no mode defines a variable twice, algebraic equations are in order of dependency, the events with a kind are those with an invariant or a guard, and every transition leads to a location of the automaton with a reset which defines no auxiliary variable of the target and no variable twice. The mode of a location is unique and independent of the order of construction. Each call succeeds exactly under its documented conditions, changes exactly the documented guard, invariant, target or reset in the given location, and nothing if it throws. discrete_reachability terminates with exactly the locations reached by sequences of events. check_mode and check_reachable_modes accept exactly the well specified modes, in which every variable used is defined and every reset assigns exactly the state variables of its target.", "quantifier": "for all sequences of calls with all arguments, over any names of variables and events and any expressions; for all sets of initial locations", "why_tests_cant": "The properties are invariants of arbitrary histories of construction calls including failed ones, and closure properties of arbitrary transition graphs; tests build a handful of automata.", "anchors": ["source/hybrid/hybrid_automaton.cpp: HybridAutomaton::_new_mode, _new_invariant, _new_guard, _new_action, _new_update, _new_transition, mode, has_mode, has_partial_mode, target, events, check_mode, check_reachable_modes, discrete_reachability, algebraic_sort", "source/hybrid/hybrid_automaton.hpp: HybridAutomaton::new_mode, new_action, new_invariant, set_invariant, new_guard, set_guard, new_update, new_transition"]}
{"id": "C64", "title": "Hybrid automata: the functions of a mode represent its equations", "statement": "For every mode of a hybrid automaton, the component of dynamic_function for a state variable is the right-hand side of its differential equation, that of auxiliary_function for an auxiliary variable its value, that of reset_function for a state variable of the target the value assigned to it, each at the state with the auxiliary variables solving their equations; guard_function is positive exactly where the guard is true and negative where it is false, and invariant_function conversely. The auxiliary equations have exactly one solution for each state. The functions exist for every mode accepted by check_mode.", "quantifier": "for all automata made by any sequence of calls, all modes, all expressions and predicates, all states", "why_tests_cant": "A statement about arbitrary systems of equations and all real states; tests evaluate functions of single automata at single points, and none has auxiliary variables depending on each other or resets in another order.", "anchors": ["source/hybrid/hybrid_automaton.cpp: make_auxiliary_function, make_dynamic_function, make_reset_function, make_constraint_function, HybridAutomaton::auxiliary_function, dynamic_function, reset_function, invariant_function, guard_function, continuous_state_space, continuous_auxiliary_space", "source/symbolic/expression.cpp: make_formula, substitute", "source/function/function.cpp: make_function"]}
{"id": "C65", "title": "Parallel composition of hybrid automata", "statement": "A location of a composition has a mode exactly if every component has a mode in it and every event with a guard has a transition and conversely, possibly in different components. With an event every component with a transition goes to its target and the others stay, and the target of the composition is the location in which all are there; an urgent event of a component is urgent in the composition. The equations and resets are those of all components, invariants and guards are their conjunctions, and the functions of the composition represent these, in the order of the state variables. check_mode accepts exactly the locations in which every variable is defined once, equations and predicates use variables defined, there is no algebraic loop, and events are consistent and reset all state variables of the target; check_reachable_modes does this for exactly the locations reached by sequences of events, and terminates.", "quantifier": "for all lists of automata, each made by any sequence of calls, all locations, all events, all states and all sequences of events", "why_tests_cant": "Tests compose two or three particular automata; the statement is about arbitrary components, which share events and variables in arbitrary ways, and about all sequences of events.", "anchors": ["source/hybrid/hybrid_automaton-composite.cpp: CompositeHybridAutomaton::has_mode, mode, events, event_kind, target, state_variables, auxiliary_assignments, dynamic_assignments, reset_assignments, invariant_predicate, guard_predicate, auxiliary_function, dynamic_function, reset_function, invariant_function, guard_function, order, check_mode, check_reachable_modes, discrete_reachability"]}
{"id": "C66", "title": "Hybrid pavings", "statement": "Adjoining, removing and restricting hybrid pavings, cells and lists of cells changes the points of each location as the operation does on sets and leaves other locations alone; mincing and recombining change no point; is_empty, size, iteration, bounding_box, overlaps, covers, separated, inside, subset and intersect answer for the union over all locations; outer, inner and lower approximations adjoin in each location sets related to the given one as for a paving of Euclidean space; reading does not change the paving.", "quantifier": "for all linear orders of locations, all grids, all pavings made by any sequence of updates, all boxes and all sets", "why_tests_cant": "Tests use one or two locations, usually with all locations present; the statement is about arbitrary histories and about locations which were never mentioned.", "anchors": ["source/hybrid/hybrid_paving.hpp", "source/hybrid/hybrid_paving.cpp: adjoin, remove, restrict, restrict_to_extent, adjoin_outer_approximation, adjoin_inner_approximation, adjoin_lower_approximation, mince, recombine, is_empty, size, operator[], separated, overlaps, covers, inside, bounding_box, subset, intersect", "source/hybrid/hybrid_grid.hpp", "source/hybrid/hybrid_set.hpp: HybridSpaceSetConstIterator", "source/geometry/grid_paving.cpp: GridTreeSubpaving::bounding_box"]}
{"id": "C67", "title": "Hybrid sets", "statement": "The tests inside, separated, overlaps and covers of a hybrid set against hybrid boxes are sound for the states of all locations, and throw only for different locations which have no variable with different values; adjoining a set in a location gives the union; the intersection of boxes and constraints has exactly the states in both; adjoining to a list of sets adds the states and one to the size, and iteration visits every set of every location once, in order.", "quantifier": "for all locations, all types of continuous sets with sound tests, and all hybrid sets", "why_tests_cant": "Tests have one or two locations and one set in each; the statement is about arbitrary locations, including ones which are missing or present already.", "anchors": ["source/hybrid/hybrid_set.hpp: HybridBasicSet, HybridBoxes, HybridDenotableSet, HybridListSet, HybridListSetConstIterator", "source/hybrid/hybrid_set.cpp: HybridBoxSet, HybridConstraintSet, HybridBoundedConstraintSet, intersection", "source/hybrid/hybrid_expression_set.hpp: HybridVariablesBoxes"]}
{"id": "C68", "title": "Constraint sets", "statement": "A ConstraintSet has exactly the points satisfying its constraints, and a BoundedConstraintSet those which are also in its domain; intersections of such sets and boxes have exactly the common points and the same dimension; separated answers true only for boxes without a point of the set, covers only for boxes in its interior, overlaps only for boxes whose interior meets it, inside only if the set lies in the interior of the box; the bounding box contains the set in its interior; all although domains and bounds are real numbers and are rounded.", "quantifier": "for all functions with sound interval evaluation, all real domains and bounds, all roundings, all boxes, any number of contraction steps and any sound optimiser", "why_tests_cant": "Tests use a few discs and boxes with bounds that are floating-point numbers; the statement is about all sets and all boxes, including those which touch.", "anchors": ["source/geometry/function_set.cpp: ConstraintSet, BoundedConstraintSet, intersection, over_approximation, under_approximation", "source/geometry/function_set.hpp", "source/geometry/box.hpp", "source/geometry/interval.inl.hpp", "source/geometry/set_interface.hpp"]}
{"id": "C69", "title": "Constrained image sets", "statement": "Applying a function to a constrained image set gives the image of its points; a new constraint on the space or the parameters keeps exactly the points which satisfy it; reducing the domain changes no point; splitting gives two sets which make up the set exactly; restricting gives a subset; is_empty, inside and separated answer true only rightly, after any history of operations; overlaps answers true only if there is a common point; satisfies answers true only if all points satisfy the constraint and false only if some point does not; the conversion of a bounded constraint set has the same points.", "quantifier": "for all functions with sound interval evaluation, all histories of operations, all boxes, constraints and roundings, any sound contractor, solver and optimiser", "why_tests_cant": "Tests try one or two sets with one constraint; the reduced domain is cached and changed by queries which are declared constant, so that correctness depends on the history.", "anchors": ["source/geometry/function_set.cpp: ConstrainedImageSet, ValidatedConstrainedImageSet", "source/geometry/function_set.hpp: apply, new_parameter_constraint, new_space_constraint", "source/function/constraint.hpp: bounds", "source/numeric/logical.hpp: ValidatedKleenean()"]}
{"id": "C70", "title": "Certificates of feasibility", "statement": "When an optimiser reports that a point is feasible, that a box contains a feasible point, or that the problem is feasible, there is a point of the domain satisfying all constraints; when it reports infeasibility, or accepts an infeasibility certificate, there is none; this holds whatever the approximate iteration has computed, and for unbounded constraints.", "quantifier": "for all functions with sound interval evaluation and Jacobian matrix, all domains and constraint boxes, all points, multipliers and iterates, all roundings", "why_tests_cant": "The answers rest on interval Newton and mean value tests at points found by approximate iterations; tests see a few problems, while the claim is about every iterate.", "anchors": ["source/solvers/nonlinear_programming.cpp: is_feasible_point, contains_feasible_point, validate_feasibility, validate_infeasibility, is_infeasibility_certificate, feasible, check_feasibility, feasible_zero", "source/solvers/nonlinear_programming.hpp"]}
{"id": "C71", "title": "Pavings of constrained image sets", "statement": "The paving returned by any paver for the outer approximation of a constrained image set contains the paving given to it and every point of the set; every point added lies, up to a cell of the size asked for, near the image of a point of the domain; and a paving is returned.", "quantifier": "for all functions and constraint functions with sound interval evaluation, all domains, codomains, grids, pavings and accuracies, all sound contractors, all roundings", "why_tests_cant": "A recursion over subdomains and cells which contracts, prunes and splits: a point lost by a wrong test is a safety violation missed; tests compare plots of a few sets.", "anchors": ["source/geometry/paver.cpp: SubdivisionPaver, AffinePaver, ReducePaver, ConstraintPaver, OptimalConstraintPaver (adjoin_outer_approximation)", "source/geometry/paver.hpp", "source/geometry/function_set.cpp: lipschitz_index_and_error"]}
{"id": "C72", "title": "Enclosures of evolved sets", "statement": "Every operation on an enclosure (construction from a box or a constraint set, maps, flow steps, reachability steps, constraints, splitting, restriction, products, reconditioning) gives an enclosure containing the state, time and dwell time of every point it should contain, and nothing else if the function operations are exact; answers true of the tests (is_empty, separated, inside, subset, satisfies) are right for every enclosure that can be built.", "quantifier": "for all enclosures, all validated functions and flow models, all domains, step sizes and constraints, all sequences of operations, all roundings", "why_tests_cant": "Enclosures carry the reachable sets of every evolver: a point lost by one operation is lost for the rest of the evolution; tests compare a few bounding boxes and plots.", "anchors": ["source/dynamics/enclosure.cpp: Enclosure (constructors, new_state_constraint, new_parameter_constraint, apply_map, apply_discrete_time_map_step, apply_fixed_evolve_step, apply_space_evolve_step, apply_spacetime_evolve_step, apply_parameter_evolve_step, apply_finishing_parameter_evolve_step, apply_parameter_reach_step, apply_full_reach_step, apply_spacetime_reach_step, is_empty, inside, subset, separated, satisfies, reduce, split, restrict, uniform_error_recondition, kuhn_recondition), product", "source/geometry/affine_set.cpp: make_domain"]}
{"id": "C73", "title": "Orbits of vector fields and of maps", "statement": "When orbit() returns with upper semantics, every state on a trajectory from the initial set up to the evolution time is in reach() at its time, and the trajectory ends in final(); with lower semantics this holds up to the time at which a set was given up for being too large. At every moment of the computation no trajectory has been lost. The sets of the orbit do not depend on the schedule of the worker threads, and if one schedule completes all do.", "quantifier": "for all initial enclosures, all flows and maps, all options of the evolver, all sound function operations and integrators, all schedules of the threads and all moments of the computation", "why_tests_cant": "The sets are processed by a pool of threads sharing a queue: tests run one schedule and compare a few boxes; a trajectory can be lost by subdivision, reconditioning or termination only in rare cases.", "anchors": ["source/dynamics/vector_field_evolver.cpp: VectorFieldEvolver (orbit, _append_initial_set, _process_timed_enclosure, _process_timed_enclosure_step)", "source/dynamics/vector_field_evolver.hpp: SynchronisedOrbit", "source/dynamics/iterated_map_evolver.cpp: IteratedMapEvolver (orbit, _evolution, _evolution_step)"]}
{"id": "C74", "title": "Orbits of hybrid systems", "statement": "When orbit() of the hybrid evolver returns with upper semantics, every state which an execution reaches by the final time - flowing in a location until an event fires, taking the reset, and so on, with urgent and impact events forced and permissive events optional - is in reach(), in a set with the location and the sequence of events of the execution; if the maximum number of events is reached, or a terminating event occurs, the state after it is in final(); the states at the final time are in final(). Every set of the orbit has a location and a sequence of events which transitions of the system allow. The sets do not depend on the order in which the working sets are processed.", "quantifier": "for all systems, all executions with any number of events, all initial enclosures, all sound function operations and all orders of processing", "why_tests_cant": "Guards are crossed transversally, tangentially or not at all, in one step or over several, before or after the final time: a test follows a few executions of one automaton, and a lost execution leaves no trace in the orbit.", "anchors": ["source/hybrid/hybrid_evolver.cpp: HybridEvolverBase (orbit, _extract_transitions, _apply_invariants, _process_starting_events, _compute_flow, _compute_active_events, _compute_crossings, _apply_reach_step, _apply_evolve_step, _apply_guard_step, _apply_guard, _process_jumped_set, _process_working_set, _evolution_step, _apply_evolution_step), GeneralHybridEvolver (_estimate_timing)", "source/hybrid/hybrid_enclosure.cpp: HybridEnclosure"]}
{"id": "C75", "title": "Taylor models stay in canonical form", "statement": "The terms of a Taylor model are kept in strictly increasing order of their indices, each with one exponent per variable: every operation (constants, coordinates, negation, multiplication by and addition of a number, sum, difference, product, derivative, antiderivative, sweeping, cleaning up, composition) applied to models in this form gives a model in this form, provided no exponent exceeds 65535. In particular no index occurs twice, which the range, the evaluation and the comparison of models assume.", "quantifier": "for all models, all sweepers and all roundings; composition for exact arithmetic", "why_tests_cant": "The order is an invariant of a history of operations: a single operation which breaks it goes unnoticed until a later one looks up a coefficient or adds two models.", "anchors": ["source/function/taylor_model.tpl.hpp: TaylorModel (neg, _add, _sub, _scal, _acc, _fma, _ifma, mul, sweep, simplify, cleanup, compose, derivative, antiderivative)", "source/algebra/expansion.tpl.hpp: SortedExpansion, ReverseLexicographicIndexLess"]}
{"id": "C76", "title": "Function patches", "statement": "A function patch is a box and a polynomial in scaled variables with an error; it represents the functions which differ from the polynomial by at most the error on the box. Evaluating a patch at a point of the box gives bounds on the value of every represented function, and is an exception outside; range() and norm() bound the values, distance() the difference of represented functions. Sums, differences, products, negation, embedding, join and combine represent the corresponding functions, and are an exception if the domains must agree and do not. identity() and coordinate() represent the coordinates; compose() represents the composition or is an exception if a value is outside; restriction() and split() represent the same function on the smaller boxes; partial_evaluate() the function with an argument fixed; antiderivative() the antiderivative vanishing in the middle of the interval or at a given point. refines() implies that represented functions stay represented; inconsistent() that no function is represented by both.", "quantifier": "for all patches, domains, represented functions, sweepers and roundings; composition, restriction, partial evaluation and the relations on different domains for exact arithmetic", "why_tests_cant": "A patch stands for infinitely many functions at infinitely many points; an error of one rounding in the scaling of the domain shows only at particular endpoints.", "anchors": ["source/function/scaled_function_patch.hpp: ScaledFunctionPatch, VectorScaledFunctionPatch (evaluate, range, norm, distance, restriction, partial_restriction, embed, split, derivative, antiderivative, partial_evaluate, compose, join, combine, operator+=, operator-=, refines, inconsistent, refinement)", "source/function/scaled_function_patch.tpl.hpp: constant, coordinate, identity, _unchecked_compose, set", "source/function/scaling.hpp: med, rad, unscale", "source/function/taylor_model.tpl.hpp: TaylorModel (scaling, scalings, unscale)"]}
{"id": "C77", "title": "Real numbers", "statement": "A real number is built from exact constants, operations, limits and when-expressions. Bounds computed with any effort and precision contain the number, unless a NaN arose on the way; they converge to the number as the effort grows if operations are continuous at their arguments, sequences of bounds shrink, and at least one condition of every when-expression holds. compute(Accuracy) terminates and returns bounds which contain the number with radius below the accuracy; round() is less than one away. A comparison checked with any effort is never wrong, and for different numbers it is decided from some effort on; same() is only true for equal numbers; nondeterministic_greater(r,a,b) with a<b terminates, and returns true only if r>a and false only if r<b. lower() and upper() give lower and upper bounds. If in every when-expression a condition holds, no exception is thrown.", "quantifier": "for all expressions, operators, sequences, efforts, precisions and roundings", "why_tests_cant": "The statement is about all efforts, and convergence is about the limit; bounds which are wrong at one effort or are never narrow enough are only seen by looking at that effort, or never.", "anchors": ["source/numeric/real.cpp: RealWrapper, RealLimit, WhenRealExpression, RealBase::_compute, RealExpressionBase, Real::get, Real::compute, nondeterministic_greater, same, round, check_sgn, LogicalWrapper, LowerReal, UpperReal", "source/numeric/dyadic.hpp: Bounds<Dyadic>", "source/numeric/twoexp.hpp: Two", "source/numeric/sequence.hpp: FastCauchySequence, ConvergentSequence"]}
{"id": "C78", "title": "Affine models", "statement": "An affine model on the unit box encloses a function if the function differs from the affine polynomial by at most the error. Constants, coordinates, negation, sums, products, multiples, sums with numbers, conversion from affine functions and from Taylor models, scalings and compositions enclose the corresponding function whenever the arguments enclose theirs; none of them throws for arguments with nonnegative errors. range() and evaluate() contain the values of every enclosed function.", "quantifier": "for all models, enclosed functions, points of the unit box, numbers and roundings", "why_tests_cant": "An error bound which is too small by one rounding, or which omits a term that is small for the models in the tests, is only seen at points where the rounding error is attained.", "anchors": ["source/function/affine_model.hpp: AffineModel<ValidatedTag,F>, evaluate", "source/function/affine_model.tpl.hpp: apply, AffineModel, affine_model, scaling, range, _compose", "source/function/model_utilities.hpp: add_err, mul_err, lin_err", "source/numeric/float_error.hpp: Error"]}
{"id": "C79", "title": "Linear programs, interior point solver", "statement": "InteriorPointSolver::feasible answers whether some x satisfies A*x=b and xl<=x<=xu. If it returns false, or throws because of contradictory bounds, there is none; if it returns true there is one which lies strictly between the bounds. validate_feasibility with any approximate primal and dual points is only true for problems which have a strictly feasible solution and only false for problems without solution. This holds whatever the approximate interior point steps compute.", "quantifier": "for all matrices, right-hand sides, bounds (finite or infinite), roundings and all results of the approximate steps", "why_tests_cant": "Wrong answers come from rounding errors and from particular approximations which the solver reaches for few problems; a test sees the answer for the problems it contains.", "anchors": ["source/solvers/linear_programming.cpp: InteriorPointSolver::validate_feasibility, InteriorPointSolver::feasible", "source/algebra/matrix.hpp: operator*", "source/algebra/vector.hpp: dot", "source/algebra/matrix.tpl.hpp: solve"]}
{"id": "C80", "title": "Affine constrained image sets", "statement": "An affine constrained image set represents {f(p) | p in D, l<=g(p)<=u}. Its bounding_box contains the set; if separated(bx) is certainly true, the set has no point in bx; if is_empty is certainly true, the set is empty; if inside(bx) is certainly true, every point lies in the interior of bx; outer_approximation returns a paving which contains every point of the set. The constructors give the sets which their documentation describes.", "quantifier": "for all affine models and all functions which they enclose, all constraints, boxes, grids, depths, roundings and all behaviours of the approximate part of the linear solver", "why_tests_cant": "A missing point is not seen unless a test contains just this point; the answers depend on rounding and on the iterations of the linear solver.", "anchors": ["source/geometry/affine_set.cpp: ValidatedAffineConstrainedImageSet", "source/geometry/affine_set.hpp: ValidatedAffineConstrainedImageSet", "source/geometry/function_set.cpp: ValidatedConstrainedImageSet::affine_over_approximation", "source/geometry/paver.cpp: AffinePaver"]}
{"id": "C81", "title": "Error bounds for differential inclusions", "statement": "For a differential inclusion x' = f(x) + sum_i g_i(x) v_i with |v_i|<=V_i, the inclusion integrator replaces the inputs by zero or by constants and adds an error. For the zero approximation, the error is an upper bound for the distance of every solution of the inclusion from the solution without inputs with the same initial state, at all times of the step. For the constant approximation, every solution has an end point which is within the error of the end point of a solution with constant inputs.", "quantifier": "for all systems with their differentials, all inputs and solutions, all step sizes, all roundings and upper bounds of the exponential function", "why_tests_cant": "There are infinitely many inputs, and a bound which is too small by a factor is only exceeded by particular inputs which a simulation does not try.", "anchors": ["source/solvers/inclusion_integrator.cpp: compute_constants, zeroparam_worstcase_error, zeroparam_component_error, oneparam_worstcase_error, oneparam_component_error, ApproximationErrorProcessor::process", "source/solvers/inclusion_integrator.hpp: ErrorConstants, dexp"]}
{"id": "C82", "title": "Schedule of the approximations of a differential inclusion", "statement": "The evolver for differential inclusions may be given several approximations. Each approximation that is not the best one is tried again after a delay which is doubled each time. In every step at least one approximation whose reachable sets are rigorous is tried, the schedule never loses an approximation, the loop over the schedule terminates, an approximation is tried in the step for which it is scheduled, and neither delays nor steps overflow. Among the approximations tried, the evolved set is one of smallest volume, and the reached set is that of an approximation whose reachable sets are rigorous.", "quantifier": "for all lists of approximations, all sequences of best approximations, all numbers of steps and all volumes", "why_tests_cant": "The schedule depends on the history of best approximations; delays grow exponentially, so that errors only show after many steps.", "anchors": ["source/dynamics/differential_inclusion_evolver.cpp: InclusionEvolverState, DifferentialInclusionEvolver::orbit", "source/dynamics/differential_inclusion_evolver.hpp: InclusionEvolverState, ScheduleRecord"]}
{"id": "C83", "title": "Orbits of differential inclusions", "statement": "If the parts of a step (reach set, evaluation at the end of the step, reduction and incorporation of errors) are correct, then the orbit of a differential inclusion reaches the given time and goes beyond it by less than a step; its final set has the solutions at the final time, its intermediate sets have them at their times, and at any time of the evolution the solutions are in a reached set for that time. The evolution terminates if each step increases the time.", "quantifier": "for all solutions, all step sizes, all frequencies of reconditioning, all lists of approximations, all given times", "why_tests_cant": "Statements about all solutions of an inclusion and all histories of the schedule cannot be settled by simulations.", "anchors": ["source/dynamics/differential_inclusion_evolver.cpp: DifferentialInclusionEvolver::orbit"]}
{"id": "C84", "title": "Reconditioning of evolved sets", "statement": "Reconditioning replaces the uniform errors of a set by parameters, and parameters of small effect by uniform errors. Both operations keep all points of the set; after incorporation of errors all errors are zero, and after reduction there are as many parameters as wanted.", "quantifier": "for all sets with their parameters, errors and terms, all numbers of parameters to keep, all orders of equal effects", "why_tests_cant": "Points at the boundary of a set with many parameters are lost for particular combinations of parameters only.", "anchors": ["source/dynamics/differential_inclusion_evolver.cpp: LohnerReconditioner::incorporate_errors, LohnerReconditioner::reduce_parameters"]}
{"id": "C85", "title": "Square roots are computed in finitely many steps", "statement": "For every nonnegative floating-point number and every rounding mode, the computation of the rounded square root terminates.", "quantifier": "for all numbers, all precisions, both directions of rounding", "why_tests_cant": "Whether the Newton iteration becomes stationary or goes on in a cycle depends on the last bits of the argument.", "anchors": ["source/numeric/double.cpp:sqrt_rnd"]}
{"id": "C86", "title": "Rounded trigonometric functions bound the exact values", "statement": "For every double, the sine, cosine, tangent and arc tangent rounded upwards (downwards) are upper (lower) bounds of the exact values, and no internal check fails.", "quantifier": "for all doubles, both directions of rounding", "why_tests_cant": "The errors are in the last bit and depend on every bit of the argument, so that comparing sample values with tolerances does not show them.", "anchors": ["source/numeric/double.cpp:sin_rnd", "source/numeric/double.cpp:cos_rnd", "source/numeric/double.cpp:tan_rnd", "source/numeric/double.cpp:atan_rnd"]}
{"id": "C87", "title": "Rounded exponentials and logarithms bound the exact values", "statement": "For every double, the exponential and, for positive doubles, the logarithm rounded upwards (downwards) are upper (lower) bounds of the exact values, and no internal check fails.", "quantifier": "for all doubles, both directions of rounding", "why_tests_cant": "The errors are in the last bit and depend on every bit of the argument, and on the sign of the exponent after the reduction of the argument.", "anchors": ["source/numeric/double.cpp:exp_rnd", "source/numeric/double.cpp:log_rnd"]}
{"id": "C88", "title": "Trigonometric functions of bounds contain the values on the bounds", "statement": "For all floating-point bounds, the result of the sine, cosine or tangent of the bounds contains the value at every number in the bounds, provided that the functions of single numbers round in the right direction; cosine and sine are always defined.", "quantifier": "for all bounds, all precisions, all correctly rounded functions of single numbers", "why_tests_cant": "The number of periods is found by a division that is rounded, so that the choice is wrong only if the midpoint is within rounding errors of an odd multiple of pi.", "anchors": ["source/numeric/float_bounds.tpl.hpp:_cos", "source/numeric/float_bounds.tpl.hpp:_sin", "source/numeric/float_bounds.tpl.hpp:_tan"]}
{"id": "C89", "title": "Operations on polynomials enclose the polynomial they stand for", "statement": "For polynomials with coefficients enclosing real numbers, the sum, difference, product, products with constants and monomials, negation, derivative, antiderivative, truncation, clean-up, evaluation, partial evaluation and composition enclose the result of the operation on the polynomials enclosed, and keep the terms in order without repeated indices; with exact coefficients, comparison answers whether two polynomials are the same.", "quantifier": "for all polynomials in any number of variables, all degrees, all sound coefficient arithmetic, all arguments", "why_tests_cant": "The results depend on the order and repetition of the terms and on degrees near the largest number stored; tests use few polynomials whose terms are already in order.", "anchors": ["source/function/polynomial.tpl.hpp:AlgebraOperations::apply", "source/function/polynomial.tpl.hpp:Polynomial::differentiate", "source/function/polynomial.tpl.hpp:Polynomial::_partial_evaluate", "source/function/polynomial.tpl.hpp:Polynomial::_compose", "source/algebra/evaluate.tpl.hpp:horner_evaluate"]}
{"id": "C90", "title": "Boxes answer and compute as the sets of points they stand for", "statement": "For boxes of the same dimension without empty sides, the tests for membership, emptiness, equality, subset, superset, disjointness, intersection, being inside, covering and overlapping answer what their names say about the sets of points; intersection, hull, product, projection, removal of a side, widening and narrowing give the set named; splitting gives two boxes which cover the box, share only a face and whose volumes add up; a box of dimension n has 2^n vertices, listed so that successive ones differ in one coordinate.", "quantifier": "for all dimensions, all boxes, all points, over any ordered field", "why_tests_cant": "The answers depend on every coordinate, on sides which touch and on sides of width zero; tests use few boxes in one or two dimensions.", "anchors": ["source/geometry/box.hpp:Box", "source/geometry/box.tpl.hpp:Box::split", "source/geometry/box.tpl.hpp:Box::radius", "source/geometry/box.cpp:make_vertices_up"]}
{"id": "C91", "title": "Tests of sets by subdivision of a box only give right answers, and end", "statement": "Given tests of two sets against boxes which are right whenever they say yes, the tests whether the sets overlap, one is inside the other or they are separated, which subdivide a box until it is smaller than a tolerance, answer true only if the relation holds, answer false only if it does not, and end for every positive tolerance.", "quantifier": "for all sets with sound tests against boxes, all boxes of all dimensions, all tolerances", "why_tests_cant": "The answer depends on two arbitrary sets and on an unbounded subdivision; tests use a few sets.", "anchors": ["source/geometry/geometry.cpp:overlap", "source/geometry/geometry.cpp:inside", "source/geometry/geometry.cpp:separated", "source/geometry/geometry.hpp:split", "source/geometry/geometry.hpp:irmax"]}
{"id": "C92", "title": "Upper bounds, lower bounds and errors stay on their side", "statement": "Every operation on upper bounds, lower bounds, their positive versions and errors gives a number on the side its type names: the sum, difference, maximum, minimum, multiple, product, quotient or power of the bounds bounds the exact result of the operation on any numbers the arguments bound. Comparisons of an upper with a lower bound never say definitely what is false. The sign of positive bounds is kept.", "quantifier": "for all bounds including infinities, all numbers bounded, all directed roundings", "why_tests_cant": "A bound rounded the wrong way is wrong by one unit in the last place; only a statement about all arguments excludes it.", "anchors": ["source/numeric/float_upper_bound.hpp:UpperBound", "source/numeric/float_lower_bound.hpp:LowerBound", "source/numeric/float_error.hpp:Error"]}
{"id": "C93", "title": "Complex numbers compute in the complex field", "statement": "Sums, differences, products, quotients, reciprocals, squares, conjugates, moduli, distances, exponentials and comparisons of complex numbers, and the operations of a complex with a real number, represent the exact results: when the parts contain the parts of the operands, the parts of the result contain those of the result. Arguments, logarithms and square roots, when returned, are the principal ones.", "quantifier": "for all complex numbers and all numbers their parts represent, for every type of real number with correct operations", "why_tests_cant": "One wrong sign in a product or quotient shows only for operands with suitable parts, and enclosure must hold for all points of the operands.", "anchors": ["source/numeric/complex.hpp:Complex", "source/numeric/complex.hpp:atan2"]}
{"id": "C94", "title": "Chebyshev polynomials denote the functions they are built from", "statement": "Sums, differences, products, negatives and multiples of polynomials in the Chebyshev basis, in one or several variables, denote the sums, differences, products, negatives and multiples of the functions; evaluation at enclosures encloses the value; the norm computed from the coefficients bounds the values on the unit box. No operation reads or writes outside its data.", "quantifier": "for all polynomials, all coefficients represented, all points, any number of variables", "why_tests_cant": "The product of two sparse polynomials in several variables is a nested recursion over groups of terms; its bounds and its result depend on the order and the degrees of all terms.", "anchors": ["source/function/chebyshev_polynomial.hpp:UnivariateChebyshevPolynomial", "source/function/chebyshev_polynomial.tpl.hpp:_mul_from", "source/function/chebyshev_polynomial.tpl.hpp:_eval"]}
{"id": "C95", "title": "Validated answers about linear feasibility are right", "statement": "When the validation of a simplex basis answers true, the problem A x = b, xl <= x <= xu has a solution; when it answers false, it has none; in doubt it answers indeterminate.", "quantifier": "for all matrices, right-hand sides and bounds, finite or infinite, all choices of basic variables and all roundings", "why_tests_cant": "The validation encloses the inverse of the basis, the basic solution, the dual vector and the reduced costs; whether the enclosures justify the answer depends on all of them, and the cases in which they do not lie within the rounding errors.", "anchors": ["source/solvers/simplex_algorithm.cpp:SimplexSolver::verify_feasibility", "source/solvers/simplex_algorithm.cpp:compute_x", "source/solvers/simplex_algorithm.cpp:compute_c"]}
{"id": "C96", "title": "Graded series give the Taylor coefficients of the flow in time", "statement": "After n iterations of the graded flow of a differential equation, each component holds n+1 coefficients, which enclose the Taylor coefficients at time zero of every solution; each graded operation extends its result by an enclosure of the next Taylor coefficient.", "quantifier": "for all systems given by formulae or procedures, all initial values and parameters, all numbers of iterations, and coefficients of any type with sound operations", "why_tests_cant": "Each coefficient is computed by a recurrence from all the previous ones, so an error in one recurrence only shows at some order for some formula; tests compare a few orders of a few functions approximately.", "anchors": ["source/algebra/graded.hpp:Graded", "source/algebra/graded.hpp:antidifferential", "source/solvers/integrator.cpp:graded_flow_iterate", "source/solvers/integrator.cpp:GradedTaylorSeriesIntegrator"]}
{"id": "C97", "title": "The expansion of a flow in space and time encloses the flow", "statement": "For every trajectory starting in the domain and every time of the step, the value of the trajectory is among the values, at the deviation from the centre and the time, of the differential which the graded series integrator assembles from the series at the centre and on the bounds; and the Taylor model made of it is within its error of that value. Adapting the orders ends within the orders allowed.", "quantifier": "for all systems, domains, bounds, orders in space and time, trajectories, times of the step, roundings and error tolerances", "why_tests_cant": "Enclosure of the remainder concerns every point of the domain and every time; the wrong choice of expansion point at one order shows only for special points; tests evaluate at a few points with small steps.", "anchors": ["source/solvers/integrator.cpp:graded_flow_differential", "source/solvers/integrator.cpp:differential", "source/solvers/integrator.cpp:make_taylor_function_model", "source/solvers/integrator.cpp:graded_series_flow_step"]}
{"id": "C98", "title": "Symmetric and diagonal matrices and tensors hold the entries given, and their arithmetic is that of the full matrices", "statement": "Setting an entry of a symmetric matrix changes that entry and its mirror image and no other, and of a tensor that entry and no other; conversions to and from full matrices lose nothing; sums, multiples, products, inverses, outer products and symmetrisations enclose those of the full matrices; constructors reject matrices which are not symmetric.", "quantifier": "for all sizes, entries, indices, number types with sound operations, and all sequences of assignments", "why_tests_cant": "Packed storage is correct only if the positions of all entries of all sizes are different and inside the array; tests use one or two sizes and do not detect an access just outside.", "anchors": ["source/algebra/symmetric_matrix.hpp:SymmetricMatrix", "source/algebra/symmetric_matrix.hpp:outer", "source/algebra/symmetric_matrix.hpp:symmetrize", "source/algebra/diagonal_matrix.hpp:DiagonalMatrix", "source/algebra/tensor.hpp:Tensor", "source/algebra/tensor.hpp:write_tensor"]}
{"id": "C99", "title": "First and second differentials hold the partial derivatives of the quantity they represent", "statement": "The value, gradient and Hessian obtained by applying arithmetic, powers, elementary functions, absolute values, maxima and minima to first or second differentials enclose the value and the partial derivatives of the resulting function; the second derivative of a procedure along a direction encloses that of the formula it was compiled from.", "quantifier": "for all numbers of variables, points, functions, formulae and number types with sound operations", "why_tests_cant": "Each rule of differentiation has to hold for all arguments; a wrong factor is only visible in the second derivatives of nested expressions, which no test of the library computes.", "anchors": ["source/algebra/fixed_differential.hpp:FirstDifferential", "source/algebra/fixed_differential.hpp:SecondDifferential", "source/algebra/fixed_univariate_differential.hpp:UnivariateFirstDifferential", "source/algebra/fixed_univariate_differential.hpp:UnivariateSecondDifferential", "source/function/procedure.tpl.hpp:hessian"]}
{"id": "C100", "title": "Simulations record the numerical solution at every step until the final time, and the numerical solution converges", "statement": "The integrator and the vector field simulator record the initial point and one point per step until the first time at or after the final time; every curve of an orbit belongs to its initial point whatever the schedule of the threads; the recorded points converge to the solution with the order of the method as the step size tends to zero; the initial points represent the initial box; bounding boxes of curves contain the interpolated curve.", "quantifier": "for all vector fields, initial points and boxes, step sizes, final times and schedules", "why_tests_cant": "The order of convergence is a statement about all small step sizes and all fields; schedules and the sharing of static data between integrators depend on the history of the program.", "anchors": ["source/solvers/runge_kutta_integrator.cpp:RungeKutta4Integrator", "source/dynamics/vector_field_simulator.cpp:VectorFieldSimulator", "source/geometry/curve.cpp:InterpolatedCurve", "source/dynamics/orbit.cpp:Orbit"]}
{"id": "C101", "title": "A hybrid simulation is an execution of the hybrid automaton, stops where it must, and its orbit holds every state", "statement": "Each recorded state follows from the one before by the first enabled event, with its target and reset, or, if no event is enabled, by a step of the integrator; the simulation goes on only from states within both time bounds which satisfy the invariants and were not entered by a terminating event, and it always ends; the curve for a number of discrete steps holds exactly the states with that number, in their location; simulating a list of points gives the simulations of its points.", "quantifier": "for all hybrid automata, initial points, step sizes, time bounds and terminating events", "why_tests_cant": "The execution depends on the whole history of events and on the guards at every visited state; missing records appear only for particular times, and the invariants only matter for automata which have them.", "anchors": ["source/hybrid/hybrid_simulator.cpp:HybridSimulator", "source/hybrid/hybrid_set.cpp:Orbit", "source/hybrid/hybrid_time.hpp:HybridTime"]}
{"id": "C102", "title": "A set of variables and expressions contains exactly the points which satisfy its bounds and constraints, whatever the order of the variables", "statement": "The euclidean set, in any space with the variables of the set, contains the point of a valuation exactly if the valuation satisfies every bound and makes no constraint false; it exists in every such space; bounds given as a list all count; labelling a box with its variables and taking its euclidean set gives the box back; over-approximations contain the set and under-approximations are contained in it; a hybrid set has in each location the set adjoined there, and the intersection of hybrid boxes with hybrid constraints has in each location of the boxes the box with the constraints of that location.", "quantifier": "for all lists of bounds, constraints, spaces, valuations and locations", "why_tests_cant": "Membership must be right for every constraint expression and every point of it, and for all orders of the variables; tests use a few constraints in one space.", "anchors": ["source/symbolic/expression_set.hpp:VariablesBox", "source/symbolic/expression_set.cpp:RealExpressionBoundedConstraintSet", "source/symbolic/expression_set.cpp:RealExpressionConstraintSet", "source/hybrid/hybrid_set.cpp:HybridBoundedConstraintSet"]}
{"id": "C103", "title": "A printed expression, read with the usual rules of precedence, has the value of the expression", "statement": "The output of a real expression or formula, whether with operator symbols or with named operations, can be read by the usual grammar of arithmetic (products before sums, operators of equal precedence from the left), in one way only, and the expression read has the same value as the one printed at every valuation, and is undefined where that is.", "quantifier": "for all expressions and valuations", "why_tests_cant": "Parentheses are left out depending on the operators of both arguments at every level, so the number of cases is infinite; tests compare a few strings.", "anchors": ["source/symbolic/templates.tpl.hpp:OperatorSymbolicWriter", "source/symbolic/templates.tpl.hpp:OperationSymbolicWriter", "source/numeric/operators.cpp:name", "source/symbolic/expression.tpl.hpp:Expression::_write"]}
{"id": "C104", "title": "Operations on functions act pointwise and leave every other function unchanged", "statement": "Joining, composing, adding, subtracting, negating, multiplying and dividing functions succeeds exactly when the sizes fit, and gives a function whose value at every point is obtained from the values of the operands at that point; functions are values, so that whatever is done with a function, including assigning components of a copy, no other function changes, and evaluation ends.", "quantifier": "for all functions, points, and sequences of operations", "why_tests_cant": "Functions share nodes through pointers, so that the effect of an operation depends on the whole history of copies and compositions; tests evaluate a few functions at a few points just after making them.", "anchors": ["source/function/function.cpp:Function::set", "source/function/function.cpp:join", "source/function/function.cpp:operator*", "source/function/function.cpp:compose", "source/function/function.cpp:AlgebraOperations::apply", "source/function/symbolic_function.hpp:VectorOfScalarFunction", "source/function/symbolic_function.hpp:ComposedFunction", "source/function/symbolic_function.hpp:JoinedFunction", "source/function/symbolic_function.hpp:EmbeddedFunction", "source/utility/handle.hpp:Handle"]}
{"id": "C105", "title": "Derivatives of functions are the derivatives of the functions they denote", "statement": "Wherever a function has a value, each partial derivative is again a function with a value there, which is the derivative of the real function obtained by varying that argument, also for compositions of compositions and joined functions; the Lie derivative along a vector field is the rate of change along every curve whose velocity is the vector field, and is refused when the sizes do not fit.", "quantifier": "for all functions, points, arguments and differentiable curves", "why_tests_cant": "Derivatives are formed symbolically through arbitrarily deep chains of shared nodes; tests compare a few derivatives at a few points, and cannot show that a formula is a derivative at every point.", "anchors": ["source/function/symbolic_function.hpp:ConstantFunction::derivative", "source/function/symbolic_function.hpp:CoordinateFunction::derivative", "source/function/symbolic_function.hpp:UnaryFunction::derivative", "source/function/symbolic_function.hpp:BinaryFunction::derivative", "source/function/symbolic_function.hpp:ComposedFunction::derivative", "source/function/function.cpp:lie_derivative", "source/numeric/operators.hpp:Mul::derivative", "source/numeric/operators.hpp:Div::derivative"]}
{"id": "C106", "title": "The command line sets what it says, or nothing", "statement": "Command-line arguments with documented values, by their short or long names and in any order, are accepted and set exactly these values, leaving the other settings as they were; a line with an unknown argument, a missing or undocumented value, a repeated argument or a request for help is rejected with the first problem reported, and changes no setting.", "quantifier": "for all lists of arguments and all settings", "why_tests_cant": "There are infinitely many command lines, and the loop handles one argument specially; tests run a few lines, and do not look at the settings after a rejection.", "anchors": ["source/io/command_line_interface.cpp:CommandLineInterface::acquire", "source/io/command_line_interface.cpp:ArgumentParserBase::is_consumable", "source/io/command_line_interface.cpp:ArgumentParserBase::consume", "source/io/command_line_interface.cpp:ValuedArgumentParserBase::create_processor", "source/io/command_line_interface.cpp:DrawerArgumentParser", "source/io/command_line_interface.cpp:ConcurrencyArgumentParser", "source/io/command_line_interface.cpp:SchedulerArgumentParser"]}
{"id": "C107", "title": "Arrays own their memory and behave as values", "statement": "Whatever arrays are constructed, copied, moved, assigned, resized, swapped and destroyed, no operation reads or frees memory which is not live, none changes the elements of an array which it does not name, each leaves the elements documented, and when all arrays are destroyed all memory has been freed; the complement of a set of indices is the increasing list of the others.", "quantifier": "for all element types, programs of array operations and lists of indices", "why_tests_cant": "Ownership errors show only for particular histories (self-assignment, reuse after moves, sizes which agree), and leaks change no observable value; tests run a few histories.", "anchors": ["source/utility/array.hpp:Array", "source/utility/array.hpp:Array::operator=", "source/utility/array.hpp:Array::resize", "source/utility/array.hpp:Array::reallocate", "source/utility/array.hpp:swap", "source/utility/array.hpp:complement"]}
{"id": "C108", "title": "The scheme for first-order partial differential equations respects the equation", "statement": "The values computed for a first-order equation on the periodic square conserve the total of each component, keep constant data, are linear in the initial data, move the data exactly for transport by one cell in a step, stay for scalar equations within the bounds of the initial data, and depend on the right-hand side; the interpolation of the result agrees with the data at grid points and with multiaffine data everywhere.", "quantifier": "for all systems, matrices, grids, initial data and numbers of steps", "why_tests_cant": "Conservation and bounds are about sums and histories over all grids and data; a test runs one acoustic problem and prints the result.", "anchors": ["source/dynamics/first_order_pde.cpp:first_order_pde", "source/dynamics/first_order_pde.cpp:multiaffine_interpolate", "source/dynamics/first_order_pde.hpp:FirstOrderPDE"]}
{"id": "C109", "title": "Tensors keep their elements apart, and the string solver returns its initial data", "statement": "In a tensor of any rank, an element written reads back, and no other changes; constant, generated and transformed tensors have the values they should. The solver for the equation of a string returns, at the initial time, the initial data with fixed ends, uses equally spaced points, and starts a string at rest in the direction of its neighbours.", "quantifier": "for all ranks, sizes, indices, elements and functions", "why_tests_cant": "Aliasing of two indices in one array shows only for particular sizes; tests print the elements of a few tensors, and the result of the solver is only plotted.", "anchors": ["source/algebra/tensor.hpp:Tensor", "source/algebra/tensor.hpp:transform", "source/dynamics/1D_pde.hpp:pde_1d_solver", "source/dynamics/1D_pde.hpp:linspace1d"]}
{"id": "C110", "title": "List sets are unions", "statement": "Adjoining basic sets or another list set of the same dimension gives the union, and sets of another dimension are refused; removing a set leaves the union of the others; the bounding box contains all points of the union and is the smallest box containing the boxes of the sets.", "quantifier": "for all types of basic sets, list sets and histories of operations", "why_tests_cant": "The checks look at the last element only, and a list set may be adjoined to itself; tests adjoin a few boxes of the same dimension.", "anchors": ["source/geometry/list_set.hpp:ListSet", "source/geometry/list_set.hpp:ListSet::adjoin", "source/geometry/list_set.hpp:ListSet::bounding_box", "source/geometry/box.hpp:hull"]}
{"id": "C111", "title": "Orthogonal decompositions", "statement": "The orthogonal decomposition of a matrix gives two matrices whose product is the matrix, the first having orthogonal nonzero columns and the second being upper triangular with rows of absolute sum one.", "quantifier": "for all sizes, with more rows or more columns, and all matrices over an ordered field", "why_tests_cant": "The result must hold for every matrix of every size, and fails exactly where a column depends on earlier ones; tests decompose three matrices.", "anchors": ["source/algebra/matrix.tpl.hpp:orthogonal_decomposition"]}
{"id": "C112", "title": "Orthogonal decompositions by reflections", "statement": "The orthogonal decomposition with pivots gives matrices Q and R and a permutation such that the product of Q, R and the matrix of the permutation is the matrix given, Q is orthogonal and R is upper triangular; with pivoting, every matrix of full rank is decomposed, and without it the product of Q and R is the matrix itself.", "quantifier": "for all sizes, all real matrices, with and without pivoting", "why_tests_cant": "Reflections, swaps and the order of permutations must agree for every matrix; the tests do not call this function.", "anchors": ["source/algebra/matrix.tpl.hpp:orthogonal_decomposition", "source/algebra/matrix.tpl.hpp:pivot_matrix", "source/algebra/matrix.hpp:PivotMatrix"]}
