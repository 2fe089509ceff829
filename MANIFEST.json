{
 "claims": [
  {
   "property": "C01",
   "status": "proved",
   "theorems": [
    "Ariadne.Logical.C01_not_sound",
    "Ariadne.Logical.C01_and_sound",
    "Ariadne.Logical.C01_or_sound",
    "Ariadne.Logical.C01_eq_sound",
    "Ariadne.Logical.C01_xor_sound",
    "Ariadne.Logical.C01_decisive",
    "Ariadne.Logical.C01_boolean",
    "Ariadne.Logical.C01_probably",
    "Ariadne.Logical.C01_lattice_laws",
    "Ariadne.Logical.C01_information_monotone",
    "Ariadne.Logical.C01_clamp_sound"
   ],
   "note": "All connectives, conversions and queries on the five logical values."
  },
  {
   "property": "C02",
   "status": "proved",
   "theorems": [
    "Ariadne.Logical.C02_check_sound",
    "Ariadne.Logical.C02_check_monotone",
    "Ariadne.Logical.C02_disjunction_complete",
    "Ariadne.Logical.C02_conjunction_complete"
   ],
   "note": "Soundness and monotonicity in effort for arbitrary nested logical expressions including infinite sequences; completeness of infinite disjunction/conjunction."
  },
  {
   "property": "C03",
   "status": "proved",
   "theorems": [
    "Ariadne.Logical.C03_choose_sound",
    "Ariadne.Logical.C03_choose_terminates",
    "Ariadne.Logical.C03_choose_bool"
   ],
   "note": "Unbounded search is modelled with fuel; soundness holds for every fuel and termination gives the fuel needed."
  },
  {
   "property": "C04",
   "status": "partial",
   "theorems": [
    "Ariadne.Logical.C04_or_counterexample",
    "Ariadne.Logical.C04_and_counterexample",
    "Ariadne.Logical.C04_or_incomplete",
    "Ariadne.Logical.C04_mixed_partial"
   ],
   "note": "The code violates the property: mixed overloads drop the Boolean. Counterexamples proved, plus the one-sided soundness that does hold."
  },
  {
   "property": "C05",
   "status": "partial",
   "theorems": [
    "Ariadne.Bounds.C05_ofExact",
    "Ariadne.Bounds.C05_add",
    "Ariadne.Bounds.C05_sub",
    "Ariadne.Bounds.C05_neg",
    "Ariadne.Bounds.C05_pos",
    "Ariadne.Bounds.C05_hlf",
    "Ariadne.Bounds.C05_mul",
    "Ariadne.Bounds.C05_mul_extended",
    "Ariadne.Bounds.C05_mul_extended_nan",
    "Ariadne.Bounds.C05_sqr",
    "Ariadne.Bounds.C05_abs",
    "Ariadne.Bounds.C05_pow",
    "Ariadne.Bounds.C05_max",
    "Ariadne.Bounds.C05_min",
    "Ariadne.Bounds.C05_fma",
    "Ariadne.Bounds.C05_mig_mag",
    "Ariadne.Bounds.C05_exact_arguments",
    "Ariadne.Bounds.C05_mixed",
    "Ariadne.Bounds.C05_op_mul_mixed",
    "Ariadne.Bounds.C05_op_add_counterexample",
    "Ariadne.Bounds.C05_positive",
    "Ariadne.Bounds.C05_positive_min",
    "Ariadne.Bounds.C05_positive_min_loose",
    "Ariadne.Bounds.C05_tight"
   ],
   "note": "All operator overloads used by the public operators are proved, also with overflow to infinity; the internal overload add(value,bounds) rounds the upper bound the wrong way and multiplying 0 by an infinite endpoint gives NaN (counterexamples)."
  },
  {
   "property": "C06",
   "status": "proved",
   "theorems": [
    "Ariadne.Bounds.C06_div",
    "Ariadne.Bounds.C06_rec",
    "Ariadne.Bounds.C06_zero",
    "Ariadne.Bounds.C06_tight",
    "Ariadne.Bounds.C06_pow_int",
    "Ariadne.Bounds.C06_op_div_mixed"
   ],
   "note": "Division, reciprocal, integer power, division by bounds containing zero."
  },
  {
   "property": "C07",
   "status": "proved",
   "theorems": [
    "Ariadne.Bounds.C07_comparisons_sound",
    "Ariadne.Bounds.C07_comparisons_decisive",
    "Ariadne.Bounds.C07_sgn_decisive",
    "Ariadne.Bounds.C07_set_predicates"
   ],
   "note": ""
  },
  {
   "property": "C08",
   "status": "partial",
   "theorems": [
    "Ariadne.Bounds.C08_refinement",
    "Ariadne.Bounds.C08_coarsening",
    "Ariadne.Bounds.C08_coarsening_least",
    "Ariadne.Bounds.C08_value_error",
    "Ariadne.Bounds.C08_value_mem",
    "Ariadne.Bounds.C08_pm",
    "Ariadne.Bounds.C08_widen",
    "Ariadne.Bounds.C08_narrow_counterexample"
   ],
   "note": "Everything but narrow, which moves the upper bound outward (counterexample)."
  },
  {
   "property": "C09",
   "status": "partial",
   "theorems": [
    "Ariadne.Ball.C09_ofExact",
    "Ariadne.Ball.C09_reprecision",
    "Ariadne.Ball.C09_toBounds",
    "Ariadne.Ball.C09_ofBounds",
    "Ariadne.Ball.C09_neg",
    "Ariadne.Ball.C09_hlf",
    "Ariadne.Ball.C09_add",
    "Ariadne.Ball.C09_sub",
    "Ariadne.Ball.C09_mul",
    "Ariadne.Ball.C09_rec_partial",
    "Ariadne.Ball.C09_div_partial",
    "Ariadne.Ball.C09_rec_counterexample",
    "Ariadne.Ball.C09_sqr",
    "Ariadne.Ball.C09_abs_partial",
    "Ariadne.Ball.C09_abs_counterexample",
    "Ariadne.Ball.C09_max_counterexample",
    "Ariadne.Ball.C09_max_min_partial",
    "Ariadne.Ball.C09_roundedValue",
    "Ariadne.Ball.C09_mag_mig",
    "Ariadne.Ball.C09_predicates",
    "Ariadne.Ball.C09_ofValueError_counterexample"
   ],
   "note": "Enclosure of +,-,*,sqr,neg,hlf, conversions, mag/mig, predicates. The code is unsound for rec/div of balls containing zero, abs of negative balls, max/min and Ball(Decimal,Decimal): counterexamples, and theorems for the remaining cases."
  },
  {
   "property": "C10",
   "status": "partial",
   "theorems": [
    "Ariadne.Decimal.C10_arithmetic",
    "Ariadne.Decimal.C10_ofDyadic",
    "Ariadne.Decimal.C10_canonical",
    "Ariadne.Decimal.C10_div",
    "Ariadne.Decimal.C10_compare_partial",
    "Ariadne.Decimal.C10_le_gt_swapped",
    "Ariadne.Decimal.C10_le_counterexample"
   ],
   "note": "Exact arithmetic, canonical results, division and comparisons; operator<= and operator> have their arguments swapped in the code (counterexample)."
  },
  {
   "property": "C100",
   "status": "partial",
   "theorems": [
    "Verif.Simulator.C100_evolve_partial",
    "Verif.Simulator.C100_static",
    "Verif.Simulator.C100_stalls",
    "Verif.Simulator.C100_evolve_exact",
    "Verif.Simulator.C100_nonpositive_step",
    "Verif.Simulator.C100_insert",
    "Verif.Simulator.C100_insert_at",
    "Verif.Simulator.C100_schedule",
    "Verif.Simulator.C100_orbit",
    "Verif.Simulator.C100_step_constant",
    "Verif.Simulator.C100_convergence_partial",
    "Verif.Simulator.C100_first_order",
    "Verif.Simulator.C100_second_order_fails",
    "Verif.Simulator.C100_fourth_order_fails",
    "Verif.Simulator.C100_initial_points_partial",
    "Verif.Simulator.C100_initial_points_outside",
    "Verif.Simulator.C100_auxiliary_point",
    "Verif.Simulator.C100_bounding_box",
    "Verif.Simulator.C100_bounding_box_empty",
    "Verif.Simulator.C100_interpolated",
    "Verif.Simulator.C100_static_step_size_fails"
   ],
   "note": "Proved for all fields, step sizes, final times and schedules. Missing, with counterexamples: the weights of the Runge-Kutta step belong to the wrong stages, so the method has order one instead of four; all integrators share the step size of the first one used; initial points can lie outside the initial box; a curve without points has no bounding box. Steps are modelled in exact arithmetic, but the convergence theorem allows an error in every step."
  },
  {
   "property": "C101",
   "status": "partial",
   "theorems": [
    "Verif.Simulator.Hybrid.C101_execution",
    "Verif.Simulator.Hybrid.C101_no_exception",
    "Verif.Simulator.Hybrid.C101_listed_partial",
    "Verif.Simulator.Hybrid.C101_listed_default_event",
    "Verif.Simulator.Hybrid.C101_no_steps",
    "Verif.Simulator.Hybrid.C101_times",
    "Verif.Simulator.Hybrid.C101_terminates",
    "Verif.Simulator.Hybrid.C101_orbit_partial",
    "Verif.Simulator.Hybrid.C101_orbit_fails",
    "Verif.Simulator.Hybrid.C101_invariant_fails",
    "Verif.Simulator.Hybrid.C101_composite_ignores_invariants",
    "Verif.Simulator.Hybrid.C101_empty_list"
   ],
   "note": "Proved for all systems of guards, targets, resets and flows. Missing, with counterexamples: invariants are tested with the guard functions of their events, so that no step is made in a location of a hybrid automaton with an invariant and the invariants of compositions are ignored; states are lost if the times round to the same number; a list of points is not simulated if the default event is a terminating one; an empty list of points has no orbit. The initial points for a box with some zero widths are not modelled."
  },
  {
   "property": "C102",
   "status": "partial",
   "theorems": [
    "Verif.ExprSet.C102_box_of_list",
    "Verif.ExprSet.C102_box_bounds_partial",
    "Verif.ExprSet.C102_box_euclid",
    "Verif.ExprSet.C102_box_round_trip",
    "Verif.ExprSet.C102_approximations",
    "Verif.ExprSet.C102_constructor",
    "Verif.ExprSet.C102_euclid_exists",
    "Verif.ExprSet.C102_euclid_partial",
    "Verif.ExprSet.C102_order_partial",
    "Verif.ExprSet.C102_equality_fails",
    "Verif.ExprSet.C102_constraint_dimension_partial",
    "Verif.ExprSet.C102_constraint_dimension_fails",
    "Verif.ExprSet.C102_hybrid_adjoin_partial",
    "Verif.ExprSet.C102_hybrid_adjoin_fails",
    "Verif.ExprSet.C102_intersection_partial",
    "Verif.ExprSet.C102_intersection_fails",
    "Verif.ExprSet.C102_duplicate_bounds_fails",
    "Verif.ExprSet.C102_conjunction_fails",
    "Verif.ExprSet.C102_disjunction_fails",
    "Verif.ExprSet.C102_labelled_comparison_fails"
   ],
   "note": "Proved for all sets, spaces and valuations. Missing, with counterexamples: conjunctions and disjunctions are exchanged in the euclidean set; equality constraints have no euclidean set; a box made of a list keeps only the first bound of a variable; a constraint set without constraints has dimension zero; labelled sets in spaces with different orders cannot be compared; adjoining to a location which has a set is ignored; the intersection fails if a location has no constraints."
  },
  {
   "property": "C103",
   "status": "partial",
   "theorems": [
    "Verif.Printing.C103_unambiguous",
    "Verif.Printing.C103_names",
    "Verif.Printing.C103_operators_partial",
    "Verif.Printing.C103_plus_sign_fails",
    "Verif.Printing.C103_plus_sign_difference_fails",
    "Verif.Printing.C103_nul_fails"
   ],
   "note": "Proved for all expressions without the operator nul (the constructors make none) and, for the output with symbols, without a plus sign before a sum, difference, product or quotient; with one the output reads as an expression with other values (counterexamples). Tokens are modelled, not their characters; logical and vector expressions are not."
  },
  {
   "property": "C104",
   "status": "partial",
   "theorems": [
    "Verif.FunctionObject.C104_components",
    "Verif.FunctionObject.C104_join_scalars",
    "Verif.FunctionObject.C104_join_vector_scalar",
    "Verif.FunctionObject.C104_join_scalar_vector",
    "Verif.FunctionObject.C104_join_vectors",
    "Verif.FunctionObject.C104_join_validated_vectors",
    "Verif.FunctionObject.C104_compose_vectors",
    "Verif.FunctionObject.C104_compose_scalar",
    "Verif.FunctionObject.C104_unary",
    "Verif.FunctionObject.C104_binary_vectors",
    "Verif.FunctionObject.C104_scalar_times_vector",
    "Verif.FunctionObject.C104_vector_by_scalar",
    "Verif.FunctionObject.C104_vector_constants",
    "Verif.FunctionObject.C104_vector_constant",
    "Verif.FunctionObject.C104_size_checks",
    "Verif.FunctionObject.C104_history",
    "Verif.FunctionObject.C104_set_frame",
    "Verif.FunctionObject.C104_set_partial",
    "Verif.FunctionObject.C104_validated_operators_partial",
    "Verif.FunctionObject.C104_set_shared_fails",
    "Verif.FunctionObject.C104_set_composed_fails",
    "Verif.FunctionObject.C104_set_cycle_fails",
    "Verif.FunctionObject.C104_join_validated_size",
    "Verif.FunctionObject.C104_join_validated_fails",
    "Verif.FunctionObject.C104_sum_validated_fails",
    "Verif.FunctionObject.C104_product_validated_fails",
    "Verif.FunctionObject.C104_operator_number_fails"
   ],
   "note": "Proved for all heaps of functions, all points and all sequences of operations other than assignments of components: joins, compositions, signs, sums, differences, products and quotients of multivariate functions. Missing, with counterexamples: assigning a component changes copies and compositions, and can make evaluation endless; the join of a validated scalar with a validated vector function keeps one component of the latter; sums of validated vector functions of different sizes are accepted; products of a validated scalar and vector function, and operators with a number on the right, call themselves for function patches. Embedding always throws (modelled as no result). Univariate functions and derivatives are not modelled here."
  },
  {
   "property": "C105",
   "status": "proved",
   "theorems": [
    "Verif.FunctionObject.C105_derivative",
    "Verif.FunctionObject.C105_component_derivative",
    "Verif.FunctionObject.C105_along_curves",
    "Verif.FunctionObject.C105_lie_derivative",
    "Verif.FunctionObject.C105_lie_sizes"
   ],
   "note": "For all well-formed heaps (all those reached by operations other than assignments, C104), scalar functions made of constants, coordinates, signs, squares, the four arithmetic operations and compositions, and components of vector, composed and joined functions. Not modelled: the other operators (their rules are in C38), derivatives of whole vector functions (not implemented in the code for joined functions)."
  },
  {
   "property": "C106",
   "status": "partial",
   "theorems": [
    "Verif.CommandLine.C106_numbers",
    "Verif.CommandLine.C106_documented",
    "Verif.CommandLine.C106_values_partial",
    "Verif.CommandLine.C106_accepted",
    "Verif.CommandLine.C106_documented_lines",
    "Verif.CommandLine.C106_first_problem",
    "Verif.CommandLine.C106_rejected_partial",
    "Verif.CommandLine.C106_rejected_fails",
    "Verif.CommandLine.C106_repeated_fails",
    "Verif.CommandLine.C106_values_fails",
    "Verif.CommandLine.C106_no_program"
   ],
   "note": "Proved for all command lines and settings: exactly which lines are accepted and what they set, that documented values are accepted with their meaning, and which problem is reported. Missing, with counterexamples: a rejected line changes the scheduler; a repeated scheduler is not reported; values with a number may go on with anything. The effects of the settings in the thread and logging libraries are not modelled."
  },
  {
   "property": "C107",
   "status": "partial",
   "theorems": [
    "Verif.ArrayMemory.C107_step",
    "Verif.ArrayMemory.C107_programs",
    "Verif.ArrayMemory.C107_no_leaks_partial",
    "Verif.ArrayMemory.C107_move_assign_fails",
    "Verif.ArrayMemory.C107_complement_partial",
    "Verif.ArrayMemory.C107_complement_fails"
   ],
   "note": "Proved for all histories of operations on any number of arrays (fresh targets for constructors, existing arrays otherwise; self-assignment included): no undefined behaviour, value semantics, exactly which memory is leaked. Missing, with counterexamples: move assignment leaks the block of its target; complement writes past the end for indices which are not increasing."
  },
  {
   "property": "C108",
   "status": "partial",
   "theorems": [
    "Verif.PDE.C108_conservation",
    "Verif.PDE.C108_constants",
    "Verif.PDE.C108_superposition",
    "Verif.PDE.C108_transport",
    "Verif.PDE.C108_bounds_partial",
    "Verif.PDE.C108_courant_fails",
    "Verif.PDE.C108_source_fails",
    "Verif.PDE.C108_interpolate_partial",
    "Verif.PDE.C108_interpolate_fails"
   ],
   "note": "Proved for all systems, grids, data and numbers of steps in exact arithmetic: conservation, constants, superposition, exact transport; bounds of scalar equations under the Courant condition; interpolation of affine data and at lower corners. Missing, with counterexamples: the step chosen by the code may break the Courant condition, and then data grow by a factor 5 in each step; the right-hand side is not used; the interpolation lacks a weight. Convergence and the error bound are not modelled."
  },
  {
   "property": "C109",
   "status": "partial",
   "theorems": [
    "Verif.Tensor.C109_elements",
    "Verif.Tensor.C109_constant",
    "Verif.Tensor.C109_generate",
    "Verif.Tensor.C109_transform",
    "Verif.Tensor.C109_alias_fails",
    "Verif.Tensor.C109_string_partial",
    "Verif.Tensor.C109_string_initial_fails",
    "Verif.Tensor.C109_string_first_fails",
    "Verif.Tensor.C109_linspace_partial",
    "Verif.Tensor.C109_linspace_fails"
   ],
   "note": "Proved for all tensors: elements are kept apart, constant, generated and transformed tensors; for all data, the string solver returns the values of its scheme after the initial time. Missing, with counterexamples: indices past the last column are the next row, so that the string solver, which writes one step too many, overwrites its initial data; its first step has the wrong sign; its points are not equally spaced. Exact arithmetic."
  },
  {
   "property": "C11",
   "status": "proved",
   "theorems": [
    "Ariadne.Decimal.C11_parse",
    "Ariadne.Decimal.C11_reject",
    "Ariadne.Decimal.C11_roundtrip",
    "Ariadne.Decimal.C11_print_injective"
   ],
   "note": ""
  },
  {
   "property": "C110",
   "status": "partial",
   "theorems": [
    "Verif.ListSet.C110_adjoin",
    "Verif.ListSet.C110_first",
    "Verif.ListSet.C110_adjoin_list_partial",
    "Verif.ListSet.C110_remove",
    "Verif.ListSet.C110_bounding_box",
    "Verif.ListSet.C110_self_fails",
    "Verif.ListSet.C110_mixed_fails"
   ],
   "note": "Proved for all basic sets, list sets and numbers of adjoined sets: unions, refusals, removals, and that the bounding box is the smallest. Missing, with counterexamples: adjoining a list set to itself is undefined; list sets with several dimensions are accepted and have no bounding box."
  },
  {
   "property": "C111",
   "status": "partial",
   "theorems": [
    "Verif.Orthogonal.C111_decomposition_partial",
    "Verif.Orthogonal.C111_defined",
    "Verif.Orthogonal.C111_dependent_fails"
   ],
   "note": "Proved for all sizes and all matrices over an ordered field: product, orthogonality, triangular form and row sums wherever the decomposition is defined, and that it is undefined exactly if one of the first min(m,n) columns is a combination of earlier ones. Missing, with a counterexample: such matrices, for which a decomposition exists but the code divides by zero. Exact arithmetic."
  },
  {
   "property": "C112",
   "status": "partial",
   "theorems": [
    "Verif.Orthogonal.Householder.C112_decomposition_partial",
    "Verif.Orthogonal.Householder.C112_without_pivoting",
    "Verif.Orthogonal.Householder.C112_full_rank",
    "Verif.Orthogonal.Householder.C112_zero_fails"
   ],
   "note": "Proved for all sizes and real matrices, with and without pivoting: the product with the matrix of the pivots, orthogonality and triangular form wherever no division by zero occurs; without pivoting the product of Q and R; with pivoting, all matrices of full rank are decomposed. Missing, with a counterexample: zero working columns, for which no reflection is needed but the code divides by zero. Exact arithmetic."
  },
  {
   "property": "C12",
   "status": "partial",
   "theorems": [
    "Ariadne.Exact.C12_mantissa_exponent",
    "Ariadne.Exact.C12_mantissa_exponent_unique",
    "Ariadne.Exact.C12_toDecimal",
    "Ariadne.Exact.C12_round",
    "Ariadne.Exact.C12_decimal_writer",
    "Ariadne.Exact.C12_decimal_roundtrip",
    "Ariadne.Exact.C12_scientific_partial",
    "Ariadne.Exact.C12_scientific_zero_diverges",
    "Ariadne.Exact.C12_fraction_writer",
    "Ariadne.Exact.C12_fraction_injective",
    "Ariadne.Exact.C12_ofString",
    "Ariadne.Exact.C12_ofMpf_counterexample"
   ],
   "note": "Everything but the scientific writer on zero, which never terminates, and construction from mpf_t, which returns zero (both proved)."
  },
  {
   "property": "C13",
   "status": "proved",
   "theorems": [
    "Ariadne.LRU.C13_no_undefined",
    "Ariadne.LRU.C13_capacity",
    "Ariadne.LRU.C13_contents",
    "Ariadne.LRU.C13_recency_spec",
    "Ariadne.LRU.C13_get",
    "Ariadne.LRU.C13_put_accepts",
    "Ariadne.LRU.C13_put_room",
    "Ariadne.LRU.C13_evicts_lru"
   ],
   "note": "All histories of put/get; contents are the m most recently used labels; eviction of the strictly oldest; no undefined erase(end())."
  },
  {
   "property": "C14",
   "status": "proved",
   "theorems": [
    "Ariadne.BinaryWord.C14_lt_irrefl",
    "Ariadne.BinaryWord.C14_lt_trans",
    "Ariadne.BinaryWord.C14_lt_trichotomy",
    "Ariadne.BinaryWord.C14_lt_spec",
    "Ariadne.BinaryWord.C14_isPrefix",
    "Ariadne.BinaryWord.C14_isSubword",
    "Ariadne.BinaryWord.C14_prefix_precedes",
    "Ariadne.BinaryWord.C14_append_erase",
    "Ariadne.BinaryWord.C14_erasePrefix",
    "Ariadne.BinaryWord.C14_print_read",
    "Ariadne.BinaryWord.C14_empty_not_consumed",
    "Ariadne.BinaryWord.C14_print_injective"
   ],
   "note": "Order, prefix, subword, append/erase and text output/reading. Reading an empty word back leaves the written \"e\" in the stream (C14_empty_not_consumed), so the text round-trip holds for single words and sequences of non-empty words."
  },
  {
   "property": "C15",
   "status": "proved",
   "theorems": [
    "Ariadne.BinaryTree.C15_hasEnabled",
    "Ariadne.BinaryTree.C15_allEnabled",
    "Ariadne.BinaryTree.C15_isEnabledAt",
    "Ariadne.BinaryTree.C15_restrict",
    "Ariadne.BinaryTree.C15_remove",
    "Ariadne.BinaryTree.C15_addEnabled",
    "Ariadne.BinaryTree.C15_addEnabledPath",
    "Ariadne.BinaryTree.C15_addEnabledSubtree",
    "Ariadne.BinaryTree.C15_prepend",
    "Ariadne.BinaryTree.C15_intersect",
    "Ariadne.BinaryTree.C15_subset",
    "Ariadne.BinaryTree.C15_invariant"
   ],
   "note": "All tree operations used by pavings, on infinite-path semantics; representation invariant preserved."
  },
  {
   "property": "C16",
   "status": "proved",
   "theorems": [
    "Ariadne.BinaryTree.C16_split",
    "Ariadne.BinaryTree.C16_mince_points",
    "Ariadne.BinaryTree.C16_mince_depth",
    "Ariadne.BinaryTree.C16_recombine_points",
    "Ariadne.BinaryTree.C16_recombine_minimal",
    "Ariadne.BinaryTree.C16_recombine_canonical"
   ],
   "note": "mince/split/recombine preserve the set; recombined trees are canonical."
  },
  {
   "property": "C17",
   "status": "proved",
   "theorems": [
    "Ariadne.BinaryTree.C17_roundtrip",
    "Ariadne.BinaryTree.C17_serialisation_injective",
    "Ariadne.BinaryTree.C17_restore_defined",
    "Ariadne.BinaryTree.C17_enumeration",
    "Ariadne.BinaryTree.C17_enumeration_sorted",
    "Ariadne.BinaryTree.C17_count",
    "Ariadne.BinaryTree.C17_depth",
    "Ariadne.BinaryTree.C17_equality"
   ],
   "note": "Serialisation round trip, counting, depth, equality; enumeration of enabled leaves without repetition and in word order."
  },
  {
   "property": "C18",
   "status": "proved",
   "theorems": [
    "Verif.Grid.C18_reroot",
    "Verif.Grid.C18_raise",
    "Verif.Grid.C18_width",
    "Verif.Grid.C18_split",
    "Verif.Grid.C18_subset",
    "Verif.Grid.C18_equal",
    "Verif.Grid.C18_order",
    "Verif.Grid.C18_smallest_enclosing",
    "Verif.Grid.C18_enclosing_not_minimal",
    "Verif.Grid.C18_neighbour"
   ],
   "note": "Lattice coordinates; halving is exact (in the code while bounds fit in 53 bits), corners are unbounded integers, positive dimension. C18_enclosing_not_minimal records that the enclosing primary cell is minimal only for strict inclusion."
  },
  {
   "property": "C19",
   "status": "partial",
   "theorems": [
    "Verif.Grid.C19_init",
    "Verif.Grid.C19_adjoin_cell",
    "Verif.Grid.C19_adjoin",
    "Verif.Grid.C19_remove_cell",
    "Verif.Grid.C19_remove",
    "Verif.Grid.C19_restrict",
    "Verif.Grid.C19_restrict_to_extent",
    "Verif.Grid.C19_algebra",
    "Verif.Grid.C19_history",
    "Verif.Grid.C19_branch",
    "Verif.Grid.C19_clone_partial",
    "Verif.Grid.C19_clone_wrong"
   ],
   "note": "Lattice coordinates, all extents, all histories of adjoin/remove/restrict/mince/recombine/clear; no update fails. Cloning a subpaving through its public clone() loses it (counterexample); pointers and ownership are not modelled."
  },
  {
   "property": "C20",
   "status": "partial",
   "theorems": [
    "Verif.Grid.C20_is_empty",
    "Verif.Grid.C20_cell_subset",
    "Verif.Grid.C20_cell_intersect",
    "Verif.Grid.C20_subset_partial",
    "Verif.Grid.C20_subset_wrong_for_empty",
    "Verif.Grid.C20_intersect",
    "Verif.Grid.C20_equality",
    "Verif.Grid.C20_box_superset",
    "Verif.Grid.C20_box_superset_exact",
    "Verif.Grid.C20_box_superset_degenerate",
    "Verif.Grid.C20_box_covers",
    "Verif.Grid.C20_box_subset",
    "Verif.Grid.C20_box_inside",
    "Verif.Grid.C20_box_intersects",
    "Verif.Grid.C20_box_overlaps_partial",
    "Verif.Grid.C20_box_overlaps_degenerate",
    "Verif.Grid.C20_box_separated",
    "Verif.Grid.C20_box_disjoint_partial",
    "Verif.Grid.C20_box_disjoint_wrong"
   ],
   "note": "Paving against paving and cell: exact, except that subset answers false for an empty first paving whose root lies elsewhere (counterexample). Paving against box, exact and rounded: sound for boxes with interior; degenerate boxes on cell boundaries (counterexamples) and disjointness of touching boxes from a divided paving (counterexample) are wrong."
  },
  {
   "property": "C21",
   "status": "proved",
   "theorems": [
    "Verif.Grid.C21_enclosing",
    "Verif.Grid.C21_outer",
    "Verif.Grid.C21_outer_tight",
    "Verif.Grid.C21_over",
    "Verif.Grid.C21_inner",
    "Verif.Grid.C21_inner_complete",
    "Verif.Grid.C21_inner_open_only",
    "Verif.Grid.C21_lower",
    "Verif.Grid.C21_lower_complete",
    "Verif.Grid.C21_lower_open_misses",
    "Verif.Grid.C21_outer_box",
    "Verif.Grid.C21_inner_box"
   ],
   "note": "Any previous paving, grid with positive lengths, fineness and set predicates that are sound on boxes; cell boxes rounded to nearest; doubles without overflow. C21_lower_open_misses and C21_inner_open_only record that the lower approximation of open sets and the inner approximation of open sets that are not closed sets can be empty although the property (soundness) holds."
  },
  {
   "property": "C22",
   "status": "partial",
   "theorems": [
    "Verif.Expansion.C22_strict_total",
    "Verif.Expansion.C22_add_partial",
    "Verif.Expansion.C22_add_counterexample",
    "Verif.Expansion.C22_graded",
    "Verif.Expansion.C22_least",
    "Verif.Expansion.C22_sub",
    "Verif.Expansion.C22_sub_fails"
   ],
   "note": "The three comparisons are strict total orders without any restriction. Compatibility with addition needs the degrees to fit in 16 bits; beyond that it fails (counterexample)."
  },
  {
   "property": "C23",
   "status": "proved",
   "theorems": [
    "Verif.Expansion.strict_orders",
    "Verif.Expansion.C23_get",
    "Verif.Expansion.C23_update",
    "Verif.Expansion.C23_set",
    "Verif.Expansion.C23_append",
    "Verif.Expansion.C23_insert_at",
    "Verif.Expansion.C23_prepend",
    "Verif.Expansion.C23_sorted_get",
    "Verif.Expansion.C23_sorted_update",
    "Verif.Expansion.C23_sorted_set",
    "Verif.Expansion.C23_sorted_insert",
    "Verif.Expansion.C23_history",
    "Verif.Expansion.C23_remove_zeros",
    "Verif.Expansion.C23_combine_terms",
    "Verif.Expansion.C23_normalise",
    "Verif.Expansion.C23_from_list",
    "Verif.Expansion.C23_equality",
    "Verif.Expansion.C23_same_as",
    "Verif.Expansion.C23_check",
    "Verif.Expansion.C23_value",
    "Verif.Expansion.C23_equal_values",
    "Verif.Expansion.C23_embed"
   ],
   "note": "Every update refines the update of a finite map, for every strict total order on indices; strict_orders shows the three monomial orders are such. Coefficients with exact equality."
  },
  {
   "property": "C24",
   "status": "partial",
   "theorems": [
    "Verif.TaylorModel.C24_neg",
    "Verif.TaylorModel.C24_scal_exact",
    "Verif.TaylorModel.C24_scal_partial",
    "Verif.TaylorModel.C24_scal_counterexample",
    "Verif.TaylorModel.C24_acc_exact",
    "Verif.TaylorModel.C24_acc_partial",
    "Verif.TaylorModel.C24_acc_symmetric",
    "Verif.TaylorModel.C24_acc_counterexample",
    "Verif.TaylorModel.C24_add",
    "Verif.TaylorModel.C24_sub",
    "Verif.TaylorModel.C24_wf"
   ],
   "note": "Addition, subtraction and negation are enclosures for every rounding; scalar operations for exact scalars. For scalars that are themselves bounds off-centre rounding can lose up to half of the error (counterexamples), and enclosure holds with twice the error."
  },
  {
   "property": "C25",
   "status": "partial",
   "theorems": [
    "Verif.TaylorModel.C25_mul_partial",
    "Verif.TaylorModel.C25_mul_exact_products",
    "Verif.TaylorModel.C25_ifma_sound",
    "Verif.TaylorModel.C25_mul_repaired",
    "Verif.TaylorModel.C25_mul_counterexample",
    "Verif.TaylorModel.C25_overflow_counterexample"
   ],
   "note": "The fused multiply-add underestimates the rounding error (counterexample); enclosure is proved with the error doubled, for exact products, and for the repaired step. Degrees must fit in 16 bits (counterexample otherwise)."
  },
  {
   "property": "C26",
   "status": "partial",
   "theorems": [
    "Verif.TaylorModel.C26_sweep",
    "Verif.TaylorModel.C26_terms",
    "Verif.TaylorModel.C26_sweep_relative",
    "Verif.TaylorModel.C26_bounds_counterexample"
   ],
   "note": "Every sweeper on floating-point coefficients; with bounds as coefficients the swept terms are lost (counterexample)."
  },
  {
   "property": "C27",
   "status": "proved",
   "theorems": [
    "Verif.TaylorModel.C27_range",
    "Verif.TaylorModel.C27_norm",
    "Verif.TaylorModel.C27_radius"
   ],
   "note": "range, norm and radius bound every enclosed function."
  },
  {
   "property": "C28",
   "status": "partial",
   "theorems": [
    "Verif.TaylorModel.C28_refines",
    "Verif.TaylorModel.C28_inconsistent",
    "Verif.TaylorModel.C28_refinement_partial",
    "Verif.TaylorModel.C28_refinement_counterexample"
   ],
   "note": "refines and inconsistent are sound. The refinement of two models is an enclosure of the common functions for constants; in general the code loses functions (counterexample)."
  },
  {
   "property": "C29",
   "status": "partial",
   "theorems": [
    "Verif.TaylorModel.C29_embed",
    "Verif.TaylorModel.C29_embed_error",
    "Verif.TaylorModel.C29_discard_variables",
    "Verif.TaylorModel.C29_split",
    "Verif.TaylorModel.C29_split_fails",
    "Verif.TaylorModel.C29_antidifferentiate",
    "Verif.TaylorModel.C29_differentiate",
    "Verif.TaylorModel.C29_evaluate",
    "Verif.TaylorModel.C29_compose_repaired_partial",
    "Verif.TaylorModel.C29_compose_exact_partial",
    "Verif.TaylorModel.C29_partial_evaluate_partial",
    "Verif.TaylorModel.C29_compose_counterexample"
   ],
   "note": "Embedding, discarding, splitting (degree below 16; beyond it throws), antidifferentiation, the polynomial part of differentiation, and evaluation over enclosures. Composition and partial evaluation are enclosures with exact arithmetic or the repaired multiplication; with the rounded multiplication of the code they are not (counterexample)."
  },
  {
   "property": "C30",
   "status": "partial",
   "theorems": [
    "Ariadne.Geometry.Interval.C30_closed_predicates",
    "Ariadne.Geometry.Interval.C30_interior_predicates",
    "Ariadne.Geometry.Interval.C30_overlap_proper",
    "Ariadne.Geometry.Interval.C30_operations",
    "Ariadne.Geometry.Interval.C30_equal_counterexample",
    "Ariadne.Geometry.Interval.C30_equal_partial",
    "Ariadne.Geometry.Interval.C30_split",
    "Ariadne.Geometry.Interval.C30_split_middle",
    "Ariadne.Geometry.Interval.C30_widen_narrow"
   ],
   "note": "All predicates and operations but equal, which holds for unequal intervals (counterexample and exact characterisation). End points are exact numbers."
  },
  {
   "property": "C31",
   "status": "partial",
   "theorems": [
    "Ariadne.Geometry.UnionOfIntervals.C31_construct",
    "Ariadne.Geometry.UnionOfIntervals.C31_convert_counterexample",
    "Ariadne.Geometry.UnionOfIntervals.C31_convert_partial",
    "Ariadne.Geometry.UnionOfIntervals.C31_join",
    "Ariadne.Geometry.UnionOfIntervals.C31_intersect",
    "Ariadne.Geometry.UnionOfIntervals.C31_intersect_points",
    "Ariadne.Geometry.UnionOfIntervals.C31_subset_partial",
    "Ariadne.Geometry.UnionOfIntervals.C31_subset_counterexample",
    "Ariadne.Geometry.UnionOfIntervals.C31_intersection_partial",
    "Ariadne.Geometry.UnionOfIntervals.C31_intersection_counterexample",
    "Ariadne.Geometry.UnionOfIntervals.C31_boundingBox",
    "Ariadne.Geometry.UnionOfIntervals.C31_measure"
   ],
   "note": "Construction, join, intersect, bounding box and measure proved. subset is wrong for single points, intersection loses components and converting constructors do not sort: counterexamples and partial theorems."
  },
  {
   "property": "C32",
   "status": "partial",
   "theorems": [
    "Verif.Procedure.C32_compile_partial",
    "Verif.Procedure.C32_valid",
    "Verif.Procedure.C32_compile_vector_partial",
    "Verif.Procedure.C32_compile_vector_distinct_partial",
    "Verif.Procedure.C32_cached_evaluate",
    "Verif.Procedure.C32_indices",
    "Verif.Procedure.C32_shared",
    "Verif.Procedure.C32_scalar_wrong",
    "Verif.Procedure.C32_shared_result_wrong"
   ],
   "note": "For formulae whose addresses identify their nodes, both orders of argument evaluation, any algebra. A constant-operator-formula (scalar) node is compiled to an instruction that reads a temporary instead of the constant (counterexample). Vectors are correct when moving copies or the formulae are distinct; a repeated formula loses its value when moving swaps (counterexample)."
  },
  {
   "property": "C33",
   "status": "partial",
   "theorems": [
    "Verif.Procedure.C33_gradient_partial",
    "Verif.Procedure.C33_gradient_formula_partial",
    "Verif.Procedure.C33_gradient_exact_partial",
    "Verif.Procedure.C33_empty",
    "Verif.Procedure.C33_asin_wrong"
   ],
   "note": "Exact arithmetic and any enclosing arithmetic, at points where every operation is differentiable; asin and acos are excluded because their derivatives are wrong in the code (counterexample), abs, max and min because the program stops."
  },
  {
   "property": "C34",
   "status": "partial",
   "theorems": [
    "Verif.Procedure.C34_no_solution_lost_partial",
    "Verif.Procedure.C34_contracts",
    "Verif.Procedure.C34_max_loses_solution",
    "Verif.Procedure.C34_min_loses_solution",
    "Verif.Procedure.C34_pow_loses_solution",
    "Verif.Procedure.C34_sin_loses_solution",
    "Verif.Procedure.C34_cos_loses_solution",
    "Verif.Procedure.C34_unsupported"
   ],
   "note": "For the operators pos, neg, rec, sqr, sqrt, exp, log, asin, acos, atan, add, sub, mul, div, and the points where the procedure is defined. Solutions are lost for max, min, pow, sin and cos (counterexamples); nul, hlf and abs do not return. The box always shrinks."
  },
  {
   "property": "C35",
   "status": "partial",
   "theorems": [
    "Ariadne.Symbolic.C35_simplify",
    "Ariadne.Symbolic.C35_simplify_partial",
    "Ariadne.Symbolic.C35_terminates",
    "Ariadne.Symbolic.C35_idempotent",
    "Ariadne.Symbolic.C35_size",
    "Ariadne.Symbolic.C35_arguments",
    "Ariadne.Symbolic.C35_sqrt_counterexample",
    "Ariadne.Symbolic.C35_atan_counterexample",
    "Ariadne.Symbolic.C35_identical",
    "Ariadne.Symbolic.C35_simplify_logical_partial"
   ],
   "note": "Structural and value preservation of simplify for every expression whose square roots and arctangents are principal; in particular without sqrt and atan. sqrt(sqr(x)) -> x and atan(tan(x)) -> x are wrong in the code, shown by counterexamples."
  },
  {
   "property": "C36",
   "status": "partial",
   "theorems": [
    "Ariadne.Symbolic.C36_derivative_partial",
    "Ariadne.Symbolic.C36_derivative_defined",
    "Ariadne.Symbolic.C36_derivative_throws",
    "Ariadne.Symbolic.C36_asin_counterexample",
    "Ariadne.Symbolic.C36_acos_counterexample"
   ],
   "note": "Symbolic derivative is the partial derivative wherever both are defined, for expressions without asin and acos, whose derivatives are wrong in the code (counterexamples). Definedness and the exact set of expressions for which differentiation throws are also proved."
  },
  {
   "property": "C37",
   "status": "proved",
   "theorems": [
    "Ariadne.Symbolic.C37_constant",
    "Ariadne.Symbolic.C37_affine",
    "Ariadne.Symbolic.C37_polynomial",
    "Ariadne.Symbolic.C37_additive"
   ],
   "note": "Soundness of the classification predicates."
  },
  {
   "property": "C38",
   "status": "partial",
   "theorems": [
    "Ariadne.Symbolic.C38_arguments",
    "Ariadne.Symbolic.C38_substitute",
    "Ariadne.Symbolic.C38_substitute_eq",
    "Ariadne.Symbolic.C38_substitute_arguments",
    "Ariadne.Symbolic.C38_substitute_list",
    "Ariadne.Symbolic.C38_eliminate",
    "Ariadne.Symbolic.C38_eliminate_counterexample",
    "Ariadne.Symbolic.C38_simultaneous_counterexample",
    "Ariadne.Symbolic.C38_substitute_logical"
   ],
   "note": "Single substitution is evaluation at a modified valuation. A list of assignments is substituted sequentially; the simultaneous reading fails in general (counterexamples) and elimination holds under an ordering condition."
  },
  {
   "property": "C39",
   "status": "partial",
   "theorems": [
    "Ariadne.AlgebraicSort.C39_sort_ok",
    "Ariadne.AlgebraicSort.C39_sort_ok_iff",
    "Ariadne.AlgebraicSort.C39_sort_error",
    "Ariadne.AlgebraicSort.C39_loop_counterexample"
   ],
   "note": "Sorting succeeds exactly for acyclic assignments and the result is a permutation in dependency order; for a cycle the failure is an assertion in some cases instead of AlgebraicLoopError (counterexample)."
  },
  {
   "property": "C40",
   "status": "partial",
   "theorems": [
    "Ariadne.Reachability.C40_verify_safety_partial",
    "Ariadne.Reachability.C40_verify_safety_counterexample"
   ],
   "note": "A positive certificate carries cells covering all reachable points and is correct if these are among its safe cells; verify_safety omits this last test and certifies an unsafe system (counterexample)."
  },
  {
   "property": "C41",
   "status": "proved",
   "theorems": [
    "Ariadne.Reachability.C41_outer_chain_reach",
    "Ariadne.Reachability.C41_terminates"
   ],
   "note": "For an over-approximating evolver; also termination."
  },
  {
   "property": "C42",
   "status": "partial",
   "theorems": [
    "Ariadne.Reachability.C42_upper_evolve_partial",
    "Ariadne.Reachability.C42_time_steps",
    "Ariadne.Reachability.C42_upper_evolve_counterexample",
    "Ariadne.Reachability.C42_upper_reach_evolve_reach",
    "Ariadne.Reachability.C42_upper_reach_evolve_final_partial",
    "Ariadne.Reachability.C42_upper_reach_partial",
    "Ariadne.Reachability.C42_upper_reach_counterexample"
   ],
   "note": "The reach set of upper_reach_evolve is proved; final sets if the number of steps is not rounded up (exact condition for integer times); upper_reach for up to two steps. Counterexamples for rounding up and for the removal of cells in upper_reach."
  },
  {
   "property": "C43",
   "status": "proved",
   "theorems": [
    "Verif.Space.Space.C43_distinct",
    "Verif.Space.Space.C43_bijection",
    "Verif.Space.Space.C43_contains",
    "Verif.Space.Space.C43_contains_all",
    "Verif.Space.Space.C43_of_list",
    "Verif.Space.Space.C43_append",
    "Verif.Space.Space.C43_insert",
    "Verif.Space.Space.C43_eq",
    "Verif.Space.Space.C43_adjoin",
    "Verif.Space.Space.C43_adjoin_idem",
    "Verif.Space.Space.C43_indices",
    "Verif.Space.C43_valuation_update",
    "Verif.Space.C43_valuation_read",
    "Verif.Space.C43_valuation_read_inserts",
    "Verif.Space.C43_valuation_of_array",
    "Verif.Space.C43_valuation_round_trip",
    "Verif.Space.C43_valuation_eq"
   ],
   "note": "Space: distinctness, bijection with indices, contains/index/indices agree, append fails exactly on duplicates, insert/adjoin/join keep indices; Valuation: update, read through a space, construction from array, round trip, comparison. Reading through a space inserts defaults (C43_valuation_read_inserts)."
  },
  {
   "property": "C44",
   "status": "partial",
   "theorems": [
    "Verif.Differential.C44_read",
    "Verif.Differential.C44_constant",
    "Verif.Differential.C44_variable",
    "Verif.Differential.C44_affine",
    "Verif.Differential.C44_of_expansion",
    "Verif.Differential.C44_assign",
    "Verif.Differential.C44_set_degree",
    "Verif.Differential.C44_neg",
    "Verif.Differential.C44_add_scalar",
    "Verif.Differential.C44_mul_scalar",
    "Verif.Differential.C44_add",
    "Verif.Differential.C44_sub",
    "Verif.Differential.C44_mul",
    "Verif.Differential.C44_pow",
    "Verif.Differential.C44_compose_univariate_partial",
    "Verif.Differential.C44_compose_empty",
    "Verif.Differential.C44_compose_partial",
    "Verif.Differential.C44_compose_degree_zero",
    "Verif.Differential.C44_derivative",
    "Verif.Differential.C44_antiderivative_partial",
    "Verif.Differential.C44_antiderivative_wraps",
    "Verif.Differential.C44_lie_derivative_partial",
    "Verif.Differential.C44_lie_degree_zero",
    "Verif.Differential.C44_flow_partial",
    "Verif.Differential.C44_flow_degree_zero",
    "Verif.Differential.C44_flow_time_partial",
    "Verif.Differential.C44_flow_parameters_wrong",
    "Verif.Differential.C44_solve_partial",
    "Verif.Differential.C44_solve_drift",
    "Verif.Differential.C44_rec",
    "Verif.Differential.C44_div",
    "Verif.Differential.C44_pow_int",
    "Verif.Differential.C44_series",
    "Verif.Differential.C44_taylor_init",
    "Verif.Differential.C44_taylor_arithmetic",
    "Verif.Differential.C44_taylor_apply_partial",
    "Verif.Differential.C44_taylor_div",
    "Verif.Differential.C44_taylor_lattice",
    "Verif.Differential.C44_taylor_compose_partial",
    "Verif.Differential.C44_gradient",
    "Verif.Differential.C44_taylor_unique",
    "Verif.Differential.C44_equal",
    "Verif.Differential.C44_half_hessian",
    "Verif.Differential.C44_univariate_arithmetic",
    "Verif.Differential.C44_univariate_compose",
    "Verif.Differential.C44_univariate_compose_self_wrong",
    "Verif.Differential.C44_univariate_antiderivative",
    "Verif.Differential.C44_univariate_derivative_wrong",
    "Verif.Differential.C44_variable_degree_zero_wrong",
    "Verif.Differential.C44_affine_vector_wrong"
   ],
   "note": "Coefficients, arithmetic, powers, quotients, composition, derivatives, antiderivatives, Lie derivatives, flows, implicit functions, series of elementary functions, gradients, second derivatives and univariate differentials are the Taylor polynomials of the corresponding functions over exact fields and over the reals. Partial: composition needs degree at least one and a non-empty expansion, antiderivatives degree below 65535, implicit functions a root; constructors of degree zero, vectors of affine functions, flows with parameters, univariate derivatives and self-composition are proved wrong; rounding of coefficients is not modelled here."
  },
  {
   "property": "C45",
   "status": "proved",
   "theorems": [
    "Ariadne.C45_down",
    "Ariadne.C45_up",
    "Ariadne.C45_near",
    "Ariadne.C45_monotone",
    "Ariadne.C45_identity",
    "Ariadne.C45_relative_error"
   ],
   "note": "p-bit rounding with unbounded exponent."
  },
  {
   "property": "C46",
   "status": "proved",
   "theorems": [
    "Ariadne.Sqrt.C46_sqrt_down",
    "Ariadne.Sqrt.C46_sqrt_up",
    "Ariadne.Sqrt.C46_sqrt_bounds"
   ],
   "note": ""
  },
  {
   "property": "C47",
   "status": "partial",
   "theorems": [
    "Ariadne.Exact.QBounds.C47_add_sub_neg",
    "Ariadne.Exact.QBounds.C47_negW_counterexample",
    "Ariadne.Exact.QBounds.C47_negW_partial",
    "Ariadne.Exact.QBounds.C47_hlf_counterexample",
    "Ariadne.Exact.QBounds.C47_hlf_partial",
    "Ariadne.Exact.QBounds.C47_mul",
    "Ariadne.Exact.QBounds.C47_rec",
    "Ariadne.Exact.QBounds.C47_div_total",
    "Ariadne.Exact.QBounds.C47_div",
    "Ariadne.Exact.QBounds.C47_sqr",
    "Ariadne.Exact.QBounds.C47_abs",
    "Ariadne.Exact.QBounds.C47_powW",
    "Ariadne.Exact.QBounds.C47_pow_partial",
    "Ariadne.Exact.QBounds.C47_pow_counterexample",
    "Ariadne.Exact.QBounds.C47_comparisons",
    "Ariadne.Exact.QBounds.C47_comparisons_decisive",
    "Ariadne.Exact.QBounds.C47_sets",
    "Ariadne.Exact.WBall.C47_ball_convert",
    "Ariadne.Exact.WBall.C47_ball_arithmetic",
    "Ariadne.Exact.WBall.C47_ball_predicates"
   ],
   "note": "All operations but hlf and even powers of rational bounds and the function neg of dyadic bounds, which are wrong in the code (counterexamples and partial theorems)."
  },
  {
   "property": "C48",
   "status": "partial",
   "theorems": [
    "Ariadne.Exact.C48_add",
    "Ariadne.Exact.C48_sub",
    "Ariadne.Exact.C48_mul",
    "Ariadne.Exact.C48_div",
    "Ariadne.Exact.C48_unary",
    "Ariadne.Exact.C48_max_min",
    "Ariadne.Exact.C48_compare",
    "Ariadne.Exact.C48_nan_partial",
    "Ariadne.Exact.C48_nan_counterexample"
   ],
   "note": "All operations; comparisons of values other than NaN. With NaN, rational < and dyadic <= hold (counterexample)."
  },
  {
   "property": "C49",
   "status": "partial",
   "theorems": [
    "Ariadne.Exact.C49_ofNat64_partial",
    "Ariadne.Exact.C49_ofNat64_counterexample",
    "Ariadne.Exact.C49_ofInt64_partial",
    "Ariadne.Exact.C49_ofInt32_partial",
    "Ariadne.Exact.C49_makeInteger",
    "Ariadne.Exact.C49_quot_rem_partial",
    "Ariadne.Exact.C49_quot_rem_mismatch",
    "Ariadne.Exact.C49_quot_rem_counterexample",
    "Ariadne.Exact.C49_floor_ceil",
    "Ariadne.Exact.C49_round",
    "Ariadne.Exact.C49_pow",
    "Ariadne.Exact.C49_print_partial",
    "Ariadne.Exact.C49_print_total",
    "Ariadne.Exact.C49_print_counterexample"
   ],
   "note": "floor, ceil, round, pow and make_integer proved; conversion from 64-bit numbers and Int32, quot/rem and text of long numbers are wrong in the code: exact characterisation of the correct arguments."
  },
  {
   "property": "C50",
   "status": "partial",
   "theorems": [
    "Ariadne.Symbolic.C50_indicator_positive",
    "Ariadne.Symbolic.C50_indicator_negative_partial",
    "Ariadne.Symbolic.C50_indicator_and_counterexample",
    "Ariadne.Symbolic.C50_indicator_or_counterexample",
    "Ariadne.Symbolic.C50_indicator_throws"
   ],
   "note": "Exact for the positive sign, and for the negative sign without conjunction and disjunction, for which the code is wrong (counterexamples). Failures are characterised."
  },
  {
   "property": "C51",
   "status": "partial",
   "theorems": [
    "Ariadne.Symbolic.C51_before",
    "Ariadne.Symbolic.C51_eliminate_partial",
    "Ariadne.Symbolic.C51_value_partial",
    "Ariadne.Symbolic.C51_eliminate_counterexample"
   ],
   "note": "Proved for constants whose comparisons are decided exactly (double-precision numbers); for others the comparison is not an order and different expressions are merged (counterexample)."
  },
  {
   "property": "C52",
   "status": "partial",
   "theorems": [
    "Verif.Expansion.C52_successor_partial",
    "Verif.Expansion.C52_enumerates_partial",
    "Verif.Expansion.C52_overrun",
    "Verif.Expansion.C52_overrun_witness"
   ],
   "note": "The components after incrementing are the immediate successor, and counting up enumerates every index in order; but whenever the degree increases the code also writes the word after the array of components (C52_overrun)."
  },
  {
   "property": "C53",
   "status": "partial",
   "theorems": [
    "Verif.Expansion.C53_horner",
    "Verif.Expansion.C53_horner_encloses",
    "Verif.Expansion.C53_power",
    "Verif.Expansion.C53_power_encloses",
    "Verif.Expansion.C53_univariate_partial",
    "Verif.Expansion.C53_univariate_shifted",
    "Verif.Expansion.C53_univariate_counterexample"
   ],
   "note": "Horner and power evaluation in any number of variables, exactly and over enclosures. The univariate Horner evaluation omits the factor of the lowest power: correct exactly for polynomials whose last term is constant (counterexample otherwise)."
  },
  {
   "property": "C54",
   "status": "partial",
   "theorems": [
    "Verif.Numeric.C54_fac",
    "Verif.Numeric.C54_bin",
    "Verif.Numeric.C54_bin8_partial",
    "Verif.Numeric.C54_bin8_counterexample",
    "Verif.Numeric.C54_ranges_sharp"
   ],
   "note": "All factorials, and binomial coefficients for 16, 32 and 64-bit arguments. The 8-bit version accepts n=31, where its 32-bit product overflows (counterexample); correct for n<31."
  },
  {
   "property": "C55",
   "status": "partial",
   "theorems": [
    "Verif.Matrix.C55_lu_inverse",
    "Verif.Matrix.C55_exact_inverse",
    "Verif.Matrix.C55_lu_solve",
    "Verif.Matrix.C55_bounds_inverse",
    "Verif.Matrix.C55_bounds_singular",
    "Verif.Matrix.C55_gs_solve",
    "Verif.Matrix.C55_sup_norm",
    "Verif.Matrix.C55_log_norm",
    "Verif.Matrix.C55_triangular_partial",
    "Verif.Matrix.C55_triangular_pivots_wrong",
    "Verif.Matrix.C55_dd_solve_wrong"
   ],
   "note": "Inverses and solutions are proved for every number type that encloses a field, with instances for exact numbers and for bounds under directed rounding (finite bounds, no overflow), including Gauss-Seidel with any preconditioner, both norms, refusal of singular matrices and exact success otherwise. Partial: the triangular decomposition needs nonzero pivots, because the code searches its pivots in the wrong matrix; the diagonally dominant solver does not enclose solutions. Both are shown by counterexample."
  },
  {
   "property": "C56",
   "status": "partial",
   "theorems": [
    "Verif.ConstraintSolver.C56_feasible_actual",
    "Verif.ConstraintSolver.C56_feasible_midpoint",
    "Verif.ConstraintSolver.C56_feasible_incomplete",
    "Verif.ConstraintSolver.C56_box_reduce",
    "Verif.ConstraintSolver.C56_good_points",
    "Verif.ConstraintSolver.C56_box_reduce_overflow",
    "Verif.ConstraintSolver.C56_box_reduce_contracts",
    "Verif.ConstraintSolver.C56_cutting_points_unordered",
    "Verif.ConstraintSolver.C56_reduce",
    "Verif.ConstraintSolver.C56_reduce_flag",
    "Verif.ConstraintSolver.C56_reduce_list",
    "Verif.ConstraintSolver.C56_reduce_list_contracts",
    "Verif.ConstraintSolver.C56_check_feasibility",
    "Verif.ConstraintSolver.C56_check_equality",
    "Verif.ConstraintSolver.C56_split",
    "Verif.ConstraintSolver.C56_split_at",
    "Verif.ConstraintSolver.C56_feasible_strict",
    "Verif.ConstraintSolver.C56_feasible",
    "Verif.ConstraintSolver.C56_dual_nonneg",
    "Verif.ConstraintSolver.C56_feasible_dual",
    "Verif.ConstraintSolver.C56_negative_multiplier",
    "Verif.ConstraintSolver.C56_split_point",
    "Verif.ConstraintSolver.C56_no_constraints",
    "Verif.ConstraintSolver.C56_monotone_reduce_partial",
    "Verif.ConstraintSolver.C56_monotone_reduce_diverges",
    "Verif.ConstraintSolver.C56_lyapunov_slopes",
    "Verif.ConstraintSolver.C56_combined_bounds",
    "Verif.ConstraintSolver.C56_lyapunov_reduce_partial",
    "Verif.ConstraintSolver.C56_lyapunov_centre_outside"
   ],
   "note": "All contractions keep every solution, for any function enclosure, dimension and rounding; the combined reduction, the splitting recursion and the feasibility test are proved right for every optimiser, including the dual certificate. Partial: box reduction needs the cutting points to be within the interval (proved when eight times the endpoints are representable; a counterexample shows the loss of solutions on overflow, and that cutting points may be out of order); Newton reduction is proved never to lose a solution but need not end (proved for a concrete case); the Lyapunov reduction needs the centre in the box (counterexample otherwise) and an enclosing gradient; the dual certificate needs nonnegative multipliers (counterexample otherwise); the point returned after splitting is empty. The hull contractor is a parameter here (C34 treats it over its own number type); the optimiser is a parameter in these theorems; with the optimiser of the code, whose steps are empty, the test is characterised exactly and proved right without any hypothesis (C56_feasible_actual, C56_feasible_midpoint), but it never splits and decides little (C56_feasible_incomplete)."
  },
  {
   "property": "C57",
   "status": "partial",
   "theorems": [
    "Verif.Solver.newton_exists",
    "Verif.Solver.krawczyk_exists",
    "Verif.Solver.C57_newton_step",
    "Verif.Solver.C57_krawczyk_step",
    "Verif.Solver.C57_factored_krawczyk_step",
    "Verif.Solver.C57_unique",
    "Verif.Solver.C57_zero_found",
    "Verif.Solver.C57_zero_none",
    "Verif.Solver.C57_solve_all_partial",
    "Verif.Solver.C57_solve_all_complete",
    "Verif.Solver.C57_solve_all_empty",
    "Verif.Solver.C57_solve_found",
    "Verif.Solver.C57_solve_none_partial",
    "Verif.Solver.C57_fixed_point",
    "Verif.Solver.C57_solve_none_false",
    "Verif.Solver.C57_solve_singular",
    "Verif.Solver.C57_solve_not_unique",
    "Verif.Solver.C57_zero_outside"
   ],
   "note": "The existence and uniqueness theorems behind the three contractors are proved from scratch (no fixed-point theorem is assumed), and the contractors, zero, solve_all, solve and fixed_point are proved sound for every rounding without overflow. Partial: the code does not tell which boxes it has given up, so that solve reports no solution, or a unique solution, although there are others; an exception for singular matrices escapes; zero may return an enclosure of a zero just outside the box. Each is shown by a counterexample. The set of solutions is modelled as a list in which equivalent elements are not inserted again; recursion is bounded by a parameter."
  },
  {
   "property": "C58",
   "status": "partial",
   "theorems": [
    "Verif.Solver.C58_newton_step",
    "Verif.Solver.C58_krawczyk_step",
    "Verif.Solver.C58_complete",
    "Verif.Solver.C58_disjoint",
    "Verif.Solver.C58_implicit_partial",
    "Verif.Solver.C58_implicit_scalar",
    "Verif.Solver.C58_out_of_steps",
    "Verif.Solver.C58_outside",
    "Verif.Solver.C58_flags_wrong"
   ],
   "note": "Steps, loss of no solution, disjointness, and for one equation existence, uniqueness and continuity are proved. Partial: for several equations existence is proved when all components refine at the same step; the code latches each component separately, and a counterexample returns a function without solution. The code also reports no solution when steps are used up, and may return a function outside X; both are shown by counterexamples. Function patches are modelled by their bounds at each parameter, with exact arithmetic followed by arbitrary widening."
  },
  {
   "property": "C59",
   "status": "partial",
   "theorems": [
    "Verif.Flow.C59_step",
    "Verif.Flow.C59_terminates",
    "Verif.Flow.C59_flow",
    "Verif.Flow.C59_flow_partial",
    "Verif.Flow.C59_time_rounding",
    "Verif.Flow.C59_widening_inverted",
    "Verif.Flow.C59_refinement_wide",
    "Verif.Flow.exists_solution",
    "Verif.Flow.IsSolution.unique",
    "Verif.Flow.Regular.of_contDiff"
   ],
   "note": "Existence, uniqueness and enclosure of all solutions from the initial box are proved for every rounding with possible overflow, together with the bound on the step and termination of the search. Partial: the end of the time interval is rounded down by the code, so that the full claim needs t and t+h to be representable; without that the bound holds up to the rounded end only, and a counterexample shows a bound which fails before t+h. Two further theorems show that the condition for widening the initial box is inverted."
  },
  {
   "property": "C60",
   "status": "partial",
   "theorems": [
    "Verif.Flow.C60_taylor_picard",
    "Verif.Flow.C60_graded",
    "Verif.Flow.C60_graded_validated_partial",
    "Verif.Flow.C60_graded_unvalidated",
    "Verif.Flow.C60_reduced_step",
    "Verif.Flow.C60_halving_diverges",
    "Verif.Flow.exists_tube_solution"
   ],
   "note": "Both integrators are proved to enclose the flow from a flow bound, for every rounding, sweeper and order; integration is that of the Taylor models of C29, and existence of solutions is proved rather than assumed. Partial: validation by the graded integrator from other boxes is proved when the polynomials of the two iterates agree, which the code does not check; a counterexample with exact arithmetic returns a model without the solution. The loop halving the step does not progress. The composition with the vector field and the initial patches are assumed to enclose (see C24, C29, C53); the last restriction to nonnegative times is not modelled."
  },
  {
   "property": "C61",
   "status": "partial",
   "theorems": [
    "Verif.Container.C61_set_ext",
    "Verif.Container.C61_of_list",
    "Verif.Container.C61_set_algebra",
    "Verif.Container.C61_set_tests",
    "Verif.Container.C61_member_subset_inverted",
    "Verif.Container.C61_member_restrict_inverted",
    "Verif.Container.C61_member_restrict_counterexample",
    "Verif.Container.C61_unique",
    "Verif.Container.C61_duplicates",
    "Verif.Container.C61_map_insert",
    "Verif.Container.C61_map_algebra",
    "Verif.Container.C61_map_keys",
    "Verif.Container.C61_map_ext",
    "Verif.Container.C61_complement",
    "Verif.Container.C61_complement_undefined"
   ],
   "note": "All free functions and the members of Set and Map are proved to have their set-theoretic meaning. Partial: the member functions Set::subset and Set::restrict are inverted in the code, which is proved (C61_member_subset_inverted, C61_member_restrict_inverted); complement is proved for strictly increasing indices in range and is proved to write out of bounds for all others."
  },
  {
   "property": "C62",
   "status": "partial",
   "theorems": [
    "Verif.Hybrid.C62_equal",
    "Verif.Hybrid.C62_equal_symm",
    "Verif.Hybrid.C62_order",
    "Verif.Hybrid.C62_distinguishable",
    "Verif.Hybrid.C62_restriction",
    "Verif.Hybrid.C62_restriction_distinguishable",
    "Verif.Hybrid.C62_join",
    "Verif.Hybrid.C62_restrict_partial",
    "Verif.Hybrid.C62_restrict_counterexample"
   ],
   "note": "All relations are proved for every pair of locations. Partial: restrict asserts that the location has only the given variables, so it can only return the location unchanged (C62_restrict_partial) and fails in the documented use (C62_restrict_counterexample)."
  },
  {
   "property": "C63",
   "status": "partial",
   "theorems": [
    "Verif.Hybrid.C63_invariant",
    "Verif.Hybrid.C63_mode",
    "Verif.Hybrid.C63_observers",
    "Verif.Hybrid.C63_new_mode",
    "Verif.Hybrid.C63_constraints",
    "Verif.Hybrid.C63_set_constraints",
    "Verif.Hybrid.C63_update",
    "Verif.Hybrid.C63_transition",
    "Verif.Hybrid.C63_failure_atomic_partial",
    "Verif.Hybrid.C63_transition_not_atomic",
    "Verif.Hybrid.C63_urgent_invariant_counterexample",
    "Verif.Hybrid.C63_discrete_reachability",
    "Verif.Hybrid.C63_check_mode",
    "Verif.Hybrid.C63_check_reachable",
    "Verif.Hybrid.C63_inputs"
   ],
   "note": "The invariant is proved by induction over all sequences of calls. Partial: a new_transition which throws may leave its guard behind (C63_transition_not_atomic), and has_invariant is false for urgent guards made by new_guard or new_action, against its documentation (C63_urgent_invariant_counterexample)."
  },
  {
   "property": "C64",
   "status": "partial",
   "theorems": [
    "Verif.Hybrid.C64_make_formula",
    "Verif.Hybrid.C64_dynamic_function",
    "Verif.Hybrid.C64_auxiliary_function",
    "Verif.Hybrid.C64_reset_function_partial",
    "Verif.Hybrid.C64_guard_function",
    "Verif.Hybrid.C64_invariant_function_partial",
    "Verif.Hybrid.C64_defined_partial",
    "Verif.Hybrid.C64_chain_fails",
    "Verif.Hybrid.C64_solution",
    "Verif.Hybrid.C64_reset_order_counterexample",
    "Verif.Hybrid.C64_chain_counterexample",
    "Verif.Hybrid.C64_invariant_counterexample"
   ],
   "note": "Whenever a function is made, its values are those of the equations (exact for dynamic, auxiliary and guard functions). Partial: functions cannot be made if an auxiliary variable used depends on another one (C64_chain_fails, C64_chain_counterexample); components of reset_function are in the order of assignment (C64_reset_order_counterexample); invariant_function is wrong for conjunctions and disjunctions (C64_invariant_counterexample). Proved for the remaining cases."
  },
  {
   "property": "C65",
   "status": "partial",
   "theorems": [
    "Verif.Hybrid.C65_mode",
    "Verif.Hybrid.C65_events",
    "Verif.Hybrid.C65_event_kind_partial",
    "Verif.Hybrid.C65_has_mode",
    "Verif.Hybrid.C65_queries",
    "Verif.Hybrid.C65_target",
    "Verif.Hybrid.C65_target_components",
    "Verif.Hybrid.C65_order",
    "Verif.Hybrid.C65_assignments",
    "Verif.Hybrid.C65_check_mode",
    "Verif.Hybrid.C65_discrete_reachability",
    "Verif.Hybrid.C65_check_reachable",
    "Verif.Hybrid.C65_predicates",
    "Verif.Hybrid.C65_dynamic_function",
    "Verif.Hybrid.C65_reset_function",
    "Verif.Hybrid.C65_guard_function",
    "Verif.Hybrid.C65_invariant_function_partial",
    "Verif.Hybrid.C65_auxiliary_function",
    "Verif.Hybrid.C65_defined_partial",
    "Verif.Hybrid.C65_event_kind_counterexample",
    "Verif.Hybrid.C65_target_counterexample",
    "Verif.Hybrid.C65_urgent_names_counterexample",
    "Verif.Hybrid.C65_invariant_counterexample",
    "Verif.Hybrid.C65_chain_counterexample"
   ],
   "note": "Exact modes, events, targets, assignments, predicates, checks and discrete reachability. Partial: event_kind is that of the first component with the event (C65_event_kind_counterexample); components sharing discrete variables may not reach their targets (C65_target_counterexample); check_mode identifies urgent components by name (C65_urgent_names_counterexample); invariant functions of conjunctions are wrong (C65_invariant_counterexample); functions cannot be made for auxiliary equations in order of evaluation (C65_chain_counterexample). Proved for the remaining cases; the cache of modes and error messages are not modelled."
  },
  {
   "property": "C66",
   "status": "partial",
   "theorems": [
    "Verif.Hybrid.C66_init",
    "Verif.Hybrid.C66_adjoin_cell",
    "Verif.Hybrid.C66_adjoin_cells",
    "Verif.Hybrid.C66_adjoin",
    "Verif.Hybrid.C66_remove",
    "Verif.Hybrid.C66_restrict_partial",
    "Verif.Hybrid.C66_local",
    "Verif.Hybrid.C66_mince_fine",
    "Verif.Hybrid.C66_is_empty",
    "Verif.Hybrid.C66_lookup",
    "Verif.Hybrid.C66_overlaps_partial",
    "Verif.Hybrid.C66_covers",
    "Verif.Hybrid.C66_separated_wrong",
    "Verif.Hybrid.C66_inside_partial",
    "Verif.Hybrid.C66_bounding_box",
    "Verif.Hybrid.C66_subset_partial",
    "Verif.Hybrid.C66_intersect_partial",
    "Verif.Hybrid.C66_iteration",
    "Verif.Hybrid.C66_outer",
    "Verif.Hybrid.C66_inner",
    "Verif.Hybrid.C66_lower",
    "Verif.Hybrid.C66_history",
    "Verif.Hybrid.C66_restrict_wrong",
    "Verif.Hybrid.C66_separated_covered",
    "Verif.Hybrid.C66_inside_wrong",
    "Verif.Hybrid.C66_subset_fails",
    "Verif.Hybrid.C66_lookup_inserts"
   ],
   "note": "Updates, approximations, iteration, bounding boxes, covers and emptiness proved for all pavings and histories. Partial: restrict keeps locations without entry in the argument (C66_restrict_wrong); separated is true for every location with an entry (C66_separated_wrong, C66_separated_covered); inside tests only the first location which is not empty (C66_inside_wrong); subset and intersect fail for locations without entry in the second paving (C66_subset_fails); a constant lookup adds an entry (C66_lookup_inserts). Grids and orders of variables of the two arguments are assumed equal."
  },
  {
   "property": "C67",
   "status": "partial",
   "theorems": [
    "Verif.Hybrid.C67_basic",
    "Verif.Hybrid.C67_basic_boxes",
    "Verif.Hybrid.C67_tests",
    "Verif.Hybrid.C67_inside_partial",
    "Verif.Hybrid.C67_adjoin_partial",
    "Verif.Hybrid.C67_adjoin_ignored",
    "Verif.Hybrid.C67_intersection_partial",
    "Verif.Hybrid.C67_list_adjoin",
    "Verif.Hybrid.C67_list_iteration",
    "Verif.Hybrid.C67_inside_fails",
    "Verif.Hybrid.C67_adjoin_wrong",
    "Verif.Hybrid.C67_intersection_fails"
   ],
   "note": "Tests, list sets and iteration proved. Partial: adjoining in a location which is present is ignored (C67_adjoin_ignored, C67_adjoin_wrong); inside and intersection fail for locations which are missing (C67_inside_fails, C67_intersection_fails). Proved for the other locations, with the exact conditions of failure."
  },
  {
   "property": "C68",
   "status": "partial",
   "theorems": [
    "Verif.FunctionSet.C68_construct",
    "Verif.FunctionSet.C68_intersection",
    "Verif.FunctionSet.C68_intersection_dimension_partial",
    "Verif.FunctionSet.C68_intersection_dimension_lost",
    "Verif.FunctionSet.C68_separated",
    "Verif.FunctionSet.C68_overlaps",
    "Verif.FunctionSet.C68_covers",
    "Verif.FunctionSet.C68_covers_interior",
    "Verif.FunctionSet.C68_intersection_box",
    "Verif.FunctionSet.C68_bounded_separated",
    "Verif.FunctionSet.C68_bounded_covers",
    "Verif.FunctionSet.C68_bounded_covers_interior",
    "Verif.FunctionSet.C68_bounded_inside",
    "Verif.FunctionSet.C68_bounded_bounding_box",
    "Verif.FunctionSet.C68_bounded_overlaps_partial",
    "Verif.FunctionSet.C68_bounded_overlaps_box",
    "Verif.FunctionSet.C68_intersection_bounded_wrong",
    "Verif.FunctionSet.C68_intersection_bounded_dimension",
    "Verif.FunctionSet.C68_intersection_box_wrong",
    "Verif.FunctionSet.C68_intersection_set_wrong",
    "Verif.FunctionSet.C68_overlaps_touching",
    "Verif.FunctionSet.C68_bounded_overlaps_wrong"
   ],
   "note": "Construction, separated, covers (interior, over the reals), inside, bounding boxes and two kinds of intersection proved. Partial: the intersections of a bounded constraint set with a box, a set or another bounded set use the bounds of the constraints as domain (C68_intersection_bounded_wrong, C68_intersection_box_wrong, C68_intersection_set_wrong, C68_intersection_bounded_dimension); the dimension is lost if there are no constraints; overlaps counts touching boxes, and may be wrong if the box misses the domain rounded inwards (C68_bounded_overlaps_wrong). The optimiser used by overlaps is assumed sound."
  },
  {
   "property": "C69",
   "status": "partial",
   "theorems": [
    "Verif.FunctionSet.C69_apply",
    "Verif.FunctionSet.C69_new_space_constraint",
    "Verif.FunctionSet.C69_new_parameter_constraint",
    "Verif.FunctionSet.C69_reduce",
    "Verif.FunctionSet.C69_is_empty",
    "Verif.FunctionSet.C69_bounding_box",
    "Verif.FunctionSet.C69_inside",
    "Verif.FunctionSet.C69_separated",
    "Verif.FunctionSet.C69_overlaps_partial",
    "Verif.FunctionSet.C69_split_at",
    "Verif.FunctionSet.C69_split",
    "Verif.FunctionSet.C69_split_none",
    "Verif.FunctionSet.C69_restriction",
    "Verif.FunctionSet.C69_satisfies_true",
    "Verif.FunctionSet.C69_satisfies_false_partial",
    "Verif.FunctionSet.C69_satisfies_lower_only",
    "Verif.FunctionSet.C69_image_apply",
    "Verif.FunctionSet.C69_image_new_space_constraint",
    "Verif.FunctionSet.C69_image_new_parameter_constraint",
    "Verif.FunctionSet.C69_image",
    "Verif.FunctionSet.C69_image_bounding_box",
    "Verif.FunctionSet.C69_image_inside",
    "Verif.FunctionSet.C69_image_separated",
    "Verif.FunctionSet.C69_image_overlaps_partial",
    "Verif.FunctionSet.C69_image_split_at",
    "Verif.FunctionSet.C69_image_satisfies_true",
    "Verif.FunctionSet.C69_image_satisfies_false_partial",
    "Verif.FunctionSet.C69_of_bounded_partial",
    "Verif.FunctionSet.C69_overlaps_wrong",
    "Verif.FunctionSet.C69_satisfies_wrong",
    "Verif.FunctionSet.C69_image_satisfies_wrong",
    "Verif.FunctionSet.C69_of_bounded_wrong"
   ],
   "note": "Operations, histories, splitting, bounding boxes, is_empty, inside, separated and the answer true of satisfies proved. Partial: satisfies always answers false for a constraint with a lower bound only which the bounding box does not settle (C69_satisfies_lower_only, C69_satisfies_wrong); overlaps and the answer false of satisfies are wrong for bounds or domains which are not floating-point numbers (C69_overlaps_wrong, C69_image_satisfies_wrong); the conversion of a bounded constraint set rounds its domain (C69_of_bounded_wrong). The optimiser used by overlaps is assumed sound."
  },
  {
   "property": "C70",
   "status": "partial",
   "theorems": [
    "Verif.Optimiser.C70_is_feasible_point",
    "Verif.Optimiser.C70_certificate",
    "Verif.Optimiser.C70_validate_infeasibility_partial",
    "Verif.Optimiser.C70_contains_false",
    "Verif.Optimiser.C70_projected_step",
    "Verif.Optimiser.C70_contains_true_partial",
    "Verif.Optimiser.C70_validate_feasibility_partial",
    "Verif.Optimiser.C70_feasible_false",
    "Verif.Optimiser.C70_feasible_true_partial",
    "Verif.Optimiser.C70_standard",
    "Verif.Optimiser.C70_penalty_true_partial",
    "Verif.Optimiser.C70_penalty_false_partial",
    "Verif.Optimiser.C70_zero_false",
    "Verif.Optimiser.C70_contains_wrong",
    "Verif.Optimiser.C70_contains_singular",
    "Verif.Optimiser.C70_validate_feasibility_outside",
    "Verif.Optimiser.C70_validate_infeasibility_wrong",
    "Verif.Optimiser.C70_penalty_false_wrong",
    "Verif.Optimiser.C70_penalty_inequality_wrong",
    "Verif.Optimiser.C70_penalty_outside",
    "Verif.Optimiser.C70_zero_true_wrong"
   ],
   "note": "Points accepted, infeasibility certificates (with unbounded constraints and NaN), the answer false of the interior point optimiser and of the box test, the projected and the searching Newton steps proved. Partial: the box test checks neither the domain nor the inequalities (C70_contains_wrong) and lets an exception escape (C70_contains_singular); validate_feasibility does not check the domain (C70_validate_feasibility_outside); validate_infeasibility is wrong for a centre outside of the domain (C70_validate_infeasibility_wrong); the penalty function optimiser answers false if its point violates a constraint (C70_penalty_false_wrong), and checks inequality and equality at different points (C70_penalty_inequality_wrong, C70_penalty_outside); the approximate optimiser accepts approximate zeros (C70_zero_true_wrong)."
  },
  {
   "property": "C71",
   "status": "partial",
   "theorems": [
    "Verif.Paver.C71_reduce",
    "Verif.Paver.C71_constraint",
    "Verif.Paver.C71_subdivision",
    "Verif.Paver.C71_affine_domains",
    "Verif.Paver.C71_affine_error",
    "Verif.Paver.C71_affine",
    "Verif.Paver.C71_optimal_never_adds",
    "Verif.Paver.C71_constraint_tight",
    "Verif.Paver.C71_reduce_tight",
    "Verif.Paver.C71_subdivision_tight",
    "Verif.Paver.C71_reduce_uncertain",
    "Verif.Paver.C71_constraint_uncertain",
    "Verif.Paver.C71_uncertain_diverges",
    "Verif.Paver.C71_optimal_root_wrong"
   ],
   "note": "Coverage and tightness of the pavings computed by contraction, by constraint propagation and by subdivision proved, for all fuels, functions, grids and roundings (tightness of contraction given ordered cutting points, as in exact arithmetic); the affine paver covers if the affine over-approximations do, its subdomains make up the domain. Partial: pavers need not return: the optimal constraint paver never adds a cell (C71_optimal_never_adds) and starts from the cell of the constraint function (C71_optimal_root_wrong); contraction and constraint pavers do not return for functions known up to an error wider than the cells (C71_reduce_uncertain, C71_constraint_uncertain, C71_uncertain_diverges). The affine over-approximation itself is not modelled."
  },
  {
   "property": "C72",
   "status": "partial",
   "theorems": [
    "Verif.Enclosure.C72_of_box",
    "Verif.Enclosure.C72_of_box_exact",
    "Verif.Enclosure.C72_of_set",
    "Verif.Enclosure.C72_make_domain",
    "Verif.Enclosure.C72_make_domain_exact",
    "Verif.Enclosure.C72_apply_map",
    "Verif.Enclosure.C72_apply_map_exact",
    "Verif.Enclosure.C72_map_step",
    "Verif.Enclosure.C72_map_step_exact",
    "Verif.Enclosure.C72_fixed_evolve",
    "Verif.Enclosure.C72_fixed_evolve_exact",
    "Verif.Enclosure.C72_space_evolve",
    "Verif.Enclosure.C72_space_evolve_exact",
    "Verif.Enclosure.C72_spacetime_evolve",
    "Verif.Enclosure.C72_spacetime_evolve_exact",
    "Verif.Enclosure.C72_parameter_evolve",
    "Verif.Enclosure.C72_parameter_evolve_exact",
    "Verif.Enclosure.C72_finishing_evolve",
    "Verif.Enclosure.C72_finishing_evolve_exact",
    "Verif.Enclosure.C72_parameter_reach",
    "Verif.Enclosure.C72_parameter_reach_exact",
    "Verif.Enclosure.C72_full_reach",
    "Verif.Enclosure.C72_full_reach_exact",
    "Verif.Enclosure.C72_spacetime_reach",
    "Verif.Enclosure.C72_spacetime_reach_exact",
    "Verif.Enclosure.C72_state_constraint",
    "Verif.Enclosure.C72_state_constraint_exact",
    "Verif.Enclosure.C72_state_time_constraint",
    "Verif.Enclosure.C72_state_time_constraint_exact",
    "Verif.Enclosure.C72_state_time_bound",
    "Verif.Enclosure.C72_state_time_bound_exact",
    "Verif.Enclosure.C72_parameter_constraint",
    "Verif.Enclosure.C72_parameter_constraint_sound",
    "Verif.Enclosure.C72_sign_constraints",
    "Verif.Enclosure.C72_clear_time",
    "Verif.Enclosure.C72_clear_time_exact",
    "Verif.Enclosure.C72_reduce",
    "Verif.Enclosure.C72_is_empty",
    "Verif.Enclosure.C72_is_empty_unconstrained",
    "Verif.Enclosure.C72_bounding_box",
    "Verif.Enclosure.C72_satisfies_function",
    "Verif.Enclosure.C72_satisfies",
    "Verif.Enclosure.C72_inside",
    "Verif.Enclosure.C72_subset",
    "Verif.Enclosure.C72_separated",
    "Verif.Enclosure.C72_split_at",
    "Verif.Enclosure.C72_split_at_exact",
    "Verif.Enclosure.C72_split",
    "Verif.Enclosure.C72_splitting_index",
    "Verif.Enclosure.C72_split_fails",
    "Verif.Enclosure.C72_restrict",
    "Verif.Enclosure.C72_error_recondition",
    "Verif.Enclosure.C72_error_recondition_exact",
    "Verif.Enclosure.C72_uniform_error_recondition",
    "Verif.Enclosure.C72_large_errors",
    "Verif.Enclosure.C72_prod_box",
    "Verif.Enclosure.C72_prod_box_exact",
    "Verif.Enclosure.C72_prod",
    "Verif.Enclosure.C72_prod_exact",
    "Verif.Enclosure.C72_made",
    "Verif.Enclosure.C72_recondition_uniform",
    "Verif.Enclosure.C72_recondition_error",
    "Verif.Enclosure.C72_recondition_error_exact",
    "Verif.Enclosure.C72_kept_discarded",
    "Verif.Enclosure.C72_kept_dominant",
    "Verif.Enclosure.C72_kuhn",
    "Verif.Enclosure.C72_kuhn_wf",
    "Verif.Enclosure.C72_reach_forgets_dwell",
    "Verif.Enclosure.C72_inside_touches"
   ],
   "note": "Coverage of every operation proved for all sound function operations, and equality of the sets for exact operations; the promise about the reduced domain proved for every enclosure built by the operations (C72_made), from which the answers true of is_empty, separated, inside, subset and satisfies are right. Kuhn reconditioning is proved on the Taylor models themselves. Partial: a reachability step forgets the dwell time accumulated before (C72_reach_forgets_dwell); inside answers true for sets touching the boundary (C72_inside_touches); split fails on sets of one state (C72_split_fails)."
  },
  {
   "property": "C73",
   "status": "partial",
   "theorems": [
    "Verif.Evolver.C73_field_moment",
    "Verif.Evolver.C73_field_orbit",
    "Verif.Evolver.C73_field_lower",
    "Verif.Evolver.C73_schedule",
    "Verif.Evolver.C73_schedule_completes",
    "Verif.Evolver.C73_field_terminates",
    "Verif.Evolver.C73_field_exact",
    "Verif.Evolver.C73_recondition_loops",
    "Verif.Evolver.C73_map_orbit",
    "Verif.Evolver.C73_map_lower",
    "Verif.Evolver.C73_map_terminates",
    "Verif.Evolver.C73_map_exact",
    "Verif.Evolver.C73_exception",
    "Verif.Evolver.C73_zero_time",
    "Verif.Evolver.C73_overshoot",
    "Verif.Evolver.C73_map_reach_lacks_start"
   ],
   "note": "Coverage is proved as an invariant of an interleaving semantics of the thread pool, so it holds at every moment and for every schedule; the orbit is the same up to order for all completed schedules, and termination is proved without subdivisions and reconditioning if the step sizes have a positive lower bound. Exactness is proved for exact operations. Partial: final() is not at the evolution time but after it (C73_overshoot); reach() is empty for evolution time zero (C73_zero_time) and lacks the initial set for maps (C73_map_reach_lacks_start); an exception for one set means no orbit (C73_exception); with reconditioning the loop can go on for ever if maximum_spacial_error is below the tolerance of recondition (C73_recondition_loops)."
  },
  {
   "property": "C74",
   "status": "partial",
   "theorems": [
    "Verif.HybridEvolver.C74_reach",
    "Verif.HybridEvolver.C74_final_event",
    "Verif.HybridEvolver.C74_final_time_partial",
    "Verif.HybridEvolver.C74_paths",
    "Verif.HybridEvolver.C74_along",
    "Verif.HybridEvolver.C74_schedule",
    "Verif.HybridEvolver.C74_zero_time",
    "Verif.HybridEvolver.C74_decreasing_spurious",
    "Verif.HybridEvolver.C74_decreasing_assertion",
    "Verif.HybridEvolver.C74_impact_start"
   ],
   "note": "Executions are defined independently of the evolver, as sequences of solutions of the differential equations ended by events; coverage of an execution is an invariant of the processing of the work list, for any order and any number of events. The relation of solutions, guards and their Lie derivatives which the steps need is derived over the reals from the differential equation (C74_along). Partial: the state at the final time is in final(), or in a set with all its times at or after the final time, which is dropped, or in a reached set without later times (C74_final_time_partial, for runs without a creep step past the final time). The orbit is empty if the final time is zero (C74_zero_time); urgent guards which decrease along the flow give spurious jumps (C74_decreasing_spurious) or a failed assertion (C74_decreasing_assertion); states in which the guard of an impact is positive at the start are lost (C74_impact_start)."
  },
  {
   "property": "C75",
   "status": "partial",
   "theorems": [
    "Verif.TaylorModel.C75_distinct",
    "Verif.TaylorModel.C75_sweep",
    "Verif.TaylorModel.C75_neg_scal",
    "Verif.TaylorModel.C75_acc",
    "Verif.TaylorModel.C75_constructors",
    "Verif.TaylorModel.C75_add_sub",
    "Verif.TaylorModel.C75_ifma",
    "Verif.TaylorModel.C75_mul",
    "Verif.TaylorModel.C75_antidifferentiate",
    "Verif.TaylorModel.C75_differentiate",
    "Verif.TaylorModel.C75_cleanup",
    "Verif.TaylorModel.C75_compose",
    "Verif.TaylorModel.C75_mul_overflow"
   ],
   "note": "Each operation preserves strict order of the indices, for any rounding. Partial: composition is proved for exact arithmetic (the error of a product of models is not sound otherwise, see C25), and the product needs the sums of the exponents to stay below 65536; without that it fails (C75_mul_overflow)."
  },
  {
   "property": "C76",
   "status": "partial",
   "theorems": [
    "Verif.FunctionPatch.C76_evaluate",
    "Verif.FunctionPatch.C76_evaluate_outside",
    "Verif.FunctionPatch.C76_evaluate_vector",
    "Verif.FunctionPatch.C76_range",
    "Verif.FunctionPatch.C76_norm",
    "Verif.FunctionPatch.C76_norm_vector",
    "Verif.FunctionPatch.C76_add_sub",
    "Verif.FunctionPatch.C76_neg_scal",
    "Verif.FunctionPatch.C76_mul_partial",
    "Verif.FunctionPatch.C76_domains_differ",
    "Verif.FunctionPatch.C76_distance",
    "Verif.FunctionPatch.C76_iadd",
    "Verif.FunctionPatch.C76_embed",
    "Verif.FunctionPatch.C76_embed_vector",
    "Verif.FunctionPatch.C76_join",
    "Verif.FunctionPatch.C76_combine",
    "Verif.FunctionPatch.C76_refines",
    "Verif.FunctionPatch.C76_inconsistent",
    "Verif.FunctionPatch.C76_coordinate",
    "Verif.FunctionPatch.C76_identity",
    "Verif.FunctionPatch.C76_constant",
    "Verif.FunctionPatch.C76_compose_partial",
    "Verif.FunctionPatch.C76_compose_refused",
    "Verif.FunctionPatch.C76_restriction_partial",
    "Verif.FunctionPatch.C76_restriction_refused",
    "Verif.FunctionPatch.C76_restriction_vector_partial",
    "Verif.FunctionPatch.C76_partial_restriction_fails",
    "Verif.FunctionPatch.C76_refines_subdomain_partial",
    "Verif.FunctionPatch.C76_inconsistent_overlap_partial",
    "Verif.FunctionPatch.C76_vector_add_sub_partial",
    "Verif.FunctionPatch.C76_split",
    "Verif.FunctionPatch.C76_partial_evaluate_partial",
    "Verif.FunctionPatch.C76_partial_evaluate_outside",
    "Verif.FunctionPatch.C76_antiderivative",
    "Verif.FunctionPatch.C76_derivative_partial",
    "Verif.FunctionPatch.C76_antiderivative_from_partial",
    "Verif.FunctionPatch.C76_reciprocal",
    "Verif.FunctionPatch.C76_identity_wrong",
    "Verif.FunctionPatch.C76_split_wrong",
    "Verif.FunctionPatch.C76_isub_wrong",
    "Verif.FunctionPatch.C76_inconsistent_disjoint"
   ],
   "note": "Evaluation, range, norm, distance, sum, difference, embedding, join, combine, and refines and inconsistent on equal domains are proved for any rounding; identity and coordinates for domains with representable midpoint and width, splitting for representable midpoints; antiderivative for representable radius. Partial: product with exact products of coefficients (C25); composition, restriction, partial evaluation, antiderivative from a point, and operations on different domains for exact arithmetic (multiplication of models is not sound with rounding, C25); derivative for the polynomial part. The identity (C76_identity_wrong) and the split (C76_split_wrong) are wrong if the midpoint is rounded; -= of vectors adds (C76_isub_wrong); inconsistent() is wrong on disjoint domains (C76_inconsistent_disjoint); partial_restriction of vectors always fails (C76_partial_restriction_fails)."
  },
  {
   "property": "C77",
   "status": "partial",
   "theorems": [
    "Verif.RealNumber.C77_sound",
    "Verif.RealNumber.C77_effective",
    "Verif.RealNumber.C77_effective_clean",
    "Verif.RealNumber.C77_total",
    "Verif.RealNumber.C77_total_operators",
    "Verif.RealNumber.C77_operators",
    "Verif.RealNumber.C77_finite",
    "Verif.RealNumber.C77_finite_operators",
    "Verif.RealNumber.C77_no_exception",
    "Verif.RealNumber.C77_accuracy",
    "Verif.RealNumber.C77_accuracy_terminates",
    "Verif.RealNumber.C77_accuracy_zero",
    "Verif.RealNumber.C77_round",
    "Verif.RealNumber.C77_comparisons_sound",
    "Verif.RealNumber.C77_comparisons_decided",
    "Verif.RealNumber.C77_sign_decided",
    "Verif.RealNumber.C77_same",
    "Verif.RealNumber.C77_nondeterministic_greater",
    "Verif.RealNumber.C77_nondeterministic_greater_terminates",
    "Verif.RealNumber.C77_lower_upper",
    "Verif.RealNumber.C77_limit",
    "Verif.RealNumber.C77_pbits_fine",
    "Verif.RealNumber.C77_limit_float_wrong",
    "Verif.RealNumber.C77_limit_arithmetic_wrong",
    "Verif.RealNumber.C77_limit_stalls",
    "Verif.RealNumber.C77_when_throws",
    "Verif.RealNumber.C77_nan_wrong"
   ],
   "note": "Proved for arbitrary operators which are sound (and tight, for convergence), and for the rational operators: containment whenever no NaN arises, and that none arises for expressions without multiplication, or without overflow and division; convergence; accuracy; comparisons. Partial: convergence excludes limits of real numbers below the top level, since their floating-point bounds are wrong by 2^31 (C77_limit_float_wrong), and at the top level needs fast convergence of the elements; NaN can hide in max and min (C77_nan_wrong); when-expressions can throw (C77_when_throws); elementary functions enter as sound operators (C11, C12)."
  },
  {
   "property": "C78",
   "status": "partial",
   "theorems": [
    "Verif.Affine.C78_constant",
    "Verif.Affine.C78_coordinate",
    "Verif.Affine.C78_neg",
    "Verif.Affine.C78_add",
    "Verif.Affine.C78_scale",
    "Verif.Affine.C78_scale_partial",
    "Verif.Affine.C78_mul_partial",
    "Verif.Affine.C78_defined",
    "Verif.Affine.C78_add_number_partial",
    "Verif.Affine.C78_of_affine",
    "Verif.Affine.C78_radius",
    "Verif.Affine.C78_range",
    "Verif.Affine.C78_range_defined",
    "Verif.Affine.C78_evaluate",
    "Verif.Affine.C78_of_taylor",
    "Verif.Affine.C78_scaling_partial",
    "Verif.Affine.C78_compose_partial",
    "Verif.Affine.C78_add_number_counterexample",
    "Verif.Affine.C78_scaling_counterexample",
    "Verif.Affine.C78_mul_counterexample",
    "Verif.Affine.C78_scale_counterexample",
    "Verif.Affine.C78_compose_counterexample",
    "Verif.Affine.C78_compose_throws"
   ],
   "note": "Proved for every rounding without overflow: constants, coordinates, negation, sums, exact multiples, conversions from affine functions and Taylor models, range and evaluation. Partial where the code is wrong: adding a number works for nonnegative numbers only (C78_add_number_counterexample), so scalings need a nonnegative midpoint (C78_scaling_counterexample) and composition values zero (C78_compose_counterexample, C78_compose_throws); products need an error of at most one in the second factor (C78_mul_counterexample); multiples by intervals hold up to twice the error (C78_scale_counterexample)."
  },
  {
   "property": "C79",
   "status": "partial",
   "theorems": [
    "Verif.LinearProgram.C79_certificate",
    "Verif.LinearProgram.C79_infeasible",
    "Verif.LinearProgram.C79_correct",
    "Verif.LinearProgram.C79_feasible_partial",
    "Verif.LinearProgram.C79_validate_feasible_partial",
    "Verif.LinearProgram.C79_validate_infeasible_partial",
    "Verif.LinearProgram.C79_validate_nan",
    "Verif.LinearProgram.C79_validate_infeasible_wrong",
    "Verif.LinearProgram.C79_empty_bounds_throw"
   ],
   "note": "Infeasibility answers of the solver are proved for all inputs, with overflow, infinities and NaN (C79_certificate, C79_infeasible). Feasibility answers are proved without overflow for finite approximations; a NaN approximation is validated (C79_validate_nan). validate_feasibility refutes feasible problems because of a sign (C79_validate_infeasible_wrong) and is right for nonnegative lower bounds and finite multipliers."
  },
  {
   "property": "C80",
   "status": "partial",
   "theorems": [
    "Verif.AffineSet.C80_bounding_box",
    "Verif.AffineSet.C80_separated_partial",
    "Verif.AffineSet.C80_is_empty_partial",
    "Verif.AffineSet.C80_inside",
    "Verif.AffineSet.C80_outer_sound_partial",
    "Verif.AffineSet.C80_outer_partial",
    "Verif.AffineSet.C80_affine_paver_partial",
    "Verif.AffineSet.C80_of_matrix_partial",
    "Verif.AffineSet.C80_of_affines_partial",
    "Verif.AffineSet.C80_of_box_partial",
    "Verif.AffineSet.C80_of_balls_partial",
    "Verif.AffineSet.C80_separated_error",
    "Verif.AffineSet.C80_outer_error",
    "Verif.AffineSet.C80_separated_bounds",
    "Verif.AffineSet.C80_domain_ignored",
    "Verif.AffineSet.C80_affine_functions_ignored",
    "Verif.AffineSet.C80_ball_error"
   ],
   "note": "bounding_box and inside are proved in general; separated, is_empty and outer approximations (with termination and tightness) for constraints without uncertainty. Errors of the models of constraints and uncertain bounds are ignored by the code (C80_separated_error, C80_separated_bounds, C80_outer_error); the constructors ignore the domain, the functions or the error of the upper bound (C80_domain_ignored, C80_affine_functions_ignored, C80_ball_error). The simplex variant and image are not modelled."
  },
  {
   "property": "C81",
   "status": "partial",
   "theorems": [
    "Verif.Inclusion.C81_zero_component",
    "Verif.Inclusion.C81_zero_partial",
    "Verif.Inclusion.C81_zero_reach_partial",
    "Verif.Inclusion.C81_constant_partial",
    "Verif.Inclusion.C81_zero_additive",
    "Verif.Inclusion.C81_zero_large",
    "Verif.Inclusion.C81_constant_contracting"
   ],
   "note": "The component error of the zero approximation is proved in general, the whole error if its constant pK covers the inputs; it does not for several additive inputs on one component (C81_zero_additive) and for inputs larger than one (C81_zero_large). The error for constant inputs is proved for inputs with constant coefficients and a positive logarithmic norm, at every time of the step; it is zero for a negative one (C81_constant_contracting). The approximations with two parameters are not modelled."
  },
  {
   "property": "C82",
   "status": "partial",
   "theorems": [
    "Verif.InclusionEvolver.C82_rigorous",
    "Verif.InclusionEvolver.C82_progress",
    "Verif.InclusionEvolver.C82_conserved",
    "Verif.InclusionEvolver.C82_retry",
    "Verif.InclusionEvolver.C82_delay",
    "Verif.InclusionEvolver.C82_no_overflow",
    "Verif.InclusionEvolver.C82_counts",
    "Verif.InclusionEvolver.C82_best",
    "Verif.InclusionEvolver.C82_reach_rigorous",
    "Verif.InclusionEvolver.C82_reach",
    "Verif.InclusionEvolver.C82_unbounded",
    "Verif.InclusionEvolver.C82_overflow",
    "Verif.InclusionEvolver.C82_no_reach"
   ],
   "note": "Proved for lists without repetitions; with an approximation repeated 32 times the shift overflows (C82_overflow). There is a reached set if the volume of a rigorous approximation is less than infinity, and none otherwise (C82_no_reach, C82_unbounded)."
  },
  {
   "property": "C83",
   "status": "partial",
   "theorems": [
    "Verif.InclusionEvolver.C83_step",
    "Verif.InclusionEvolver.C83_orbit_partial",
    "Verif.InclusionEvolver.C83_final_time",
    "Verif.InclusionEvolver.C83_stuck",
    "Verif.InclusionEvolver.C83_terminates",
    "Verif.InclusionEvolver.C83_overshoot",
    "Verif.InclusionEvolver.C83_infinite_loop"
   ],
   "note": "Proved under the assumption that the parts of a step are correct. The last step is not cut, so that the final set is for a later time (C83_overshoot), and a step too small to change the rounded time is repeated for ever (C83_infinite_loop)."
  },
  {
   "property": "C84",
   "status": "partial",
   "theorems": [
    "Verif.InclusionEvolver.C84_inflate",
    "Verif.InclusionEvolver.C84_reduce_partial",
    "Verif.InclusionEvolver.C84_reduce_points_partial",
    "Verif.InclusionEvolver.C84_incorporate_partial",
    "Verif.InclusionEvolver.C84_incorporate_swept"
   ],
   "note": "Reduction is proved in exact arithmetic (the new errors for any rounding, C84_inflate). Incorporation is proved for sweepers which keep the terms of the set and the errors; otherwise points are lost, as errors of sweeping are set to zero (C84_incorporate_swept)."
  },
  {
   "property": "C85",
   "status": "partial",
   "theorems": [
    "Ariadne.Sqrt.C85_terminates_partial",
    "Ariadne.Sqrt.C85_infinite_loop"
   ],
   "note": "Proved for upward rounding. Rounded downwards, the iteration may go on in a cycle for ever (C85_infinite_loop)."
  },
  {
   "property": "C86",
   "status": "partial",
   "theorems": [
    "Verif.Elementary.C86_pos_cos_up",
    "Verif.Elementary.C86_pos_cos_down_partial",
    "Verif.Elementary.C86_neg_cos_up_partial",
    "Verif.Elementary.C86_neg_cos_down",
    "Verif.Elementary.C86_pos_sin_up_partial",
    "Verif.Elementary.C86_pos_sin_down_partial",
    "Verif.Elementary.C86_neg_sin_up_partial",
    "Verif.Elementary.C86_neg_sin_down_partial",
    "Verif.Elementary.C86_cos_up_partial",
    "Verif.Elementary.C86_cos_down_partial",
    "Verif.Elementary.C86_cos_up_large_partial",
    "Verif.Elementary.C86_cos_down_large_partial",
    "Verif.Elementary.C86_cos_inverted",
    "Verif.Elementary.C86_cos_up",
    "Verif.Elementary.C86_cos_down",
    "Verif.Elementary.C86_sin_up",
    "Verif.Elementary.C86_sin_down",
    "Verif.Elementary.C86_sin_half_pi",
    "Verif.Elementary.C86_tan_up",
    "Verif.Elementary.C86_tan_down",
    "Verif.Elementary.C86_atan_down"
   ],
   "note": "Fails for single arguments of all functions (counterexamples). Proved for the cosine of doubles in [0,9/4] up to 2^-55 and in [12/5,3] up to 2^-50, and for the series of sine and cosine up to the neglected terms and the error of the square."
  },
  {
   "property": "C87",
   "status": "partial",
   "theorems": [
    "Verif.Elementary.C87_exp_up_partial",
    "Verif.Elementary.C87_exp_down_partial",
    "Verif.Elementary.C87_exp_defined",
    "Verif.Elementary.C87_log_up_partial",
    "Verif.Elementary.C87_log_down_partial",
    "Verif.Elementary.C87_log_zero"
   ],
   "note": "Proved up to the rest of the series, which the code does not add: relative error 2^-54 for the exponential, absolute error 2^-59 for the logarithm. The logarithm of zero is plus infinity (C87_log_zero)."
  },
  {
   "property": "C88",
   "status": "partial",
   "theorems": [
    "Verif.Elementary.C88_cos_partial",
    "Verif.Elementary.C88_sin_partial",
    "Verif.Elementary.C88_tan_partial",
    "Verif.Elementary.C88_cos_unsound",
    "Verif.Elementary.C88_cos_assertion",
    "Verif.Elementary.C88_tan_pole",
    "Verif.Elementary.C88_tan_unchecked"
   ],
   "note": "Proved if the number of periods is not too large (cosine, sine), or the value of pi is rounded downwards and assertions are compiled (tangent); otherwise there are bounds for which the result does not contain the values, or an assertion fails."
  },
  {
   "property": "C89",
   "status": "partial",
   "theorems": [
    "Verif.Polynomial.C89_constant",
    "Verif.Polynomial.C89_coordinate",
    "Verif.Polynomial.C89_add",
    "Verif.Polynomial.C89_sub",
    "Verif.Polynomial.C89_mul_partial",
    "Verif.Polynomial.C89_mul_const",
    "Verif.Polynomial.C89_mul_monomial_partial",
    "Verif.Polynomial.C89_add_const",
    "Verif.Polynomial.C89_neg",
    "Verif.Polynomial.C89_differentiate_partial",
    "Verif.Polynomial.C89_antidifferentiate_partial",
    "Verif.Polynomial.C89_truncate_partial",
    "Verif.Polynomial.C89_cleanup",
    "Verif.Polynomial.C89_equal",
    "Verif.Polynomial.C89_evaluate",
    "Verif.Polynomial.C89_compose_partial",
    "Verif.Polynomial.C89_partial_evaluate_partial",
    "Verif.Polynomial.C89_univariate_evaluate_partial",
    "Verif.Polynomial.C89_univariate_evaluate_constant_partial",
    "Verif.Polynomial.C89_derivative_invariant",
    "Verif.Polynomial.C89_partial_evaluate_undefined",
    "Verif.Polynomial.C89_mul_wrap",
    "Verif.Polynomial.C89_truncate_unsound",
    "Verif.Polynomial.C89_univariate_constants",
    "Verif.Polynomial.C89_univariate_evaluate_wrong"
   ],
   "note": "Sums, differences, constant multiples, negation, evaluation, clean-up and comparison are proved in full for sorted polynomials in several variables; products, antiderivatives and compositions need total degrees below 2^16, truncation needs exact coefficients, derivatives enclose the derivative but may repeat indices, and partial evaluation needs a positive degree. Polynomials in one variable are evaluated correctly only if the constant term is stored. Counterexamples show each gap."
  },
  {
   "property": "C90",
   "status": "partial",
   "theorems": [
    "Ariadne.Geometry.Box.C90_contains",
    "Ariadne.Geometry.Box.C90_bounds",
    "Ariadne.Geometry.Box.C90_empty",
    "Ariadne.Geometry.Box.C90_predicates",
    "Ariadne.Geometry.Box.C90_interior_predicates",
    "Ariadne.Geometry.Box.C90_intersection",
    "Ariadne.Geometry.Box.C90_hull",
    "Ariadne.Geometry.Box.C90_hull_point",
    "Ariadne.Geometry.Box.C90_product",
    "Ariadne.Geometry.Box.C90_project",
    "Ariadne.Geometry.Box.C90_remove",
    "Ariadne.Geometry.Box.C90_vertices",
    "Ariadne.Geometry.Box.C90_irmax",
    "Ariadne.Geometry.Box.C90_split",
    "Ariadne.Geometry.Box.C90_splitWidest",
    "Ariadne.Geometry.Box.C90_splitPart",
    "Ariadne.Geometry.Box.C90_measure",
    "Ariadne.Geometry.Box.C90_measure_split",
    "Ariadne.Geometry.Box.C90_radius",
    "Ariadne.Geometry.Box.C90_widen_narrow",
    "Ariadne.Geometry.Box.C90_empty_violated",
    "Ariadne.Geometry.Box.C90_dimension_violated",
    "Ariadne.Geometry.Box.C90_zero_dimension_violated"
   ],
   "note": "Proved for boxes of equal dimensions without empty sides. Counterexamples: for empty boxes some tests and the hull are wrong, boxes of different dimensions are compared on a prefix or read beyond the end, and the box without sides has no vertices, radius or volume."
  },
  {
   "property": "C91",
   "status": "partial",
   "theorems": [
    "Ariadne.Geometry.Box.SetTests.C91_separated_box",
    "Ariadne.Geometry.Box.SetTests.C91_separated",
    "Ariadne.Geometry.Box.SetTests.C91_overlap_box_partial",
    "Ariadne.Geometry.Box.SetTests.C91_overlap_partial",
    "Ariadne.Geometry.Box.SetTests.C91_inside_is_separated",
    "Ariadne.Geometry.Box.SetTests.C91_inside_never",
    "Ariadne.Geometry.Box.SetTests.C91_overlap_overt",
    "Ariadne.Geometry.Box.SetTests.C91_inside_closed",
    "Ariadne.Geometry.Box.SetTests.C91_separated_closed",
    "Ariadne.Geometry.Box.SetTests.C91_irmax",
    "Ariadne.Geometry.Box.SetTests.C91_terminates",
    "Ariadne.Geometry.Box.SetTests.C91_depth",
    "Ariadne.Geometry.Box.SetTests.C91_inside_violated",
    "Ariadne.Geometry.Box.SetTests.C91_overlap_violated",
    "Ariadne.Geometry.Box.SetTests.C91_no_tolerance_violated",
    "Ariadne.Geometry.Box.SetTests.C91_resolution_violated"
   ],
   "note": "Separation, and all tests of overt, open and closed sets, are proved sound; all tests end for positive tolerances and exact midpoints. Counterexamples: the test whether a located set is inside a regular one is the test whether they are separated; an answer that they overlap can be wrong; the tests do not end for a tolerance zero or below the resolution of the numbers."
  },
  {
   "property": "C92",
   "status": "partial",
   "theorems": [
    "Ariadne.Directed.C92_checked",
    "Ariadne.Directed.C92_upper",
    "Ariadne.Directed.C92_lower",
    "Ariadne.Directed.C92_of_bounds",
    "Ariadne.Directed.C92_upper_mul",
    "Ariadne.Directed.C92_upper_div",
    "Ariadne.Directed.C92_lower_mul",
    "Ariadne.Directed.C92_lower_div",
    "Ariadne.Directed.C92_exact_positive",
    "Ariadne.Directed.C92_compare",
    "Ariadne.Directed.C92_compare_complete",
    "Ariadne.Directed.C92_cast_integer",
    "Ariadne.Directed.C92_refines",
    "Ariadne.Directed.C92_positive_upper",
    "Ariadne.Directed.C92_nonnegative_upper_mul",
    "Ariadne.Directed.C92_positive_upper_div",
    "Ariadne.Directed.C92_positive_lower_partial",
    "Ariadne.Directed.C92_positive_lower_div",
    "Ariadne.Directed.C92_error",
    "Ariadne.Directed.C92_error_mixed",
    "Ariadne.Directed.C92_lower_operator_div_violated",
    "Ariadne.Directed.C92_lower_operator_div_partial",
    "Ariadne.Directed.C92_exact_div_violated",
    "Ariadne.Directed.C92_exact_div_third",
    "Ariadne.Directed.C92_positive_lower_cast_violated",
    "Ariadne.Directed.C92_pow_violated"
   ],
   "note": "All operations are proved, with infinities, for every directed rounding; products of zero and infinity are excluded, powers have exponents below 2^31 and lower bounds in products of positive bounds are not negative. Counterexamples: the operator / on positive lower bounds multiplies; an exact number over a positive lower bound is rounded down; lower bounds are cast to positive ones unchecked; large exponents become negative."
  },
  {
   "property": "C93",
   "status": "proved",
   "theorems": [
    "Verif.Complex.C93_ring",
    "Verif.Complex.C93_div",
    "Verif.Complex.C93_compare",
    "Verif.Complex.C93_argument",
    "Verif.Complex.C93_modulus",
    "Verif.Complex.C93_exp",
    "Verif.Complex.C93_log",
    "Verif.Complex.C93_sqrt",
    "Verif.Complex.C93_argument_defined",
    "Verif.Complex.C93_bounds",
    "Verif.Complex.C93_polar",
    "Verif.Complex.C93_polar_violated",
    "Verif.Complex.C93_negative_violated"
   ],
   "note": "Proved for every type of numbers whose operations represent the exact ones; exact reals and floating-point bounds (without overflow) are shown to be such. Counterexamples: polar construction exponentiates the radius, so that modulus and argument do not give the number back; argument, logarithm and square root throw on the negative real line."
  },
  {
   "property": "C94",
   "status": "partial",
   "theorems": [
    "Verif.Chebyshev.C94_linear",
    "Verif.Chebyshev.C94_add_scalar",
    "Verif.Chebyshev.C94_sup_norm",
    "Verif.Chebyshev.Uni.C94_evaluate",
    "Verif.Chebyshev.Uni.C94_constructors",
    "Verif.Chebyshev.Uni.C94_sorted",
    "Verif.Chebyshev.Uni.C94_mul",
    "Verif.Chebyshev.Uni.C94_mul_overflow_violated",
    "Verif.Chebyshev.Uni.C94_add_scalar_violated",
    "Verif.Chebyshev.Uni.C94_mul_empty_violated",
    "Verif.Chebyshev.Multi.C94_sup_norm",
    "Verif.Chebyshev.Multi.C94_evaluate",
    "Verif.Chebyshev.Multi.C94_evaluate_empty_violated",
    "Verif.Chebyshev.Multi.C94_mul",
    "Verif.Chebyshev.Multi.C94_mul_defined_partial",
    "Verif.Chebyshev.Multi.C94_constructors",
    "Verif.Chebyshev.Multi.C94_mul_violated",
    "Verif.Chebyshev.Multi.C94_add_scalar_violated"
   ],
   "note": "Soundness of all operations is proved for every number type with correct operations. Products in one variable are proved defined for non-empty operands of degrees up to 32768; products in several variables for operands in lexicographic order. Missing, with counterexamples: sums in several variables are in another order and their products write outside a buffer; scalars cannot be added to polynomials whose first term is not the constant; polynomials without terms cannot be multiplied, or evaluated in several variables; large degrees overflow."
  },
  {
   "property": "C95",
   "status": "partial",
   "theorems": [
    "Verif.Simplex.C95_true",
    "Verif.Simplex.C95_false_partial",
    "Verif.Simplex.C95_exact",
    "Verif.Simplex.C95_permutation",
    "Verif.Simplex.C95_starting_kinds",
    "Verif.Simplex.C95_false_wrong",
    "Verif.Simplex.C95_crossed_bounds_wrong",
    "Verif.Simplex.C95_fixed_wrong"
   ],
   "note": "True answers are proved right for every rounding when the bounds are ordered, no variable is FIXED and the bounds of non-basic variables are finite; false answers when every comparison of a basic variable with its bounds is decided, in particular in exact arithmetic. Missing, with counterexamples: in double precision a false answer can be wrong when a basic variable cannot be told from its bound; crossed bounds and FIXED variables give wrong true answers. hotstarted_feasible discards the validated answer (1332-1334) and is not modelled."
  },
  {
   "property": "C96",
   "status": "partial",
   "theorems": [
    "Verif.Graded.C96_binary",
    "Verif.Graded.C96_unary",
    "Verif.Graded.C96_antidifferentiate",
    "Verif.Graded.C96_flow_partial",
    "Verif.Graded.C96_formulae_partial",
    "Verif.Graded.C96_total",
    "Verif.Graded.C96_unsupported",
    "Verif.Graded.C96_exact",
    "Verif.Graded.C96_linear",
    "Verif.Graded.C96_bounds",
    "Verif.Graded.C96_number_left_wrong",
    "Verif.Graded.C96_number_right_wrong",
    "Verif.Graded.C96_pow_zero_wrong",
    "Verif.Graded.C96_half_fails"
   ],
   "note": "Proved for the recurrences of graded.hpp and the graded flow, with divisors not zero and arguments of logarithms and square roots positive, for exact coefficients and rounded bounds. Missing: nul, pos, hlf, tan, asin, acos, atan, abs, max and min always fail; multiplication by a number is wrong; pow is unbounded where its argument vanishes."
  },
  {
   "property": "C97",
   "status": "partial",
   "theorems": [
    "Verif.SeriesFlow.C97_expansion",
    "Verif.SeriesFlow.C97_flow",
    "Verif.SeriesFlow.C97_assembles",
    "Verif.SeriesFlow.C97_model",
    "Verif.SeriesFlow.C97_adapts",
    "Verif.SeriesFlow.C97_space_first",
    "Verif.SeriesFlow.C97_infinite_error_loops",
    "Verif.SeriesFlow.C97_linear",
    "Verif.SeriesFlow.C97_invariant_bounds_wrong"
   ],
   "note": "Proved for the assembly of the series, the conversion to a Taylor model and the adaptation of the orders: for bounds which contain the domain moved along the vector field on the bounds, as those of the bounder do, with solutions smooth in time and coefficients smooth in space, and series which enclose the Taylor expansions. Missing, with counterexamples: arbitrary bounds containing the trajectories are accepted and give a wrong flow; infinite errors make the adaptation loop. That the differentials enclose the expansions in space is a hypothesis (C96 gives time, C44 exact differentials); restriction of the domain of time is not modelled."
  },
  {
   "property": "C98",
   "status": "partial",
   "theorems": [
    "Verif.Structured.C98_positions",
    "Verif.Structured.C98_symmetric",
    "Verif.Structured.C98_filled",
    "Verif.Structured.C98_set",
    "Verif.Structured.C98_of_matrix",
    "Verif.Structured.C98_to_matrix",
    "Verif.Structured.C98_round_trip",
    "Verif.Structured.C98_arithmetic",
    "Verif.Structured.C98_outer",
    "Verif.Structured.C98_symmetrize",
    "Verif.Structured.C98_of_matrix_enclosed",
    "Verif.Structured.C98_identity",
    "Verif.Structured.C98_resize_wrong",
    "Verif.Structured.C98_diagonal_at",
    "Verif.Structured.C98_diagonal_arithmetic",
    "Verif.Structured.C98_diagonal_add",
    "Verif.Structured.C98_diagonal_mul",
    "Verif.Structured.C98_diagonal_inverse",
    "Verif.Structured.C98_diagonal_empty_wrong",
    "Verif.Structured.C98_tensor_index",
    "Verif.Structured.C98_tensor_at",
    "Verif.Structured.C98_tensor_filled",
    "Verif.Structured.C98_tensor_set",
    "Verif.Structured.C98_tensor_generate",
    "Verif.Structured.C98_tensor_transform",
    "Verif.Structured.C98_tensor_transform_empty_wrong",
    "Verif.Structured.C98_tensor_write_wrong",
    "Verif.Structured.C98_bounds",
    "Verif.Structured.C98_tensor_rank_four_wrong"
   ],
   "note": "Proved for all sizes and number types with sound operations, floating-point bounds among them. Missing, with counterexamples: after resizing, a symmetric matrix has too short an array; tensors of rank above three are printed wrongly, possibly reading beyond the end; empty arrays and tensors are read at their first entry by the diagonal matrix constructor and by transform."
  },
  {
   "property": "C99",
   "status": "partial",
   "theorems": [
    "Verif.FixedDifferential.C99_first_variables",
    "Verif.FixedDifferential.C99_first_arithmetic",
    "Verif.FixedDifferential.C99_first_quotient_partial",
    "Verif.FixedDifferential.C99_univariate_first_quotient",
    "Verif.FixedDifferential.C99_first_scalar",
    "Verif.FixedDifferential.C99_first_unary",
    "Verif.FixedDifferential.C99_first_power",
    "Verif.FixedDifferential.C99_first_lattice",
    "Verif.FixedDifferential.C99_second_variables",
    "Verif.FixedDifferential.C99_second_arithmetic",
    "Verif.FixedDifferential.C99_second_scalar",
    "Verif.FixedDifferential.C99_second_unary",
    "Verif.FixedDifferential.C99_second_elementary_partial",
    "Verif.FixedDifferential.C99_second_square_partial",
    "Verif.FixedDifferential.C99_second_power_partial",
    "Verif.FixedDifferential.C99_second_lattice",
    "Verif.FixedDifferential.C99_second_hessian",
    "Verif.FixedDifferential.C99_second_compose",
    "Verif.FixedDifferential.C99_univariate_variables",
    "Verif.FixedDifferential.C99_univariate_arithmetic",
    "Verif.FixedDifferential.C99_univariate_scalar",
    "Verif.FixedDifferential.C99_univariate_unary",
    "Verif.FixedDifferential.C99_univariate_square_partial",
    "Verif.FixedDifferential.C99_univariate_power_partial",
    "Verif.FixedDifferential.C99_hessian_partial",
    "Verif.FixedDifferential.C99_exact",
    "Verif.FixedDifferential.C99_bounds",
    "Verif.FixedDifferential.C99_first_quotient_wrong",
    "Verif.FixedDifferential.C99_second_elementary_wrong",
    "Verif.FixedDifferential.C99_second_square_wrong",
    "Verif.FixedDifferential.C99_second_power_wrong",
    "Verif.FixedDifferential.C99_second_coefficient_wrong",
    "Verif.FixedDifferential.C99_hessian_square_wrong",
    "Verif.FixedDifferential.C99_hessian_power_wrong"
   ],
   "note": "Proved for all numbers of variables, points and smooth functions, for exact numbers and for floating-point bounds with sound elementary functions. Missing, with counterexamples: quotients of first differentials have a sign wrong in the gradient; second differentials of squares, powers, square roots, exponentials, logarithms, sines, cosines and tangents have wrong second derivatives (the theorems give the exact error for all but powers); the coefficient of a product of two different variables is halved; univariate second differentials of squares and powers, and hence Hessians of procedures with them, are wrong. Absolute values, maxima and minima are proved for numbers whose comparisons decide."
  }
 ]
}