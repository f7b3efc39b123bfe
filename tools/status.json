{
 "C01": {"status": "proved", "note": "over exact rationals with the code's tolerances"},
 "C02": {"status": "proved", "note": ""},
 "C03": {"status": "proved", "note": ""},
 "C04": {"status": "proved", "note": "all histories of calls, including failing ones"},
 "C05": {"status": "proved", "note": "recursion depth at most log2 n + 1"},
 "C06": {"status": "partial", "note": "Invariant for all histories of calls that do not fail half-way; add_arc with bad demands and remove_arc with multi-character names break it (C06_add_arc_error_corrupts, C06_remove_arc_dangling)."},
 "C07": {"status": "partial", "note": "Exact for node collections; for a single str argument only one-character names (C07_name_wrong is the counterexample)."},
 "C08": {"status": "partial", "note": "Exact without opposite arcs; C08_opposite_wrong is the counterexample with opposite arcs."},
 "C09": {"status": "partial", "note": "False in general (C09_wrong, C09_opposite_wrong, C09_name_wrong). Keys, conservation and value proved for every digraph; bounds for runs that use no reversed arc, which are all runs on digraphs with the graph-level condition OneWay (C11_one_way_partial; in-trees, out-trees, series-parallel)."},
 "C10": {"status": "partial", "note": "False in general in both directions (C10_too_large, C10_too_small). Proved for runs that use no reversed arc, which are all runs on OneWay digraphs (C11_one_way_partial)."},
 "C100": {"status": "proved", "note": "Every rounding, every order of summation; norm under NormNear."},
 "C101": {"status": "proved", "note": "Doubles without overflow; C101_larger_factor shows that the bound on p is needed."},
 "C102": {"status": "proved", "note": "Every rounding with relative error at most 1e-6; is_integer for doubles."},
 "C103": {"status": "proved", "note": "Explicit rounding terms; exact for integers of moderate size."},
 "C104": {"status": "proved", "note": "Explicit rounding terms; exact for integers of moderate size."},
 "C105": {"status": "partial", "note": "False in general: a KeyError on capacities 0.1, 0.2, 0.3, 0.5 (C105_crash_wrong) and a capacity exceeded by one unit in the last place (C105_capacity_wrong). Proved: exact maximum flow when the capacities are multiples of a power of two with a total of at most 53 bits; nonnegativity and the one-unit bound always."},
 "C106": {"status": "partial", "note": "False in general because equations are changed in place: total += e changes e, e -= f changes f, constants are not scaled, two names share one equation (C106_*_wrong). Proved: n op= e is n = n op e for all states; every tidy program means what algebra says; sums built in a loop."},
 "C107": {"status": "partial", "note": "False for numbers with more than three decimals, which are rounded: two different formulations print the same text (C107_wrong). Proved: exact when the numbers are printed exactly, otherwise up to the accuracy of C87; printing changes nothing that later calls see."},
 "C108": {"status": "partial", "note": "False in general: A, b, c and steps are the program's own objects, so writing into p.A changes p, to_sef changes what was read before, the log grows (C108_write_wrong, C108_method_wrong, C108_steps_wrong); g.graph shares its sets (C108_graph_wrong). Proved for every history of methods that do not write into the arrays, with writes into the lists read."},
 "C109": {"status": "partial", "note": "False: None for min x s.t. x >= 1 (C109_none_wrong), ValueError for dependent equations, and solve loops for ever on a program with four inequalities in four variables that has an optimal solution (C109_loops_wrong). Proved: exactly what solve answers on programs in SEF, programs whose variables, free variables and inequalities are not twice as many as rows, and programs without equations whose origin is feasible, for data with bounded denominators and subdeterminants: an optimal solution, None, or ValueError (C109_partial)."},
 "C11": {"status": "partial", "note": "False in general: C11_endless_wrong gives a digraph with capacities at most 3 on which no amount of fuel suffices. Error behaviour proved for every digraph; on digraphs where no route from source to sink can go against a useful arc (OneWay: in-trees, out-trees, series-parallel) the loop runs at most once per arc and once more, and returns a maximum flow."},
 "C110": {"status": "partial", "note": "False as documented: a number for the one new end raises TypeError and leaves an arc without its end node, on every digraph (C110_number_wrong); a tuple of one number leaves a half-added arc (C110_short_wrong). Proved for all digraphs, arcs and demands: the exception, arcs and nodes after the call (C110_outcome), and when it succeeds (C110_partial)."},
 "C111": {"status": "partial", "note": "False as stated, in three ways: a nonzero row beginning with zero is never removed (C111_leading_zero_wrong, for every such system), a row that is the sum of two others stays (C111_three_rows_wrong), and of two independent rows with almost equal quotients one is removed, which adds solutions (C111_tolerance_wrong). Proved: the result is a sublist of the rows without zero rows and loses no solution, for all inputs (C111_rows); it has exactly the same solutions if no two compared quotients are close without being equal (C111_same_solutions_partial), in particular for whole numbers up to 30000 (C111_integer_partial); no later row is a multiple of an earlier one with nonzero first entry (C111_no_multiple_partial). The method is private and no other method calls it yet."},
 "C112": {"status": "proved", "note": "Over every ordered field, exact linear solve. C112_start: the norm at the start is not looked at, so a stationary start with singular Hessian raises."},
 "C113": {"status": "proved", "note": "Over the real numbers, exact arithmetic. C113_quadratic gives the explicit rate on a ball with explicit constants, C113_local the textbook form."},
 "C114": {"status": "partial", "note": "False: on every negative definite quadratic newton_method for min returns the maximiser (C114_concave_wrong), and it overshoots on convex functions (C114_convex_wrong). Proved for convex quadratics (C114_quadratic_partial)."},
 "C115": {"status": "partial", "note": "False: newton_method never makes a step on an array of integers (C115_newton_wrong, TypeError or LinAlgError), steepest_descent raises TypeError at the first step that is not an array of integers (C115_float_step_wrong), so for x^2 with the default parameters from every start but 0 (C115_square_wrong). Proved: exactly when it returns, and that it then returns the same point (C115_integer_partial). Uses NumPy's rule that in-place addition of floats to integers raises."},
 "C116": {"status": "proved", "note": "Over every ordered field (archimedean for C116_total), exact arithmetic. Strong convexity and smoothness as inequalities against touching quadratics."},
 "C117": {"status": "proved", "note": "Over every ordered field, exact arithmetic; C117_distance needs no smoothness."},
 "C118": {"status": "partial", "note": "calls with in_place=False, the constructor, copy and dual: proved for every program; calls in place: for programs whose attributes are different objects (kept by every call), false otherwise (C118_shared_wrong)"},
 "C119": {"status": "proved", "note": "in the floating-point model of the checks; overflow not modelled"},
 "C12": {"status": "partial", "note": "Proved without opposite arcs and with one-character names; false otherwise (C12_opposite_wrong, C12_name_wrong)."},
 "C120": {"status": "partial", "note": "different edges can share a hash when a name contains '-': a-b,c and a,b-c"},
 "C121": {"status": "proved", "note": "C121_errors, C121_linear, C121_value, C121_int, C121_whole; C121_exact_wrong shows that the size condition of C121_whole is needed"},
 "C122": {"status": "partial", "note": "polynomial bound proved for digraphs without opposite arcs, one-character names and at least one inner node; the claim is false otherwise (C14_endless_wrong, C13_name_wrong, C14_two_nodes_fail)"},
 "C123": {"status": "partial", "note": "proved for letter-by-letter renamings and for one-letter names, and for any renaming except for the reported values and the removal of isolated nodes; false for other names (C123_value_wrong holds for every digraph without one-letter names)"},
 "C124": {"status": "proved", "note": "formulations on Python integers exact up to size 2^51, rows on mixed numbers within a relative error; the size bound is necessary"},
 "C125": {"status": "partial", "note": "False: e + f*g with variables in all three is accepted and means e (C125_dropped_wrong, C125_program_wrong). Proved: what every expression evaluates to (C125_shape), which terms are kept (C125_kept_partial), and rejection of products standing alone (C125_alone_partial)."},
 "C126": {"status": "proved", "note": "Signed zeros, infinities and NaN are not modelled."},
 "C127": {"status": "partial", "note": "False for capacities with many bits (C127_negative_wrong, C127_capacity_wrong) and, already without rounding, for runs that use a reversed arc. The exceptions (C127_errors) are settled for every digraph."},
 "C128": {"status": "proved", "note": "end-to-end in binary64 for integer formulations; the vectors s and y may come from anywhere"},
 "C129": {"status": "partial", "note": "Exact shape of the result of to_rref in double precision, and that it returns; without the proviso on entries near one, and for the equations, false (C129_residue_wrong, C129_rank_wrong)"},
 "C13": {"status": "partial", "note": "Same hypotheses as C12; agreement with ford_fulkerson for runs without reversed arcs, and on every OneWay digraph (C13_one_way_partial); C13_name_wrong refutes multi-character names."},
 "C130": {"status": "proved", "note": "simplex, two_phase_simplex and solve in double precision equal exact arithmetic on totally unimodular integer programs, given that np.linalg.inv and det are exact on totally unimodular matrices"},
 "C131": {"status": "proved", "note": "det and inv by Gaussian elimination are exact on totally unimodular matrices; is_basis, simplex, two_phase_simplex and solve follow"},
 "C132": {"status": "proved", "note": "exact without rounding; near-integers for every program; totally unimodular programs give best integral points"},
 "C133": {"status": "proved", "note": "bipartite graphs with integer weights, every elimination order"},
 "C134": {"status": "proved", "note": "inv, is_basis, simplex, two_phase_simplex and solve in double precision equal exact arithmetic on programs whose subdeterminants are powers of two"},
 "C135": {"status": "proved", "note": "Under the size conditions stated. Missing nothing of the statement; programs whose subdeterminants are not powers of two (thirds, say) are outside it, since their intermediate numbers are rounded."},
 "C136": {"status": "partial", "note": "Proved for construction, every history, the questions about the whole graph, cuts of collections, traversal up to the order of equally distant vertices, and stable sets (under the hypotheses of C85). The full statement is false: a cut or degree asked for by a name of several letters (C136_name_wrong), the order of a traversal and the exception of shortest_path (C136_order_wrong) depend on the names. By-name cuts hold for renamings that replace letters (C136_name_partial)."},
 "C137": {"status": "partial", "note": "false for programs that are not regular: after exchanging two variables solve returns None for a program it solved before (C137_order_wrong); proved for regular programs, unimodular data in double precision and bounded integer programs"},
 "C138": {"status": "proved", "note": "every digraph and both algorithms, in exact arithmetic"},
 "C139": {"status": "partial", "note": "false for ford_fulkerson when it uses reversed arcs (C139_raise_wrong, C139_remove_wrong, C139_reverse_wrong); proved for preflow_push and for runs of ford_fulkerson without reversed arcs, on digraphs without opposite arcs and with one-letter names"},
 "C14": {"status": "partial", "note": "Termination proved under C12's hypotheses with at least one inner node; UnboundLocalError with only source and sink is proved (C14_two_nodes_fail). False with opposite arcs: an endless run on four arcs (C14_endless_wrong), KeyError on three (C14_crash_wrong); KeyError also with longer names (C14_name_wrong)."},
 "C140": {"status": "partial", "note": "for data within the precision of the tolerances (C140_*_partial); false otherwise (C140_tiny_wrong)"},
 "C141": {"status": "partial", "note": "the count for trees is false after remove_edge (C141_remove_wrong); stable sets under the conditions of C85"},
 "C142": {"status": "partial", "note": "proved for texts whose constants survive (Simple); witnesses that a lost constant and a cancelled variable change the arrays"},
 "C143": {"status": "partial", "note": "proved for maximisation programs of the kinds of C60_bounded_partial and C60_two_partial; witnesses for min and for a knapsack"},
 "C144": {"status": "partial", "note": "proved on digraphs without opposite arcs and long names (as C09-C14); witnesses that ford_fulkerson after a reversed arc returns too many and too few"},
 "C145": {"status": "partial", "note": "Uniqueness, idempotence, order and the next basis in full; path independence when both calls accept the basis; the in-place loop whenever simplex's loop ends. Witnesses where the 1e-10 test on determinants refuses a basis on one side only."},
 "C146": {"status": "proved", "note": "Restart, consistency of the basis queries and the one-iteration criterion, for every program in SEF."},
 "C147": {"status": "partial", "note": "has_spanning_tree and the ValueError of minimum_spanning_tree without remove_edge; what minimum_spanning_tree should return exists but None is returned, for every connected graph."},
 "C148": {"status": "proved", "note": ""},
 "C149": {"status": "proved", "note": ""},
 "C15": {"status": "partial", "note": "Proved for all histories without remove_edge; with it adjacency and has_edge disagree (witness); weak invariant and raise-leaves-unchanged hold for all histories."},
 "C150": {"status": "proved", "note": "Exact arithmetic. C150_maximum_wrong: for 'max' the negated answer moves the wrong way under a shift."},
 "C151": {"status": "partial", "note": "Everything proved except solve with free variables, where the claim is false: solve returns the middle of a segment (C151_free_wrong)."},
 "C152": {"status": "proved", "note": "Holds with opposite arcs too: create_residual then loses weights (C08) but no arcs. Flows returned by the algorithms are covered under the hypotheses of C12 and C13."},
 "C153": {"status": "proved", "note": "steps, stopping rule and errors for any solver and rounding; local convergence down to a floor given by the errors of callbacks, solver and rounding"},
 "C154": {"status": "proved", "note": "Residual, failure and accuracy of np.linalg.inv for any rounding; explicit constants in double precision; entries of the canonical form"},
 "C155": {"status": "proved", "note": "np.linalg.solve and Newton's method with it in double precision"},
 "C156": {"status": "proved", "note": "Error of det and agreement of is_basis with exact arithmetic within explicit bounds on size and entries; C156_singular_wrong shows that dependent columns with large entries are accepted"},
 "C157": {"status": "proved", "note": "same bases and answer as the exact method when every decision keeps its margin; accuracy of the solution and certificate"},
 "C158": {"status": "partial", "note": "false as stated (C158_ray_wrong: a certificate that verify_unboundedness rejects); holds with the margins of C157 when clearly negative reduced costs precede the entering column"},
 "C159": {"status": "proved", "note": "margins as hypotheses (Safe, Decided)"},
 "C16": {"status": "proved", "note": "Any graph state, either orientation."},
 "C160": {"status": "proved", "note": "margins as hypotheses (Settled)"},
 "C161": {"status": "proved", "note": "under the margins of C159 and C160 and for programs clear of the tolerances (Exact); the exceptions of C45 are hypotheses of C161_finds"},
 "C162": {"status": "proved", "note": "under the margins of C159 and C160 and for programs clear of the tolerances (Exact); the exceptions of C45 are hypotheses of C162_finds"},
 "C17": {"status": "partial", "note": "Only the adjacency is removed; for every graph has_edge stays True and re-adding raises (proved)."},
 "C18": {"status": "partial", "note": "Proved for collections and one-character names; longer single names are read as sets of characters (witness)."},
 "C19": {"status": "proved", "note": "All graphs reachable by the API, all ordering keys, methods bfs and dfs; rng is C26."},
 "C20": {"status": "proved", "note": "All histories."},
 "C21": {"status": "proved", "note": "All histories and all set iteration orders."},
 "C22": {"status": "partial", "note": "Terminates, True on every cyclic graph; but True on every graph with an edge (proved)."},
 "C23": {"status": "partial", "note": "Equal copy, independent edges/vertices for all histories; adjacency sets are shared (witness), independence proved when no old vertex gets or loses a neighbour."},
 "C24": {"status": "partial", "note": "Exact for all graphs with an edge; every edgeless nonempty graph raises ValueError (proved)."},
 "C25": {"status": "partial", "note": "Only start = end works; otherwise IndexError/TypeError for every graph (proved)."},
 "C26": {"status": "partial", "note": "partition, formulate_shortest_path and rng traversal fail on every nonempty graph (proved)."},
 "C27": {"status": "proved", "note": ""},
 "C28": {"status": "partial", "note": "Holds after any sequence of successful calls; false after add_variable(in_place=True) raises on a column of the wrong length (C28_failed_call_wrong)."},
 "C29": {"status": "proved", "note": ""},
 "C30": {"status": "proved", "note": ""},
 "C31": {"status": "proved", "note": ""},
 "C32": {"status": "partial", "note": "Proved incl. onto; objective agrees except for minimisations with z != 0, where the code keeps z unnegated (C32_min_constant_wrong)."},
 "C33": {"status": "partial", "note": "dual() drops z: holds with z added back, as stated only for z=0; counterexample C33_constant_wrong."},
 "C34": {"status": "partial", "note": "Everything but z, which becomes 0; counterexample C34_constant_wrong."},
 "C35": {"status": "partial", "note": "is_basis, is_basis_feasible, is_basic_solution in full; compute_basic_solution for increasing lists, wrong for unsorted ones (counterexample)"},
 "C36": {"status": "proved", "note": "all SEF programs, bases in any order, all points"},
 "C37": {"status": "partial", "note": "proved for programs clear of the tolerances (Exact; in particular integer data with bounded subdeterminants); counterexample with a near-tie in the ratio test. C37_data_partial has conditions on the data only (bounded denominators and subdeterminants)."},
 "C38": {"status": "partial", "note": "any starting basis: optimal up to tolerance 1e-10 unconditionally; exact under Exact or when the answer itself is clear of the tolerance; counterexample with a tiny cost"},
 "C39": {"status": "partial", "note": "any start: A x = b, A d = 0, c.d > 0 exactly; full claim under Exact from a feasible basis; counterexample with a tiny pivot"},
 "C40": {"status": "partial", "note": "Bland's rule proved to terminate within n^m iterations under Exact; counterexample: an 8-step run that cycles forever because of the tolerance in the ratio test. C40_data_partial: total correctness from conditions on the data only."},
 "C41": {"status": "partial", "note": "Proved: simplex and two_phase_simplex leave the program unchanged when they return, and in all exits when no right-hand side is negative; in every exit feasible set and objective are kept. As stated false: exceptions leave rows negated (C41_exception_wrong, C41_two_phase_wrong)."},
 "C42": {"status": "partial", "note": "Proved for programs that stay clear of the 1e-10 tolerance in both phases (Exact; implied by a determinant bound for integer data), plus a version with explicit error terms for all programs. As stated false for tiny numbers (C42_tiny_wrong). C42_data_partial: conditions on the data only."},
 "C43": {"status": "partial", "note": "Proved for Exact programs: an answer is returned exactly if the program is infeasible or has independent rows (termination by Bland's rule, completeness of the basis search). As stated false on redundant rows (C43_redundant_wrong, C43_dependent_wrong)."},
 "C44": {"status": "partial", "note": "Proved for every well-formed program whose SEF is Exact. As stated false for tiny numbers (C44_tiny_wrong). C44_data_partial and C44_value_data_partial: conditions on the data only (bounded denominators and subdeterminants)."},
 "C45": {"status": "partial", "note": "Proved for Exact SEF with independent rows unless the columns tried first form an infeasible basis; independence proved for programs without equations, and with equations it is independence of the equations (C109_partial). As stated false (C45_tried_wrong: min x s.t. x>=1 returns None; C45_redundant_wrong; C109_loops_wrong: a program on which solve never returns). C45_data_partial and C45_value_data_partial: conditions on the data only, every shape if the origin is feasible."},
 "C46": {"status": "proved", "note": "Full statement, for every SEF program with at least one row."},
 "C47": {"status": "partial", "note": "Sound up to the 1e-10 tolerance and exactly when no entry of yA is in (-1e-10,0); counterexample C47_tolerance_wrong."},
 "C48": {"status": "partial", "note": "Sound when the two vectors are exact; counterexample within tolerance C48_tolerance_wrong."},
 "C49": {"status": "partial", "note": "Bound up to 1e-10*sum(x), exact when no reduced cost is in (0,1e-10); counterexample C49_tolerance_wrong."},
 "C50": {"status": "partial", "note": "Optimal certificates: proved without assumption. Infeasible and unbounded certificates: proved for Exact programs. As stated false (C50_tiny_wrong)."},
 "C51": {"status": "partial", "note": "Proved for copy and for every method called without in_place, against arbitrary interleaved later effects. As stated false for dual, whose arrays are shared (C51_dual_wrong); C51_dual_partial covers the later operations that do no harm."},
 "C52": {"status": "partial", "note": "dual feasibility and equal value up to the constant z, which dual() drops (counterexample). C52_data_partial: conditions on the data only."},
 "C53": {"status": "partial", "note": "As stated false: is_canonical_form_for never returns True for any program (C53_canonical_never_wrong); is_feasible_basic_solution always raises unless n = 1 (C53_feasible_raises_wrong). C53_feasible_partial covers the remaining one-variable case."},
 "C54": {"status": "partial", "note": "As stated false: clear_steps() recurses without end, == raises for matrices with two or more entries. The in-place form and 1x1 programs are proved correct."},
 "C55": {"status": "partial", "note": "Proved for every matrix with a column: termination, row equivalence and reduced echelon form with leading entries within relative 1e-9 of one; is_in_rref characterised exactly. As stated false (C55_tolerance_wrong, C55_stairs_wrong)."},
 "C56": {"status": "proved", "note": "Full statement for every outcome of the generator, with the bound on the entries."},
 "C57": {"status": "partial", "note": "Proved for integer data without oblique parallel rows. As stated false for fractional data, parallel rows and empty regions (C57_fraction_wrong, C57_parallel_wrong, C57_exit_wrong)."},
 "C58": {"status": "proved", "note": "relax of a constructed or well-formed integer program is the same linear program"},
 "C59": {"status": "partial", "note": "integral up to the tolerance always; feasible and exactly integral without nonpositive variables when the data keep clear of the tolerances (C59_bounded_partial and, for two variables per row and any size, C59_two_partial: conditions on the data only, fractions allowed); false for nonpositive variables, math-indexed integral lists and near-integers"},
 "C60": {"status": "partial", "note": "max with nonnegative variables: best integral point, and None only if there is none (C60_bounded_partial, C60_two_partial: total correctness on bounded programs from conditions on the data, fractions allowed, more rows than columns or equally many with a feasible origin); either objective and all sign classes for totally unimodular data (C60_unimodular_partial); false for min, free variables, and where solve fails (C60_knapsack_wrong: a knapsack with three items gets a worse vector)"},
 "C61": {"status": "partial", "note": "Proved: linear part exact for every expression; full value for expressions that never negate, scale or put on the right of - an equation carrying a constant (Plain) and use each name once. Missing: the rest is false (C61_neg_wrong, C61_scale_wrong, C61_right_wrong)."},
 "C62": {"status": "partial", "note": "Proved for all equations, numbers and expressions on either side except a bare Variable on the right of an equation/Variable, which raises (C62_variable_wrong), and comparisons without terms (C62_no_terms_wrong)."},
 "C63": {"status": "partial", "note": "Proved: the operators create or reuse exactly one equation and all others keep their meaning; + leaves the right operand alone. False in general: +, -, unary -, * change an operand in place (C63_*_wrong)."},
 "C64": {"status": "partial", "note": "Proved for every accepted formulation (feasible set, objective, free variables), plus exact acceptance conditions. Missing: meaningful formulations that are rejected (C64_*_wrong), positive indices beyond the number of variables."},
 "C65": {"status": "partial", "note": "Acceptance characterised exactly over all histories (C65_where, C65_all); atomicity holds only when the program was already compiled (C65_atomic_partial) and is false otherwise (C65_atomic_wrong, C65_stuck_wrong)."},
 "C66": {"status": "partial", "note": "False for every formulation (C66_wrong): compiled programs are always plain linear programs; C66_partial: they equal the linear formulation."},
 "C67": {"status": "proved", "note": "All four formats, every nonempty edge list, any white space between edges; \\w, \\s, \\d are arbitrary Unicode tables agreeing with Python on ASCII; float() read exactly (no rounding)."},
 "C68": {"status": "partial", "note": "Exact for strings not ending in a newline (C68_exact_partial); with a newline at the end every valid string is also accepted though in no format (C68_newline_wrong)."},
 "C69": {"status": "partial", "note": "Round trip proved for every term list with distinct indices >= 1 and every size; exact description of what raises. False for index 0, | as separator and a trailing newline (C69_*_wrong)."},
 "C70": {"status": "proved", "note": "Digit-wise, length preserving, injective on strings without subscript digits."},
 "C71": {"status": "partial", "note": "Sufficient decrease of every step and the stopping rule hold for all callbacks and parameters; the objective does not increase for alpha, c, p >= 0 (false for c < 0, C71_negative_wrong). Exact arithmetic; with rounding C100."},
 "C72": {"status": "proved", "note": "Over every ordered field, exact linear solve; max_iteration >= 1. C72_minimiser: convex quadratics are minimised."},
 "C73": {"status": "partial", "note": "False: the negated function is overwritten in the constructor and the result is negated (C73_newton_wrong for every quadratic with stationary point not at 0, C73_descent_wrong). Proved: the result for max is the opposite of the one for min."},
 "C74": {"status": "partial", "note": "False: branch_and_bound never returns on a program with four inequalities in four variables bounded by 4 (C74_loops_wrong), and raises ValueError on a bounded program with dependent equations (C74_raises_wrong). Proved for bounded programs with nonnegative variables and more inequalities than variables, or equally many and a feasible origin (any size with two variables per row)."},
 "C75": {"status": "partial", "note": "Raises exactly when parse raises; the rows are not returned (C75_wrong: always None)."},
 "C76": {"status": "partial", "note": "False: x += changes the caller's array in every run (C76_descent_wrong, C76_newton_wrong). Holds with no iterations or zero gradient at the start."},
 "C77": {"status": "partial", "note": "False: every iteration appends to the list (C77_list_wrong)."},
 "C78": {"status": "proved", "note": "Over the real numbers; for doubles see C101."},
 "C79": {"status": "proved", "note": "Over every archimedean ordered field."},
 "C80": {"status": "partial", "note": "Strong duality proved for every well-formed program (Farkas' lemma over the rationals, any mix of operators and signs, max and min); as stated for z = 0. With z != 0 dual() drops the constant, so the values differ (C80_constant_wrong)."},
 "C81": {"status": "proved", "note": "For every program, every number format; optimality of both points is equivalent to the listed conditions (uses strong duality)."},
 "C82": {"status": "proved", "note": "Exact certificates exist and pass the tolerant checks."},
 "C83": {"status": "partial", "note": "False: the method has no return statement (C83_wrong, for all programs); only the length check holds."},
 "C84": {"status": "partial", "note": "Feasible points are accepted; fractional points too (C84_wrong)."},
 "C85": {"status": "partial", "note": "False for weights that differ by less than the tolerance (C85_tiny_wrong) and for edgeless graphs (C24_edgeless_wrong). Proved for every graph with an edge and vertex weights with a common denominator of at most 5*10^9."},
 "C86": {"status": "partial", "note": "False: the inherited solve and optimal_value answer for the relaxation (C86_value_wrong) and copy returns a LinearProgram (C86_copy_wrong). The value is a bound; it is right for totally unimodular rows with integer right-hand sides."},
 "C87": {"status": "proved", "note": "Exact decimal rounding and logarithm (see the trusted base)."},
 "C88": {"status": "proved", "note": "A program without constraints raises UnboundLocalError (C88_norows)."},
 "C89": {"status": "partial", "note": "False: the text does not depend on the listed integral variables (C89_wrong), and the words \"x ∈ Z\" are glued to the line before (C89_run_on_wrong)."},
 "C90": {"status": "proved", "note": "every program with a constraint; without one both raise, but different exceptions (C90_norows)"},
 "C91": {"status": "partial", "note": "Proved for every method but solve, which ignores the flag: it records for a program in SEF also with show_steps=False (C91_wrong) and nothing for others also with True (C91_solve)."},
 "C92": {"status": "partial", "note": "is_basic_solution (answer and columns) and simplex in full; is_feasible in full for SEF programs. As stated false: for other programs a negative answer is not recorded (C92_wrong), and the text of is_basic_solution names the basis zero-based (C92_basis_wrong)."},
 "C93": {"status": "proved", "note": "arguments that can be printed"},
 "C94": {"status": "partial", "note": "Soundness for simple expressions and data within the precision of the tolerances (C94_sound_partial); completeness without == unless the origin violates a comparison and rows equal columns (false then: C94_tried_wrong); with equations, exactly what solve answers (best point, None, or ValueError for dependent equations) for regular compiled programs (C94_exact_partial)."},
 "C95": {"status": "partial", "note": "full for lists and integer arrays; float arrays are shared: safe methods and returning simplex leave them alone, others do not (C95_wrong, C95_raise_wrong, C95_caller_wrong, C95_same_array_wrong)"},
 "C96": {"status": "partial", "note": "for methods that do not write into the arrays; false for to_sef with negative variables (C96_wrong, C96_objective_wrong)"},
 "C97": {"status": "proved", "note": "For names without ':', '-' and line breaks, as stated; C97_dash_wrong shows two graphs with '-' in names and the same text."},
 "C98": {"status": "proved", "note": "Constructor (C98_ctor), histories of the other calls (C98_history), from text (C98_text)."},
 "C99": {"status": "partial", "note": "Constructor fully (C99_ctor). Histories (C99_history_partial) for demands absent, falsy or a tuple of at least two numbers, and remove_nodes with one-character names; for other arguments the claim is false, see C06_add_arc_error_corrupts and C06_remove_arc_dangling."}
}
