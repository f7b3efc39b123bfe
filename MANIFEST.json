{
 "claims": [
  {
   "property": "C01",
   "status": "proved",
   "theorems": [
    "Pytimize.Props.C01_trichotomy",
    "Pytimize.Props.C01_neg_swap",
    "Pytimize.Props.C01_complement",
    "Pytimize.Props.C01_array"
   ],
   "note": "over exact rationals with the code's tolerances"
  },
  {
   "property": "C02",
   "status": "proved",
   "theorems": [
    "Pytimize.Props.C02_band",
    "Pytimize.Props.C02_safe"
   ],
   "note": ""
  },
  {
   "property": "C03",
   "status": "proved",
   "theorems": [
    "Pytimize.Props.C03_isInteger_iff",
    "Pytimize.Props.C03_isIntegerArr_iff",
    "Pytimize.Props.C03_invariance"
   ],
   "note": ""
  },
  {
   "property": "C04",
   "status": "proved",
   "theorems": [
    "Pytimize.Props.C04_init",
    "Pytimize.Props.C04_find_iff_connected",
    "Pytimize.Props.C04_representative",
    "Pytimize.Props.C04_find_keeps_classes",
    "Pytimize.Props.C04_union_joins"
   ],
   "note": "all histories of calls, including failing ones"
  },
  {
   "property": "C05",
   "status": "proved",
   "theorems": [
    "Pytimize.Props.C05_find_terminates_log",
    "Pytimize.Props.C05_find_error_iff",
    "Pytimize.Props.C05_union_total"
   ],
   "note": "recursion depth at most log2 n + 1"
  },
  {
   "property": "C06",
   "status": "partial",
   "theorems": [
    "Pytimize.Props.C06_step_partial",
    "Pytimize.Props.C06_history_partial",
    "Pytimize.Props.C06_add_arc_effect",
    "Pytimize.Props.C06_remove_arc_effect",
    "Pytimize.Props.C06_add_arc_error_corrupts",
    "Pytimize.Props.C06_remove_arc_dangling"
   ],
   "note": "Invariant for all histories of calls that do not fail half-way; add_arc with bad demands and remove_arc with multi-character names break it (C06_add_arc_error_corrupts, C06_remove_arc_dangling)."
  },
  {
   "property": "C07",
   "status": "partial",
   "theorems": [
    "Pytimize.Props.C07_cut",
    "Pytimize.Props.C07_ncut",
    "Pytimize.Props.C07_degrees",
    "Pytimize.Props.C07_name_partial",
    "Pytimize.Props.C07_name_wrong",
    "Pytimize.Props.C07_name_general"
   ],
   "note": "Exact for node collections; for a single str argument only one-character names (C07_name_wrong is the counterexample)."
  },
  {
   "property": "C08",
   "status": "partial",
   "theorems": [
    "Pytimize.Props.C08_rejects",
    "Pytimize.Props.C08_residual_partial",
    "Pytimize.Props.C08_opposite_wrong"
   ],
   "note": "Exact without opposite arcs; C08_opposite_wrong is the counterexample with opposite arcs."
  },
  {
   "property": "C09",
   "status": "partial",
   "theorems": [
    "Pytimize.Props.C09_conservation_partial",
    "Pytimize.Props.C09_forward_partial",
    "Pytimize.Props.C09_wrong",
    "Pytimize.Props.C09_opposite_wrong",
    "Pytimize.Props.C09_name_wrong"
   ],
   "note": "False in general (C09_wrong, C09_opposite_wrong, C09_name_wrong). Keys, conservation and value proved for every digraph; bounds for runs that use no reversed arc, which are all runs on digraphs with the graph-level condition OneWay (C11_one_way_partial; in-trees, out-trees, series-parallel)."
  },
  {
   "property": "C10",
   "status": "partial",
   "theorems": [
    "Pytimize.Props.C10_forward_partial",
    "Pytimize.Props.C10_too_large",
    "Pytimize.Props.C10_too_small"
   ],
   "note": "False in general in both directions (C10_too_large, C10_too_small). Proved for runs that use no reversed arc, which are all runs on OneWay digraphs (C11_one_way_partial)."
  },
  {
   "property": "C11",
   "status": "partial",
   "theorems": [
    "Pytimize.Props.C11_in_tree_partial",
    "Pytimize.Props.C11_errors_partial",
    "Pytimize.Props.C11_endless_wrong",
    "Pytimize.Props.C11_one_way_partial"
   ],
   "note": "False in general: C11_endless_wrong gives a digraph with capacities at most 3 on which no amount of fuel suffices. Error behaviour proved for every digraph; on digraphs where no route from source to sink can go against a useful arc (OneWay: in-trees, out-trees, series-parallel) the loop runs at most once per arc and once more, and returns a maximum flow."
  },
  {
   "property": "C12",
   "status": "partial",
   "theorems": [
    "Pytimize.Props.C12_feasible_partial",
    "Pytimize.Props.C12_opposite_wrong",
    "Pytimize.Props.C12_name_wrong"
   ],
   "note": "Proved without opposite arcs and with one-character names; false otherwise (C12_opposite_wrong, C12_name_wrong)."
  },
  {
   "property": "C13",
   "status": "partial",
   "theorems": [
    "Pytimize.Props.C13_maximum_partial",
    "Pytimize.Props.C13_agree_partial",
    "Pytimize.Props.C13_name_wrong",
    "Pytimize.Props.C13_one_way_partial"
   ],
   "note": "Same hypotheses as C12; agreement with ford_fulkerson for runs without reversed arcs, and on every OneWay digraph (C13_one_way_partial); C13_name_wrong refutes multi-character names."
  },
  {
   "property": "C14",
   "status": "partial",
   "theorems": [
    "Pytimize.Props.C14_terminates_partial",
    "Pytimize.Props.C14_two_nodes_fail",
    "Pytimize.Props.C14_rejects",
    "Pytimize.Props.C14_endless_wrong",
    "Pytimize.Props.C14_crash_wrong",
    "Pytimize.Props.C14_name_wrong"
   ],
   "note": "Termination proved under C12's hypotheses with at least one inner node; UnboundLocalError with only source and sink is proved (C14_two_nodes_fail). False with opposite arcs: an endless run on four arcs (C14_endless_wrong), KeyError on three (C14_crash_wrong); KeyError also with longer names (C14_name_wrong)."
  },
  {
   "property": "C15",
   "status": "partial",
   "theorems": [
    "Pytimize.Props.C15_ctor",
    "Pytimize.Props.C15_history_partial",
    "Pytimize.Props.C15_any_history",
    "Pytimize.Props.C15_raise_unchanged",
    "Pytimize.Props.C15_remove_wrong"
   ],
   "note": "Proved for all histories without remove_edge; with it adjacency and has_edge disagree (witness); weak invariant and raise-leaves-unchanged hold for all histories."
  },
  {
   "property": "C16",
   "status": "proved",
   "theorems": [
    "Pytimize.Props.C16_has_edge",
    "Pytimize.Props.C16_get_edge_weight",
    "Pytimize.Props.C16_set_edge_weight",
    "Pytimize.Props.C16_missing",
    "Pytimize.Props.C16_set_vertex_weight",
    "Pytimize.Props.C16_add_existing",
    "Pytimize.Props.C16_add_edge"
   ],
   "note": "Any graph state, either orientation."
  },
  {
   "property": "C17",
   "status": "partial",
   "theorems": [
    "Pytimize.Props.C17_adjacency_partial",
    "Pytimize.Props.C17_succeeds",
    "Pytimize.Props.C17_wrong"
   ],
   "note": "Only the adjacency is removed; for every graph has_edge stays True and re-adding raises (proved)."
  },
  {
   "property": "C18",
   "status": "partial",
   "theorems": [
    "Pytimize.Props.C18_cut",
    "Pytimize.Props.C18_cut_has_edge",
    "Pytimize.Props.C18_degree",
    "Pytimize.Props.C18_complement",
    "Pytimize.Props.C18_name_partial",
    "Pytimize.Props.C18_name_wrong"
   ],
   "note": "Proved for collections and one-character names; longer single names are read as sets of characters (witness)."
  },
  {
   "property": "C19",
   "status": "proved",
   "theorems": [
    "Pytimize.Props.C19_traverse",
    "Pytimize.Props.C19_bfs",
    "Pytimize.Props.C19_value_error",
    "Pytimize.Props.C19_any_history"
   ],
   "note": "All graphs reachable by the API, all ordering keys, methods bfs and dfs; rng is C26."
  },
  {
   "property": "C20",
   "status": "proved",
   "theorems": [
    "Pytimize.Props.C20_is_connected",
    "Pytimize.Props.C20_any_history"
   ],
   "note": "All histories."
  },
  {
   "property": "C21",
   "status": "proved",
   "theorems": [
    "Pytimize.Props.C21_is_tree",
    "Pytimize.Props.C21_any_history"
   ],
   "note": "All histories and all set iteration orders."
  },
  {
   "property": "C22",
   "status": "partial",
   "theorems": [
    "Pytimize.Props.C22_has_edge",
    "Pytimize.Props.C22_is_cyclic_partial",
    "Pytimize.Props.C22_wrong",
    "Pytimize.Props.C22_any_history"
   ],
   "note": "Terminates, True on every cyclic graph; but True on every graph with an edge (proved)."
  },
  {
   "property": "C23",
   "status": "partial",
   "theorems": [
    "Pytimize.Props.C23_eq",
    "Pytimize.Props.C23_copy_equal",
    "Pytimize.Props.C23_attributes",
    "Pytimize.Props.C23_independent_partial",
    "Pytimize.Props.C23_shared_wrong"
   ],
   "note": "Equal copy, independent edges/vertices for all histories; adjacency sets are shared (witness), independence proved when no old vertex gets or loses a neighbour."
  },
  {
   "property": "C24",
   "status": "partial",
   "theorems": [
    "Pytimize.Props.C24_exact_partial",
    "Pytimize.Props.C24_optimal_partial",
    "Pytimize.Props.C24_edgeless_wrong",
    "Pytimize.Props.C24_empty_none"
   ],
   "note": "Exact for all graphs with an edge; every edgeless nonempty graph raises ValueError (proved)."
  },
  {
   "property": "C25",
   "status": "partial",
   "theorems": [
    "Pytimize.Props.C25_same_partial",
    "Pytimize.Props.C25_wrong"
   ],
   "note": "Only start = end works; otherwise IndexError/TypeError for every graph (proved)."
  },
  {
   "property": "C26",
   "status": "partial",
   "theorems": [
    "Pytimize.Props.C26_empty_partial",
    "Pytimize.Props.C26_partition_wrong",
    "Pytimize.Props.C26_formulate_wrong",
    "Pytimize.Props.C26_formulate_error",
    "Pytimize.Props.C26_rng_wrong",
    "Pytimize.Props.C26_mst"
   ],
   "note": "partition, formulate_shortest_path and rng traversal fail on every nonempty graph (proved)."
  },
  {
   "property": "C27",
   "status": "proved",
   "theorems": [
    "Pytimize.Props.C27_ctor",
    "Pytimize.Props.C27_errors",
    "Pytimize.Props.C27_accepts"
   ],
   "note": ""
  },
  {
   "property": "C28",
   "status": "partial",
   "theorems": [
    "Pytimize.Props.C28_partition_partial",
    "Pytimize.Props.C28_failed_call_wrong"
   ],
   "note": "Holds after any sequence of successful calls; false after add_variable(in_place=True) raises on a column of the wrong length (C28_failed_call_wrong)."
  },
  {
   "property": "C29",
   "status": "proved",
   "theorems": [
    "Pytimize.Props.C29_intersect",
    "Pytimize.Props.C29_rejects"
   ],
   "note": ""
  },
  {
   "property": "C30",
   "status": "proved",
   "theorems": [
    "Pytimize.Props.C30_extend",
    "Pytimize.Props.C30_default_column",
    "Pytimize.Props.C30_rejects"
   ],
   "note": ""
  },
  {
   "property": "C31",
   "status": "proved",
   "theorems": [
    "Pytimize.Props.C31_evaluate",
    "Pytimize.Props.C31_length",
    "Pytimize.Props.C31_accepts",
    "Pytimize.Props.C31_tolerance",
    "Pytimize.Props.C31_exact",
    "Pytimize.Props.C31_valueOf"
   ],
   "note": ""
  },
  {
   "property": "C32",
   "status": "partial",
   "theorems": [
    "Pytimize.Props.C32_to_sef_partial",
    "Pytimize.Props.C32_no_constant_partial",
    "Pytimize.Props.C32_min_constant_wrong"
   ],
   "note": "Proved incl. onto; objective agrees except for minimisations with z != 0, where the code keeps z unnegated (C32_min_constant_wrong)."
  },
  {
   "property": "C33",
   "status": "partial",
   "theorems": [
    "Pytimize.Props.C33_weak_partial",
    "Pytimize.Props.C33_weak_zero_partial",
    "Pytimize.Props.C33_constant_wrong"
   ],
   "note": "dual() drops z: holds with z added back, as stated only for z=0; counterexample C33_constant_wrong."
  },
  {
   "property": "C34",
   "status": "partial",
   "theorems": [
    "Pytimize.Props.C34_involution_partial",
    "Pytimize.Props.C34_zero_partial",
    "Pytimize.Props.C34_constant_wrong"
   ],
   "note": "Everything but z, which becomes 0; counterexample C34_constant_wrong."
  },
  {
   "property": "C35",
   "status": "partial",
   "theorems": [
    "Pytimize.Props.C35_is_basis",
    "Pytimize.Props.C35_unique",
    "Pytimize.Props.C35_compute_sorted_partial",
    "Pytimize.Props.C35_compute_raises",
    "Pytimize.Props.C35_unsorted_wrong",
    "Pytimize.Props.C35_feasible",
    "Pytimize.Props.C35_is_basic_solution",
    "Pytimize.Props.C35_basic_accepted"
   ],
   "note": "is_basis, is_basis_feasible, is_basic_solution in full; compute_basic_solution for increasing lists, wrong for unsorted ones (counterexample)"
  },
  {
   "property": "C36",
   "status": "proved",
   "theorems": [
    "Pytimize.Props.C36_canonical",
    "Pytimize.Props.C36_raises"
   ],
   "note": "all SEF programs, bases in any order, all points"
  },
  {
   "property": "C37",
   "status": "partial",
   "theorems": [
    "Pytimize.Props.C37_data_partial",
    "Pytimize.Props.C37_iteration_partial",
    "Pytimize.Props.C37_integer_partial",
    "Pytimize.Props.C37_near_tie_wrong",
    "Pytimize.Props.C37_near_tie_infeasible_wrong"
   ],
   "note": "proved for programs clear of the tolerances (Exact; in particular integer data with bounded subdeterminants); counterexample with a near-tie in the ratio test. C37_data_partial has conditions on the data only (bounded denominators and subdeterminants)."
  },
  {
   "property": "C38",
   "status": "partial",
   "theorems": [
    "Pytimize.Props.C38_optimal_partial",
    "Pytimize.Props.C38_checked_partial",
    "Pytimize.Props.C38_exact_partial",
    "Pytimize.Props.C38_tiny_cost_wrong"
   ],
   "note": "any starting basis: optimal up to tolerance 1e-10 unconditionally; exact under Exact or when the answer itself is clear of the tolerance; counterexample with a tiny cost"
  },
  {
   "property": "C39",
   "status": "partial",
   "theorems": [
    "Pytimize.Props.C39_unbounded_partial",
    "Pytimize.Props.C39_exact_partial",
    "Pytimize.Props.C39_tiny_pivot_wrong"
   ],
   "note": "any start: A x = b, A d = 0, c.d > 0 exactly; full claim under Exact from a feasible basis; counterexample with a tiny pivot"
  },
  {
   "property": "C40",
   "status": "partial",
   "theorems": [
    "Pytimize.Props.C40_data_partial",
    "Pytimize.Props.C40_terminates_partial",
    "Pytimize.Props.C40_integer_partial",
    "Pytimize.Props.C40_cycle_wrong"
   ],
   "note": "Bland's rule proved to terminate within n^m iterations under Exact; counterexample: an 8-step run that cycles forever because of the tolerance in the ratio test. C40_data_partial: total correctness from conditions on the data only."
  },
  {
   "property": "C41",
   "status": "partial",
   "theorems": [
    "Pytimize.Props.C41_returns_partial",
    "Pytimize.Props.C41_nonneg_partial",
    "Pytimize.Props.C41_equivalent_partial",
    "Pytimize.Props.C41_exception_wrong",
    "Pytimize.Props.C41_two_phase_returns_partial",
    "Pytimize.Props.C41_two_phase_nonneg_partial",
    "Pytimize.Props.C41_two_phase_equivalent_partial",
    "Pytimize.Props.C41_two_phase_wrong"
   ],
   "note": "Proved: simplex and two_phase_simplex leave the program unchanged when they return, and in all exits when no right-hand side is negative; in every exit feasible set and objective are kept. As stated false: exceptions leave rows negated (C41_exception_wrong, C41_two_phase_wrong)."
  },
  {
   "property": "C42",
   "status": "partial",
   "theorems": [
    "Pytimize.Props.C42_data_partial",
    "Pytimize.Props.C42_correct_partial",
    "Pytimize.Props.C42_integer_partial",
    "Pytimize.Props.C42_tolerance_partial",
    "Pytimize.Props.C42_tiny_wrong"
   ],
   "note": "Proved for programs that stay clear of the 1e-10 tolerance in both phases (Exact; implied by a determinant bound for integer data), plus a version with explicit error terms for all programs. As stated false for tiny numbers (C42_tiny_wrong). C42_data_partial: conditions on the data only."
  },
  {
   "property": "C43",
   "status": "partial",
   "theorems": [
    "Pytimize.Props.C43_answers_partial",
    "Pytimize.Props.C43_redundant_wrong",
    "Pytimize.Props.C43_dependent_wrong"
   ],
   "note": "Proved for Exact programs: an answer is returned exactly if the program is infeasible or has independent rows (termination by Bland's rule, completeness of the basis search). As stated false on redundant rows (C43_redundant_wrong, C43_dependent_wrong)."
  },
  {
   "property": "C44",
   "status": "partial",
   "theorems": [
    "Pytimize.Props.C44_data_partial",
    "Pytimize.Props.C44_value_data_partial",
    "Pytimize.Props.C44_sound_partial",
    "Pytimize.Props.C44_integer_partial",
    "Pytimize.Props.C44_tiny_wrong",
    "Pytimize.Props.C44_optimal_value_partial"
   ],
   "note": "Proved for every well-formed program whose SEF is Exact. As stated false for tiny numbers (C44_tiny_wrong). C44_data_partial and C44_value_data_partial: conditions on the data only (bounded denominators and subdeterminants)."
  },
  {
   "property": "C45",
   "status": "partial",
   "theorems": [
    "Pytimize.Props.C45_data_partial",
    "Pytimize.Props.C45_value_data_partial",
    "Pytimize.Props.C45_complete_partial",
    "Pytimize.Props.C45_inequalities_partial",
    "Pytimize.Props.C45_shape_partial",
    "Pytimize.Props.C45_tried_wrong",
    "Pytimize.Props.C45_redundant_wrong"
   ],
   "note": "Proved for Exact SEF with independent rows unless the columns tried first form an infeasible basis; independence proved for programs without equations, and with equations it is independence of the equations (C109_partial). As stated false (C45_tried_wrong: min x s.t. x>=1 returns None; C45_redundant_wrong; C109_loops_wrong: a program on which solve never returns). C45_data_partial and C45_value_data_partial: conditions on the data only, every shape if the origin is feasible."
  },
  {
   "property": "C46",
   "status": "proved",
   "theorems": [
    "Pytimize.Props.C46_auxiliary",
    "Pytimize.Props.C46_not_sef"
   ],
   "note": "Full statement, for every SEF program with at least one row."
  },
  {
   "property": "C47",
   "status": "partial",
   "theorems": [
    "Pytimize.Props.C47_infeasible_partial",
    "Pytimize.Props.C47_exact_partial",
    "Pytimize.Props.C47_accepts",
    "Pytimize.Props.C47_tolerance_wrong",
    "Pytimize.Props.C47_requires_sef"
   ],
   "note": "Sound up to the 1e-10 tolerance and exactly when no entry of yA is in (-1e-10,0); counterexample C47_tolerance_wrong."
  },
  {
   "property": "C48",
   "status": "partial",
   "theorems": [
    "Pytimize.Props.C48_exact_partial",
    "Pytimize.Props.C48_tolerance_partial",
    "Pytimize.Props.C48_accepts",
    "Pytimize.Props.C48_tolerance_wrong",
    "Pytimize.Props.C48_requires_sef"
   ],
   "note": "Sound when the two vectors are exact; counterexample within tolerance C48_tolerance_wrong."
  },
  {
   "property": "C49",
   "status": "partial",
   "theorems": [
    "Pytimize.Props.C49_bound_partial",
    "Pytimize.Props.C49_exact_partial",
    "Pytimize.Props.C49_accepts",
    "Pytimize.Props.C49_tolerance_wrong",
    "Pytimize.Props.C49_requires_sef"
   ],
   "note": "Bound up to 1e-10*sum(x), exact when no reduced cost is in (0,1e-10); counterexample C49_tolerance_wrong."
  },
  {
   "property": "C50",
   "status": "partial",
   "theorems": [
    "Pytimize.Props.C50_optimal",
    "Pytimize.Props.C50_simplex_partial",
    "Pytimize.Props.C50_two_phase_partial",
    "Pytimize.Props.C50_single_row_partial",
    "Pytimize.Props.C50_tiny_wrong"
   ],
   "note": "Optimal certificates: proved without assumption. Infeasible and unbounded certificates: proved for Exact programs. As stated false (C50_tiny_wrong)."
  },
  {
   "property": "C51",
   "status": "partial",
   "theorems": [
    "Pytimize.Props.C51_copy",
    "Pytimize.Props.C51_not_in_place",
    "Pytimize.Props.C51_methods",
    "Pytimize.Props.C51_dual_partial",
    "Pytimize.Props.C51_dual_wrong"
   ],
   "note": "Proved for copy and for every method called without in_place, against arbitrary interleaved later effects. As stated false for dual, whose arrays are shared (C51_dual_wrong); C51_dual_partial covers the later operations that do no harm."
  },
  {
   "property": "C52",
   "status": "partial",
   "theorems": [
    "Pytimize.Props.C52_data_partial",
    "Pytimize.Props.C52_strong_partial",
    "Pytimize.Props.C52_zero_partial",
    "Pytimize.Props.C52_constant_wrong"
   ],
   "note": "dual feasibility and equal value up to the constant z, which dual() drops (counterexample). C52_data_partial: conditions on the data only."
  },
  {
   "property": "C53",
   "status": "partial",
   "theorems": [
    "Pytimize.Props.C53_canonical_never_wrong",
    "Pytimize.Props.C53_canonical_outcome",
    "Pytimize.Props.C53_canonical_wrong",
    "Pytimize.Props.C53_feasible_raises_wrong",
    "Pytimize.Props.C53_feasible_partial"
   ],
   "note": "As stated false: is_canonical_form_for never returns True for any program (C53_canonical_never_wrong); is_feasible_basic_solution always raises unless n = 1 (C53_feasible_raises_wrong). C53_feasible_partial covers the remaining one-variable case."
  },
  {
   "property": "C54",
   "status": "partial",
   "theorems": [
    "Pytimize.Props.C54_clear_steps_wrong",
    "Pytimize.Props.C54_clear_in_place_partial",
    "Pytimize.Props.C54_eq_raises_wrong",
    "Pytimize.Props.C54_eq_partial",
    "Pytimize.Props.C54_eq_empty_wrong"
   ],
   "note": "As stated false: clear_steps() recurses without end, == raises for matrices with two or more entries. The in-place form and 1x1 programs are proved correct."
  },
  {
   "property": "C55",
   "status": "partial",
   "theorems": [
    "Pytimize.Props.C55_to_rref_partial",
    "Pytimize.Props.C55_same_solutions",
    "Pytimize.Props.C55_scaled",
    "Pytimize.Props.C55_exact_partial",
    "Pytimize.Props.C55_tolerance_wrong",
    "Pytimize.Props.C55_no_columns",
    "Pytimize.Props.C55_is_in_rref_partial",
    "Pytimize.Props.C55_accepts",
    "Pytimize.Props.C55_accepted_partial",
    "Pytimize.Props.C55_round_trip",
    "Pytimize.Props.C55_stairs_wrong"
   ],
   "note": "Proved for every matrix with a column: termination, row equivalence and reduced echelon form with leading entries within relative 1e-9 of one; is_in_rref characterised exactly. As stated false (C55_tolerance_wrong, C55_stairs_wrong)."
  },
  {
   "property": "C56",
   "status": "proved",
   "theorems": [
    "Pytimize.Props.C56_random",
    "Pytimize.Props.C56_rounded",
    "Pytimize.Props.C56_reached"
   ],
   "note": "Full statement for every outcome of the generator, with the bound on the entries."
  },
  {
   "property": "C57",
   "status": "partial",
   "theorems": [
    "Pytimize.Props.C57_points_partial",
    "Pytimize.Props.C57_fraction_wrong",
    "Pytimize.Props.C57_parallel_wrong",
    "Pytimize.Props.C57_exit_wrong"
   ],
   "note": "Proved for integer data without oblique parallel rows. As stated false for fractional data, parallel rows and empty regions (C57_fraction_wrong, C57_parallel_wrong, C57_exit_wrong)."
  },
  {
   "property": "C58",
   "status": "proved",
   "theorems": [
    "Pytimize.Props.C58_relax",
    "Pytimize.Props.C58_wf",
    "Pytimize.Props.C58_same"
   ],
   "note": "relax of a constructed or well-formed integer program is the same linear program"
  },
  {
   "property": "C59",
   "status": "partial",
   "theorems": [
    "Pytimize.Props.C59_near_partial",
    "Pytimize.Props.C59_feasible_partial",
    "Pytimize.Props.C59_partial",
    "Pytimize.Props.C59_sign_wrong",
    "Pytimize.Props.C59_index_wrong",
    "Pytimize.Props.C59_tolerance_wrong",
    "Pytimize.Props.C59_bounded_partial",
    "Pytimize.Props.C59_two_partial"
   ],
   "note": "integral up to the tolerance always; feasible and exactly integral without nonpositive variables when the data keep clear of the tolerances (C59_bounded_partial and, for two variables per row and any size, C59_two_partial: conditions on the data only, fractions allowed); false for nonpositive variables, math-indexed integral lists and near-integers"
  },
  {
   "property": "C60",
   "status": "partial",
   "theorems": [
    "Pytimize.Props.C60_partial",
    "Pytimize.Props.C60_min_wrong",
    "Pytimize.Props.C60_free_wrong",
    "Pytimize.Props.C60_tried_wrong",
    "Pytimize.Props.C60_knapsack_wrong",
    "Pytimize.Props.C60_bounded_partial",
    "Pytimize.Props.C60_two_partial",
    "Pytimize.Props.C60_unimodular_partial",
    "Pytimize.Props.C60_unimodular_complete_partial"
   ],
   "note": "max with nonnegative variables: best integral point, and None only if there is none (C60_bounded_partial, C60_two_partial: total correctness on bounded programs from conditions on the data, fractions allowed, more rows than columns or equally many with a feasible origin); either objective and all sign classes for totally unimodular data (C60_unimodular_partial); false for min, free variables, and where solve fails (C60_knapsack_wrong: a knapsack with three items gets a worse vector)"
  },
  {
   "property": "C61",
   "status": "partial",
   "theorems": [
    "Pytimize.Props.C61_linear_partial",
    "Pytimize.Props.C61_partial",
    "Pytimize.Props.C61_neg_wrong",
    "Pytimize.Props.C61_scale_wrong",
    "Pytimize.Props.C61_right_wrong",
    "Pytimize.Props.C61_index"
   ],
   "note": "Proved: linear part exact for every expression; full value for expressions that never negate, scale or put on the right of - an equation carrying a constant (Plain) and use each name once. Missing: the rest is false (C61_neg_wrong, C61_scale_wrong, C61_right_wrong)."
  },
  {
   "property": "C62",
   "status": "partial",
   "theorems": [
    "Pytimize.Props.C62_partial",
    "Pytimize.Props.C62_class",
    "Pytimize.Props.C62_expr_partial",
    "Pytimize.Props.C62_variable_wrong",
    "Pytimize.Props.C62_no_terms_wrong"
   ],
   "note": "Proved for all equations, numbers and expressions on either side except a bare Variable on the right of an equation/Variable, which raises (C62_variable_wrong), and comparisons without terms (C62_no_terms_wrong)."
  },
  {
   "property": "C63",
   "status": "partial",
   "theorems": [
    "Pytimize.Props.C63_partial",
    "Pytimize.Props.C63_add_partial",
    "Pytimize.Props.C63_fresh_partial",
    "Pytimize.Props.C63_add_wrong",
    "Pytimize.Props.C63_neg_wrong",
    "Pytimize.Props.C63_scale_wrong",
    "Pytimize.Props.C63_sub_wrong",
    "Pytimize.Props.C63_self_wrong"
   ],
   "note": "Proved: the operators create or reuse exactly one equation and all others keep their meaning; + leaves the right operand alone. False in general: +, -, unary -, * change an operand in place (C63_*_wrong)."
  },
  {
   "property": "C64",
   "status": "partial",
   "theorems": [
    "Pytimize.Props.C64_partial",
    "Pytimize.Props.C64_text_partial",
    "Pytimize.Props.C64_accepts",
    "Pytimize.Props.C64_compiles",
    "Pytimize.Props.C64_objective_wrong",
    "Pytimize.Props.C64_variable_wrong",
    "Pytimize.Props.C64_where_wrong",
    "Pytimize.Props.C64_sign_wrong"
   ],
   "note": "Proved for every accepted formulation (feasible set, objective, free variables), plus exact acceptance conditions. Missing: meaningful formulations that are rejected (C64_*_wrong), positive indices beyond the number of variables."
  },
  {
   "property": "C65",
   "status": "partial",
   "theorems": [
    "Pytimize.Props.C65_where",
    "Pytimize.Props.C65_all",
    "Pytimize.Props.C65_atomic_partial",
    "Pytimize.Props.C65_atomic_wrong",
    "Pytimize.Props.C65_stuck_wrong"
   ],
   "note": "Acceptance characterised exactly over all histories (C65_where, C65_all); atomicity holds only when the program was already compiled (C65_atomic_partial) and is false otherwise (C65_atomic_wrong, C65_stuck_wrong)."
  },
  {
   "property": "C66",
   "status": "partial",
   "theorems": [
    "Pytimize.Props.C66_wrong",
    "Pytimize.Props.C66_partial"
   ],
   "note": "False for every formulation (C66_wrong): compiled programs are always plain linear programs; C66_partial: they equal the linear formulation."
  },
  {
   "property": "C67",
   "status": "proved",
   "theorems": [
    "Pytimize.Props.C67_parse",
    "Pytimize.Props.C67_print"
   ],
   "note": "All four formats, every nonempty edge list, any white space between edges; \\w, \\s, \\d are arbitrary Unicode tables agreeing with Python on ASCII; float() read exactly (no rounding)."
  },
  {
   "property": "C68",
   "status": "partial",
   "theorems": [
    "Pytimize.Props.C68_partial",
    "Pytimize.Props.C68_reject_partial",
    "Pytimize.Props.C68_unique",
    "Pytimize.Props.C68_exact_partial",
    "Pytimize.Props.C68_newline_wrong"
   ],
   "note": "Exact for strings not ending in a newline (C68_exact_partial); with a newline at the end every valid string is also accepted though in no format (C68_newline_wrong)."
  },
  {
   "property": "C69",
   "status": "partial",
   "theorems": [
    "Pytimize.Props.C69_partial",
    "Pytimize.Props.C69_reject_partial",
    "Pytimize.Props.C69_duplicate",
    "Pytimize.Props.C69_too_large",
    "Pytimize.Props.C69_newline_wrong",
    "Pytimize.Props.C69_bar_wrong",
    "Pytimize.Props.C69_zero_wrong"
   ],
   "note": "Round trip proved for every term list with distinct indices >= 1 and every size; exact description of what raises. False for index 0, | as separator and a trailing newline (C69_*_wrong)."
  },
  {
   "property": "C70",
   "status": "proved",
   "theorems": [
    "Pytimize.Props.C70_digit",
    "Pytimize.Props.C70_other",
    "Pytimize.Props.C70_length",
    "Pytimize.Props.C70_injective"
   ],
   "note": "Digit-wise, length preserving, injective on strings without subscript digits."
  },
  {
   "property": "C71",
   "status": "partial",
   "theorems": [
    "Pytimize.Props.C71_steps",
    "Pytimize.Props.C71_decrease_partial",
    "Pytimize.Props.C71_negative_wrong"
   ],
   "note": "Sufficient decrease of every step and the stopping rule hold for all callbacks and parameters; the objective does not increase for alpha, c, p >= 0 (false for c < 0, C71_negative_wrong). Exact arithmetic; with rounding C100."
  },
  {
   "property": "C72",
   "status": "proved",
   "theorems": [
    "Pytimize.Props.C72_newton",
    "Pytimize.Props.C72_minimiser",
    "Pytimize.Props.C72_singular"
   ],
   "note": "Over every ordered field, exact linear solve; max_iteration >= 1. C72_minimiser: convex quadratics are minimised."
  },
  {
   "property": "C73",
   "status": "partial",
   "theorems": [
    "Pytimize.Props.C73_newton_wrong",
    "Pytimize.Props.C73_newton_partial",
    "Pytimize.Props.C73_opposite_partial",
    "Pytimize.Props.C73_odd_partial",
    "Pytimize.Props.C73_descent_wrong"
   ],
   "note": "False: the negated function is overwritten in the constructor and the result is negated (C73_newton_wrong for every quadratic with stationary point not at 0, C73_descent_wrong). Proved: the result for max is the opposite of the one for min."
  },
  {
   "property": "C74",
   "status": "partial",
   "theorems": [
    "Pytimize.Props.C74_bounded_partial",
    "Pytimize.Props.C74_two_partial",
    "Pytimize.Props.C74_loops_wrong",
    "Pytimize.Props.C74_raises_wrong"
   ],
   "note": "False: branch_and_bound never returns on a program with four inequalities in four variables bounded by 4 (C74_loops_wrong), and raises ValueError on a bounded program with dependent equations (C74_raises_wrong). Proved for bounded programs with nonnegative variables and more inequalities than variables, or equally many and a feasible origin (any size with two variables per row)."
  },
  {
   "property": "C75",
   "status": "partial",
   "theorems": [
    "Pytimize.Props.C75_partial",
    "Pytimize.Props.C75_wrong"
   ],
   "note": "Raises exactly when parse raises; the rows are not returned (C75_wrong: always None)."
  },
  {
   "property": "C76",
   "status": "partial",
   "theorems": [
    "Pytimize.Props.C76_descent_wrong",
    "Pytimize.Props.C76_newton_wrong",
    "Pytimize.Props.C76_partial"
   ],
   "note": "False: x += changes the caller's array in every run (C76_descent_wrong, C76_newton_wrong). Holds with no iterations or zero gradient at the start."
  },
  {
   "property": "C77",
   "status": "partial",
   "theorems": [
    "Pytimize.Props.C77_list_wrong",
    "Pytimize.Props.C77_partial"
   ],
   "note": "False: every iteration appends to the list (C77_list_wrong)."
  },
  {
   "property": "C78",
   "status": "proved",
   "theorems": [
    "Pytimize.Props.C78_terminates"
   ],
   "note": "Over the real numbers; for doubles see C101."
  },
  {
   "property": "C79",
   "status": "proved",
   "theorems": [
    "Pytimize.Props.C79_converges"
   ],
   "note": "Over every archimedean ordered field."
  },
  {
   "property": "C80",
   "status": "partial",
   "theorems": [
    "Pytimize.Props.C80_strong_partial",
    "Pytimize.Props.C80_zero_partial",
    "Pytimize.Props.C80_constant_wrong"
   ],
   "note": "Strong duality proved for every well-formed program (Farkas' lemma over the rationals, any mix of operators and signs, max and min); as stated for z = 0. With z != 0 dual() drops the constant, so the values differ (C80_constant_wrong)."
  },
  {
   "property": "C81",
   "status": "proved",
   "theorems": [
    "Pytimize.Props.C81_conditions"
   ],
   "note": "For every program, every number format; optimality of both points is equivalent to the listed conditions (uses strong duality)."
  },
  {
   "property": "C82",
   "status": "proved",
   "theorems": [
    "Pytimize.Props.C82_complete"
   ],
   "note": "Exact certificates exist and pass the tolerant checks."
  },
  {
   "property": "C83",
   "status": "partial",
   "theorems": [
    "Pytimize.Props.C83_wrong",
    "Pytimize.Props.C83_partial"
   ],
   "note": "False: the method has no return statement (C83_wrong, for all programs); only the length check holds."
  },
  {
   "property": "C84",
   "status": "partial",
   "theorems": [
    "Pytimize.Props.C84_partial",
    "Pytimize.Props.C84_wrong"
   ],
   "note": "Feasible points are accepted; fractional points too (C84_wrong)."
  },
  {
   "property": "C85",
   "status": "partial",
   "theorems": [
    "Pytimize.Props.C85_stable_partial",
    "Pytimize.Props.C85_tiny_wrong"
   ],
   "note": "False for weights that differ by less than the tolerance (C85_tiny_wrong) and for edgeless graphs (C24_edgeless_wrong). Proved for every graph with an edge and vertex weights with a common denominator of at most 5*10^9."
  },
  {
   "property": "C86",
   "status": "partial",
   "theorems": [
    "Pytimize.Props.C86_bound_partial",
    "Pytimize.Props.C86_unimodular_partial",
    "Pytimize.Props.C86_value_wrong",
    "Pytimize.Props.C86_copy_wrong"
   ],
   "note": "False: the inherited solve and optimal_value answer for the relaxation (C86_value_wrong) and copy returns a LinearProgram (C86_copy_wrong). The value is a bound; it is right for totally unimodular rows with integer right-hand sides."
  },
  {
   "property": "C87",
   "status": "proved",
   "theorems": [
    "Pytimize.Props.C87_accurate",
    "Pytimize.Props.C87_sign",
    "Pytimize.Props.C87_exact",
    "Pytimize.Props.C87_integer"
   ],
   "note": "Exact decimal rounding and logarithm (see the trusted base)."
  },
  {
   "property": "C88",
   "status": "proved",
   "theorems": [
    "Pytimize.Props.C88_readable",
    "Pytimize.Props.C88_exact",
    "Pytimize.Props.C88_aligned",
    "Pytimize.Props.C88_norows"
   ],
   "note": "A program without constraints raises UnboundLocalError (C88_norows)."
  },
  {
   "property": "C89",
   "status": "partial",
   "theorems": [
    "Pytimize.Props.C89_text_partial",
    "Pytimize.Props.C89_wrong",
    "Pytimize.Props.C89_run_on_wrong"
   ],
   "note": "False: the text does not depend on the listed integral variables (C89_wrong), and the words \"x \u2208 Z\" are glued to the line before (C89_run_on_wrong)."
  },
  {
   "property": "C90",
   "status": "proved",
   "theorems": [
    "Pytimize.Props.C90_same",
    "Pytimize.Props.C90_norows"
   ],
   "note": "every program with a constraint; without one both raise, but different exceptions (C90_norows)"
  },
  {
   "property": "C91",
   "status": "partial",
   "theorems": [
    "Pytimize.Props.C91_flag_partial",
    "Pytimize.Props.C91_solve",
    "Pytimize.Props.C91_wrong"
   ],
   "note": "Proved for every method but solve, which ignores the flag: it records for a program in SEF also with show_steps=False (C91_wrong) and nothing for others also with True (C91_solve)."
  },
  {
   "property": "C92",
   "status": "partial",
   "theorems": [
    "Pytimize.Props.C92_feasible_partial",
    "Pytimize.Props.C92_wrong",
    "Pytimize.Props.C92_basic",
    "Pytimize.Props.C92_basis_wrong",
    "Pytimize.Props.C92_simplex"
   ],
   "note": "is_basic_solution (answer and columns) and simplex in full; is_feasible in full for SEF programs. As stated false: for other programs a negative answer is not recorded (C92_wrong), and the text of is_basic_solution names the basis zero-based (C92_basis_wrong)."
  },
  {
   "property": "C93",
   "status": "proved",
   "theorems": [
    "Pytimize.Props.C93_render",
    "Pytimize.Props.C93_array",
    "Pytimize.Props.C93_string"
   ],
   "note": "arguments that can be printed"
  },
  {
   "property": "C94",
   "status": "partial",
   "theorems": [
    "Pytimize.Props.C94_exact_partial",
    "Pytimize.Props.C94_sound_partial",
    "Pytimize.Props.C94_complete_partial",
    "Pytimize.Props.C94_tried_wrong"
   ],
   "note": "Soundness for simple expressions and data within the precision of the tolerances (C94_sound_partial); completeness without == unless the origin violates a comparison and rows equal columns (false then: C94_tried_wrong); with equations, exactly what solve answers (best point, None, or ValueError for dependent equations) for regular compiled programs (C94_exact_partial)."
  },
  {
   "property": "C95",
   "status": "partial",
   "theorems": [
    "Pytimize.Props.C95_built",
    "Pytimize.Props.C95_isolated",
    "Pytimize.Props.C95_floats_partial",
    "Pytimize.Props.C95_simplex_partial",
    "Pytimize.Props.C95_wrong",
    "Pytimize.Props.C95_raise_wrong",
    "Pytimize.Props.C95_caller_wrong",
    "Pytimize.Props.C95_same_array_wrong"
   ],
   "note": "full for lists and integer arrays; float arrays are shared: safe methods and returning simplex leave them alone, others do not (C95_wrong, C95_raise_wrong, C95_caller_wrong, C95_same_array_wrong)"
  },
  {
   "property": "C96",
   "status": "partial",
   "theorems": [
    "Pytimize.Props.C96_partial",
    "Pytimize.Props.C96_wrong",
    "Pytimize.Props.C96_objective_wrong"
   ],
   "note": "for methods that do not write into the arrays; false for to_sef with negative variables (C96_wrong, C96_objective_wrong)"
  },
  {
   "property": "C97",
   "status": "proved",
   "theorems": [
    "Pytimize.Props.C97_order",
    "Pytimize.Props.C97_text",
    "Pytimize.Props.C97_dash_wrong"
   ],
   "note": "For names without ':', '-' and line breaks, as stated; C97_dash_wrong shows two graphs with '-' in names and the same text."
  },
  {
   "property": "C98",
   "status": "proved",
   "theorems": [
    "Pytimize.Props.C98_ctor",
    "Pytimize.Props.C98_history",
    "Pytimize.Props.C98_text"
   ],
   "note": "Constructor (C98_ctor), histories of the other calls (C98_history), from text (C98_text)."
  },
  {
   "property": "C99",
   "status": "partial",
   "theorems": [
    "Pytimize.Props.C99_ctor",
    "Pytimize.Props.C99_history_partial"
   ],
   "note": "Constructor fully (C99_ctor). Histories (C99_history_partial) for demands absent, falsy or a tuple of at least two numbers, and remove_nodes with one-character names; for other arguments the claim is false, see C06_add_arc_error_corrupts and C06_remove_arc_dangling."
  },
  {
   "property": "C100",
   "status": "proved",
   "theorems": [
    "Pytimize.Props.C100_decrease",
    "Pytimize.Props.C100_stationary",
    "Pytimize.Props.C100_steps"
   ],
   "note": "Every rounding, every order of summation; norm under NormNear."
  },
  {
   "property": "C101",
   "status": "proved",
   "theorems": [
    "Pytimize.Props.C101_terminates",
    "Pytimize.Props.C101_larger_factor"
   ],
   "note": "Doubles without overflow; C101_larger_factor shows that the bound on p is needed."
  },
  {
   "property": "C102",
   "status": "proved",
   "theorems": [
    "Pytimize.Props.C102_trichotomy",
    "Pytimize.Props.C102_neg_swap",
    "Pytimize.Props.C102_complement",
    "Pytimize.Props.C102_bounds",
    "Pytimize.Props.C102_integer"
   ],
   "note": "Every rounding with relative error at most 1e-6; is_integer for doubles."
  },
  {
   "property": "C103",
   "status": "proved",
   "theorems": [
    "Pytimize.Props.C103_slack",
    "Pytimize.Props.C103_sound",
    "Pytimize.Props.C103_accepts",
    "Pytimize.Props.C103_sef_sound",
    "Pytimize.Props.C103_sef_accepts",
    "Pytimize.Props.C103_integer",
    "Pytimize.Props.C103_evaluate"
   ],
   "note": "Explicit rounding terms; exact for integers of moderate size."
  },
  {
   "property": "C104",
   "status": "proved",
   "theorems": [
    "Pytimize.Props.C104_infeasible",
    "Pytimize.Props.C104_optimal",
    "Pytimize.Props.C104_unbounded",
    "Pytimize.Props.C104_accepts",
    "Pytimize.Props.C104_integer_infeasible",
    "Pytimize.Props.C104_integer_optimal",
    "Pytimize.Props.C104_integer_unbounded"
   ],
   "note": "Explicit rounding terms; exact for integers of moderate size."
  },
  {
   "property": "C105",
   "status": "partial",
   "theorems": [
    "Pytimize.Props.C105_exact_partial",
    "Pytimize.Props.C105_maximum_partial",
    "Pytimize.Props.C105_bounds_partial",
    "Pytimize.Props.C105_crash_wrong",
    "Pytimize.Props.C105_capacity_wrong"
   ],
   "note": "False in general: a KeyError on capacities 0.1, 0.2, 0.3, 0.5 (C105_crash_wrong) and a capacity exceeded by one unit in the last place (C105_capacity_wrong). Proved: exact maximum flow when the capacities are multiples of a power of two with a total of at most 53 bits; nonnegativity and the one-unit bound always."
  },
  {
   "property": "C106",
   "status": "partial",
   "theorems": [
    "Pytimize.Props.C106_same",
    "Pytimize.Props.C106_partial",
    "Pytimize.Props.C106_sum",
    "Pytimize.Props.C106_total_wrong",
    "Pytimize.Props.C106_minus_wrong",
    "Pytimize.Props.C106_times_wrong",
    "Pytimize.Props.C106_two_names_wrong"
   ],
   "note": "False in general because equations are changed in place: total += e changes e, e -= f changes f, constants are not scaled, two names share one equation (C106_*_wrong). Proved: n op= e is n = n op e for all states; every tidy program means what algebra says; sums built in a loop."
  },
  {
   "property": "C107",
   "status": "partial",
   "theorems": [
    "Pytimize.Props.C107_text_partial",
    "Pytimize.Props.C107_rounded",
    "Pytimize.Props.C107_twice",
    "Pytimize.Props.C107_wrong"
   ],
   "note": "False for numbers with more than three decimals, which are rounded: two different formulations print the same text (C107_wrong). Proved: exact when the numbers are printed exactly, otherwise up to the accuracy of C87; printing changes nothing that later calls see."
  },
  {
   "property": "C108",
   "status": "partial",
   "theorems": [
    "Pytimize.Props.C108_partial",
    "Pytimize.Props.C108_write_wrong",
    "Pytimize.Props.C108_method_wrong",
    "Pytimize.Props.C108_steps_wrong",
    "Pytimize.Props.C108_graph_wrong"
   ],
   "note": "False in general: A, b, c and steps are the program's own objects, so writing into p.A changes p, to_sef changes what was read before, the log grows (C108_write_wrong, C108_method_wrong, C108_steps_wrong); g.graph shares its sets (C108_graph_wrong). Proved for every history of methods that do not write into the arrays, with writes into the lists read."
  },
  {
   "property": "C109",
   "status": "partial",
   "theorems": [
    "Pytimize.Props.C109_partial",
    "Pytimize.Props.C109_none_wrong",
    "Pytimize.Props.C109_loops_wrong"
   ],
   "note": "False: None for min x s.t. x >= 1 (C109_none_wrong), ValueError for dependent equations, and solve loops for ever on a program with four inequalities in four variables that has an optimal solution (C109_loops_wrong). Proved: exactly what solve answers on programs in SEF, programs whose variables, free variables and inequalities are not twice as many as rows, and programs without equations whose origin is feasible, for data with bounded denominators and subdeterminants: an optimal solution, None, or ValueError (C109_partial)."
  },
  {
   "property": "C110",
   "status": "partial",
   "theorems": [
    "Pytimize.Props.C110_outcome",
    "Pytimize.Props.C110_partial",
    "Pytimize.Props.C110_number_wrong",
    "Pytimize.Props.C110_short_wrong"
   ],
   "note": "False as documented: a number for the one new end raises TypeError and leaves an arc without its end node, on every digraph (C110_number_wrong); a tuple of one number leaves a half-added arc (C110_short_wrong). Proved for all digraphs, arcs and demands: the exception, arcs and nodes after the call (C110_outcome), and when it succeeds (C110_partial)."
  },
  {
   "property": "C111",
   "status": "partial",
   "theorems": [
    "Pytimize.Props.C111_rows",
    "Pytimize.Props.C111_same_solutions_partial",
    "Pytimize.Props.C111_integer_partial",
    "Pytimize.Props.C111_no_multiple_partial",
    "Pytimize.Props.C111_leading_zero_wrong",
    "Pytimize.Props.C111_three_rows_wrong",
    "Pytimize.Props.C111_tolerance_wrong"
   ],
   "note": "False as stated, in three ways: a nonzero row beginning with zero is never removed (C111_leading_zero_wrong, for every such system), a row that is the sum of two others stays (C111_three_rows_wrong), and of two independent rows with almost equal quotients one is removed, which adds solutions (C111_tolerance_wrong). Proved: the result is a sublist of the rows without zero rows and loses no solution, for all inputs (C111_rows); it has exactly the same solutions if no two compared quotients are close without being equal (C111_same_solutions_partial), in particular for whole numbers up to 30000 (C111_integer_partial); no later row is a multiple of an earlier one with nonzero first entry (C111_no_multiple_partial). The method is private and no other method calls it yet."
  },
  {
   "property": "C112",
   "status": "proved",
   "theorems": [
    "Pytimize.Props.C112_returns",
    "Pytimize.Props.C112_raises",
    "Pytimize.Props.C112_start"
   ],
   "note": "Over every ordered field, exact linear solve. C112_start: the norm at the start is not looked at, so a stationary start with singular Hessian raises."
  },
  {
   "property": "C113",
   "status": "proved",
   "theorems": [
    "Pytimize.Props.C113_quadratic",
    "Pytimize.Props.C113_converges",
    "Pytimize.Props.C113_local"
   ],
   "note": "Over the real numbers, exact arithmetic. C113_quadratic gives the explicit rate on a ball with explicit constants, C113_local the textbook form."
  },
  {
   "property": "C114",
   "status": "partial",
   "theorems": [
    "Pytimize.Props.C114_quadratic_partial",
    "Pytimize.Props.C114_concave_wrong",
    "Pytimize.Props.C114_convex_wrong"
   ],
   "note": "False: on every negative definite quadratic newton_method for min returns the maximiser (C114_concave_wrong), and it overshoots on convex functions (C114_convex_wrong). Proved for convex quadratics (C114_quadratic_partial)."
  },
  {
   "property": "C115",
   "status": "partial",
   "theorems": [
    "Pytimize.Props.C115_float",
    "Pytimize.Props.C115_integer_partial",
    "Pytimize.Props.C115_float_step_wrong",
    "Pytimize.Props.C115_square_wrong",
    "Pytimize.Props.C115_newton_wrong",
    "Pytimize.Props.C115_newton_float"
   ],
   "note": "False: newton_method never makes a step on an array of integers (C115_newton_wrong, TypeError or LinAlgError), steepest_descent raises TypeError at the first step that is not an array of integers (C115_float_step_wrong), so for x^2 with the default parameters from every start but 0 (C115_square_wrong). Proved: exactly when it returns, and that it then returns the same point (C115_integer_partial). Uses NumPy's rule that in-place addition of floats to integers raises."
  },
  {
   "property": "C116",
   "status": "proved",
   "theorems": [
    "Pytimize.Props.C116_descent",
    "Pytimize.Props.C116_newton",
    "Pytimize.Props.C116_rate",
    "Pytimize.Props.C116_total"
   ],
   "note": "Over every ordered field (archimedean for C116_total), exact arithmetic. Strong convexity and smoothness as inequalities against touching quadratics."
  },
  {
   "property": "C117",
   "status": "proved",
   "theorems": [
    "Pytimize.Props.C117_distance",
    "Pytimize.Props.C117_rate"
   ],
   "note": "Over every ordered field, exact arithmetic; C117_distance needs no smoothness."
  },
  {
   "property": "C118",
   "status": "partial",
   "theorems": [
    "Pytimize.Props.C118_in_place_partial",
    "Pytimize.Props.C118_not_in_place",
    "Pytimize.Props.C118_shared_wrong",
    "Pytimize.Props.C118_constructor",
    "Pytimize.Props.C118_dual",
    "Pytimize.Props.C118_history_partial"
   ],
   "note": "calls with in_place=False, the constructor, copy and dual: proved for every program; calls in place: for programs whose attributes are different objects (kept by every call), false otherwise (C118_shared_wrong)"
  },
  {
   "property": "C119",
   "status": "proved",
   "theorems": [
    "Pytimize.Props.C119_certified",
    "Pytimize.Props.C119_integer",
    "Pytimize.Props.C119_optimal"
   ],
   "note": "in the floating-point model of the checks; overflow not modelled"
  },
  {
   "property": "C120",
   "status": "partial",
   "theorems": [
    "Pytimize.Props.C120_order",
    "Pytimize.Props.C120_distinct_partial",
    "Pytimize.Props.C120_distinct_wrong"
   ],
   "note": "different edges can share a hash when a name contains '-': a-b,c and a,b-c"
  },
  {
   "property": "C121",
   "status": "proved",
   "theorems": [
    "Pytimize.Props.C121_errors",
    "Pytimize.Props.C121_linear",
    "Pytimize.Props.C121_value",
    "Pytimize.Props.C121_int",
    "Pytimize.Props.C121_whole",
    "Pytimize.Props.C121_exact_wrong"
   ],
   "note": "C121_errors, C121_linear, C121_value, C121_int, C121_whole; C121_exact_wrong shows that the size condition of C121_whole is needed"
  },
  {
   "property": "C122",
   "status": "partial",
   "theorems": [
    "Pytimize.Props.C122_iterations_partial"
   ],
   "note": "polynomial bound proved for digraphs without opposite arcs, one-character names and at least one inner node; the claim is false otherwise (C14_endless_wrong, C13_name_wrong, C14_two_nodes_fail)"
  },
  {
   "property": "C123",
   "status": "partial",
   "theorems": [
    "Pytimize.Props.C123_letters_build",
    "Pytimize.Props.C123_letters_flow",
    "Pytimize.Props.C123_any_build_partial",
    "Pytimize.Props.C123_any_flow_partial",
    "Pytimize.Props.C123_one_letter_partial",
    "Pytimize.Props.C123_value_wrong",
    "Pytimize.Props.C123_twice_wrong"
   ],
   "note": "proved for letter-by-letter renamings and for one-letter names, and for any renaming except for the reported values and the removal of isolated nodes; false for other names (C123_value_wrong holds for every digraph without one-letter names)"
  },
  {
   "property": "C124",
   "status": "proved",
   "theorems": [
    "Pytimize.Props.C124_int",
    "Pytimize.Props.C124_program",
    "Pytimize.Props.C124_generate_error",
    "Pytimize.Props.C124_int_wrong"
   ],
   "note": "formulations on Python integers exact up to size 2^51, rows on mixed numbers within a relative error; the size bound is necessary"
  },
  {
   "property": "C125",
   "status": "partial",
   "theorems": [
    "Pytimize.Props.C125_shape",
    "Pytimize.Props.C125_kept_partial",
    "Pytimize.Props.C125_linear",
    "Pytimize.Props.C125_dropped_wrong",
    "Pytimize.Props.C125_program_wrong",
    "Pytimize.Props.C125_compare",
    "Pytimize.Props.C125_alone_partial"
   ],
   "note": "False: e + f*g with variables in all three is accepted and means e (C125_dropped_wrong, C125_program_wrong). Proved: what every expression evaluates to (C125_shape), which terms are kept (C125_kept_partial), and rejection of products standing alone (C125_alone_partial)."
  },
  {
   "property": "C126",
   "status": "proved",
   "theorems": [
    "Pytimize.Props.C126_to_sef",
    "Pytimize.Props.C126_auxiliary",
    "Pytimize.Props.C126_copies",
    "Pytimize.Props.C126_back",
    "Pytimize.Props.C126_basic",
    "Pytimize.Props.C126_round_trip",
    "Pytimize.Props.C126_nonbasic"
   ],
   "note": "Signed zeros, infinities and NaN are not modelled."
  },
  {
   "property": "C127",
   "status": "partial",
   "theorems": [
    "Pytimize.Props.C127_exact_partial",
    "Pytimize.Props.C127_maximum_partial",
    "Pytimize.Props.C127_errors",
    "Pytimize.Props.C127_negative_wrong",
    "Pytimize.Props.C127_capacity_wrong"
   ],
   "note": "False for capacities with many bits (C127_negative_wrong, C127_capacity_wrong) and, already without rounding, for runs that use a reversed arc. The exceptions (C127_errors) are settled for every digraph."
  },
  {
   "property": "C128",
   "status": "proved",
   "theorems": [
    "Pytimize.Props.C128_whole",
    "Pytimize.Props.C128_checked"
   ],
   "note": "end-to-end in binary64 for integer formulations; the vectors s and y may come from anywhere"
  },
  {
   "property": "C129",
   "status": "partial",
   "theorems": [
    "Pytimize.Props.C129_exact",
    "Pytimize.Props.C129_returns",
    "Pytimize.Props.C129_shape_partial",
    "Pytimize.Props.C129_rank_wrong",
    "Pytimize.Props.C129_residue_wrong"
   ],
   "note": "Exact shape of the result of to_rref in double precision, and that it returns; without the proviso on entries near one, and for the equations, false (C129_residue_wrong, C129_rank_wrong)"
  },
  {
   "property": "C130",
   "status": "proved",
   "theorems": [
    "Pytimize.Props.C130_exact",
    "Pytimize.Props.C130_simplex",
    "Pytimize.Props.C130_two_phase",
    "Pytimize.Props.C130_solve",
    "Pytimize.Props.C130_optimal",
    "Pytimize.Props.C130_doubles",
    "Pytimize.Props.C130_thirds_wrong"
   ],
   "note": "simplex, two_phase_simplex and solve in double precision equal exact arithmetic on totally unimodular integer programs, given that np.linalg.inv and det are exact on totally unimodular matrices"
  },
  {
   "property": "C131",
   "status": "proved",
   "theorems": [
    "Pytimize.Props.C131_linalg",
    "Pytimize.Props.C131_is_basis",
    "Pytimize.Props.C131_solve",
    "Pytimize.Props.C131_optimal",
    "Pytimize.Props.C131_singular_wrong"
   ],
   "note": "det and inv by Gaussian elimination are exact on totally unimodular matrices; is_basis, simplex, two_phase_simplex and solve follow"
  },
  {
   "property": "C132",
   "status": "proved",
   "theorems": [
    "Pytimize.Props.C132_exact",
    "Pytimize.Props.C132_near",
    "Pytimize.Props.C132_root",
    "Pytimize.Props.C132_optimal"
   ],
   "note": "exact without rounding; near-integers for every program; totally unimodular programs give best integral points"
  },
  {
   "property": "C133",
   "status": "proved",
   "theorems": [
    "Pytimize.Props.C133_stable"
   ],
   "note": "bipartite graphs with integer weights, every elimination order"
  },
  {
   "property": "C134",
   "status": "proved",
   "theorems": [
    "Pytimize.Props.C134_linalg",
    "Pytimize.Props.C134_is_basis",
    "Pytimize.Props.C134_solve",
    "Pytimize.Props.C134_optimal"
   ],
   "note": "inv, is_basis, simplex, two_phase_simplex and solve in double precision equal exact arithmetic on programs whose subdeterminants are powers of two"
  },
  {
   "property": "C135",
   "status": "proved",
   "theorems": [
    "Pytimize.Props.C135_two",
    "Pytimize.Props.C135_bounded",
    "Pytimize.Props.C135_best",
    "Pytimize.Props.C135_stable",
    "Pytimize.Props.C135_twenty"
   ],
   "note": "Under the size conditions stated. Missing nothing of the statement; programs whose subdeterminants are not powers of two (thirds, say) are outside it, since their intermediate numbers are rounded."
  },
  {
   "property": "C136",
   "status": "partial",
   "theorems": [
    "Pytimize.Props.C136_ctor",
    "Pytimize.Props.C136_history",
    "Pytimize.Props.C136_answers",
    "Pytimize.Props.C136_cut",
    "Pytimize.Props.C136_name_partial",
    "Pytimize.Props.C136_traverse",
    "Pytimize.Props.C136_stable_partial",
    "Pytimize.Props.C136_equal",
    "Pytimize.Props.C136_name_wrong",
    "Pytimize.Props.C136_order_wrong"
   ],
   "note": "Proved for construction, every history, the questions about the whole graph, cuts of collections, traversal up to the order of equally distant vertices, and stable sets (under the hypotheses of C85). The full statement is false: a cut or degree asked for by a name of several letters (C136_name_wrong), the order of a traversal and the exception of shortest_path (C136_order_wrong) depend on the names. By-name cuts hold for renamings that replace letters (C136_name_partial)."
  },
  {
   "property": "C137",
   "status": "partial",
   "theorems": [
    "Pytimize.Props.C137_same",
    "Pytimize.Props.C137_solve_partial",
    "Pytimize.Props.C137_double_partial",
    "Pytimize.Props.C137_order_partial",
    "Pytimize.Props.C137_integer_partial",
    "Pytimize.Props.C137_order_wrong"
   ],
   "note": "false for programs that are not regular: after exchanging two variables solve returns None for a program it solved before (C137_order_wrong); proved for regular programs, unimodular data in double precision and bounded integer programs"
  },
  {
   "property": "C138",
   "status": "proved",
   "theorems": [
    "Pytimize.Props.C138_units",
    "Pytimize.Props.C138_residual",
    "Pytimize.Props.C138_history",
    "Pytimize.Props.C138_integer"
   ],
   "note": "every digraph and both algorithms, in exact arithmetic"
  },
  {
   "property": "C139",
   "status": "partial",
   "theorems": [
    "Pytimize.Props.C139_monotone_partial",
    "Pytimize.Props.C139_set_partial",
    "Pytimize.Props.C139_add_partial",
    "Pytimize.Props.C139_remove_partial",
    "Pytimize.Props.C139_reverse_partial",
    "Pytimize.Props.C139_scale_partial",
    "Pytimize.Props.C139_raise_wrong",
    "Pytimize.Props.C139_remove_wrong",
    "Pytimize.Props.C139_reverse_wrong"
   ],
   "note": "false for ford_fulkerson when it uses reversed arcs (C139_raise_wrong, C139_remove_wrong, C139_reverse_wrong); proved for preflow_push and for runs of ford_fulkerson without reversed arcs, on digraphs without opposite arcs and with one-letter names"
  },
  {
   "property": "C140",
   "status": "partial",
   "theorems": [
    "Pytimize.Props.C140_constraint_partial",
    "Pytimize.Props.C140_constraint_none_partial",
    "Pytimize.Props.C140_variable_partial",
    "Pytimize.Props.C140_cost_partial",
    "Pytimize.Props.C140_prices_partial",
    "Pytimize.Props.C140_mixture_partial",
    "Pytimize.Props.C140_relax_partial",
    "Pytimize.Props.C140_tiny_wrong"
   ],
   "note": "for data within the precision of the tolerances (C140_*_partial); false otherwise (C140_tiny_wrong)"
  },
  {
   "property": "C141",
   "status": "partial",
   "theorems": [
    "Pytimize.Props.C141_handshake",
    "Pytimize.Props.C141_tree_partial",
    "Pytimize.Props.C141_edges",
    "Pytimize.Props.C141_add_edge",
    "Pytimize.Props.C141_add_leaf",
    "Pytimize.Props.C141_add_vertex",
    "Pytimize.Props.C141_cut",
    "Pytimize.Props.C141_remove",
    "Pytimize.Props.C141_remove_wrong",
    "Pytimize.Props.C141_stable_edge_partial",
    "Pytimize.Props.C141_stable_vertex_partial"
   ],
   "note": "the count for trees is false after remove_edge (C141_remove_wrong); stable sets under the conditions of C85"
  },
  {
   "property": "C142",
   "status": "partial",
   "theorems": [
    "Pytimize.Props.C142_arrays_partial",
    "Pytimize.Props.C142_accepted",
    "Pytimize.Props.C142_same_partial",
    "Pytimize.Props.C142_number",
    "Pytimize.Props.C142_move",
    "Pytimize.Props.C142_constant_wrong",
    "Pytimize.Props.C142_cancel_wrong"
   ],
   "note": "proved for texts whose constants survive (Simple); witnesses that a lost constant and a cancelled variable change the arrays"
  },
  {
   "property": "C143",
   "status": "partial",
   "theorems": [
    "Pytimize.Props.C143_constraint_partial",
    "Pytimize.Props.C143_integral_partial",
    "Pytimize.Props.C143_rhs_partial",
    "Pytimize.Props.C143_cost_partial",
    "Pytimize.Props.C143_split_partial",
    "Pytimize.Props.C143_floor_partial",
    "Pytimize.Props.C143_min_wrong",
    "Pytimize.Props.C143_knapsack_wrong"
   ],
   "note": "proved for maximisation programs of the kinds of C60_bounded_partial and C60_two_partial; witnesses for min and for a knapsack"
  },
  {
   "property": "C144",
   "status": "partial",
   "theorems": [
    "Pytimize.Props.C144_paths_partial",
    "Pytimize.Props.C144_most_partial",
    "Pytimize.Props.C144_disjoint_partial",
    "Pytimize.Props.C144_block_partial",
    "Pytimize.Props.C144_cut_partial",
    "Pytimize.Props.C144_positive_partial",
    "Pytimize.Props.C144_many_wrong",
    "Pytimize.Props.C144_few_wrong"
   ],
   "note": "proved on digraphs without opposite arcs and long names (as C09-C14); witnesses that ford_fulkerson after a reversed arc returns too many and too few"
  },
  {
   "property": "C145",
   "status": "partial",
   "theorems": [
    "Pytimize.Props.C145_unique",
    "Pytimize.Props.C145_idempotent",
    "Pytimize.Props.C145_path_partial",
    "Pytimize.Props.C145_path",
    "Pytimize.Props.C145_order",
    "Pytimize.Props.C145_next",
    "Pytimize.Props.C145_iteration_partial",
    "Pytimize.Props.C145_loop_partial",
    "Pytimize.Props.C145_lost_wrong",
    "Pytimize.Props.C145_gained_wrong",
    "Pytimize.Props.C145_loop_wrong"
   ],
   "note": "Uniqueness, idempotence, order and the next basis in full; path independence when both calls accept the basis; the in-place loop whenever simplex's loop ends. Witnesses where the 1e-10 test on determinants refuses a basis on one side only."
  },
  {
   "property": "C146",
   "status": "proved",
   "theorems": [
    "Pytimize.Props.C146_restart",
    "Pytimize.Props.C146_two_phase",
    "Pytimize.Props.C146_consistent",
    "Pytimize.Props.C146_one_iteration"
   ],
   "note": "Restart, consistency of the basis queries and the one-iteration criterion, for every program in SEF."
  },
  {
   "property": "C147",
   "status": "partial",
   "theorems": [
    "Pytimize.Props.C147_selected",
    "Pytimize.Props.C147_has_partial",
    "Pytimize.Props.C147_raises_partial",
    "Pytimize.Props.C147_none_wrong",
    "Pytimize.Props.C147_edges",
    "Pytimize.Props.C147_remove_wrong"
   ],
   "note": "has_spanning_tree and the ValueError of minimum_spanning_tree without remove_edge; what minimum_spanning_tree should return exists but None is returned, for every connected graph."
  },
  {
   "property": "C148",
   "status": "proved",
   "theorems": [
    "Pytimize.Props.C148_rhs",
    "Pytimize.Props.C148_rhs_infeasible",
    "Pytimize.Props.C148_costs",
    "Pytimize.Props.C148_lower_costs",
    "Pytimize.Props.C148_column",
    "Pytimize.Props.C148_column_enters"
   ],
   "note": ""
  },
  {
   "property": "C149",
   "status": "proved",
   "theorems": [
    "Pytimize.Props.C149_cuts",
    "Pytimize.Props.C149_degrees",
    "Pytimize.Props.C149_balance",
    "Pytimize.Props.C149_handshake",
    "Pytimize.Props.C149_complement",
    "Pytimize.Props.C149_minimum_cuts",
    "Pytimize.Props.C149_undirected",
    "Pytimize.Props.C149_undirected_degrees"
   ],
   "note": ""
  },
  {
   "property": "C150",
   "status": "proved",
   "theorems": [
    "Pytimize.Props.C150_descent",
    "Pytimize.Props.C150_newton",
    "Pytimize.Props.C150_gradient",
    "Pytimize.Props.C150_maximum_wrong"
   ],
   "note": "Exact arithmetic. C150_maximum_wrong: for 'max' the negated answer moves the wrong way under a shift."
  },
  {
   "property": "C151",
   "status": "partial",
   "theorems": [
    "Pytimize.Props.C151_simplex",
    "Pytimize.Props.C151_two_phase",
    "Pytimize.Props.C151_vertex",
    "Pytimize.Props.C151_edge",
    "Pytimize.Props.C151_unique",
    "Pytimize.Props.C151_value",
    "Pytimize.Props.C151_face",
    "Pytimize.Props.C151_not_unique",
    "Pytimize.Props.C151_unique_iff",
    "Pytimize.Props.C151_certificate",
    "Pytimize.Props.C151_solve_partial",
    "Pytimize.Props.C151_free_wrong"
   ],
   "note": "Everything proved except solve with free variables, where the claim is false: solve returns the middle of a segment (C151_free_wrong)."
  },
  {
   "property": "C152",
   "status": "proved",
   "theorems": [
    "Pytimize.Props.C152_arcs",
    "Pytimize.Props.C152_maximum",
    "Pytimize.Props.C152_cuts",
    "Pytimize.Props.C152_extreme",
    "Pytimize.Props.C152_same",
    "Pytimize.Props.C152_unique",
    "Pytimize.Props.C152_saturated",
    "Pytimize.Props.C152_raise",
    "Pytimize.Props.C152_raise_cuts",
    "Pytimize.Props.C152_lower",
    "Pytimize.Props.C152_returned"
   ],
   "note": "Holds with opposite arcs too: create_residual then loses weights (C08) but no arcs. Flows returned by the algorithms are covered under the hypotheses of C12 and C13."
  },
  {
   "property": "C153",
   "status": "proved",
   "theorems": [
    "Pytimize.Props.C153_returns",
    "Pytimize.Props.C153_raises",
    "Pytimize.Props.C153_exact",
    "Pytimize.Props.C153_step",
    "Pytimize.Props.C153_near",
    "Pytimize.Props.C153_stops",
    "Pytimize.Props.C153_accuracy",
    "Pytimize.Props.C153_floor"
   ],
   "note": "steps, stopping rule and errors for any solver and rounding; local convergence down to a floor given by the errors of callbacks, solver and rounding"
  },
  {
   "property": "C154",
   "status": "proved",
   "theorems": [
    "Pytimize.Props.C154_residual",
    "Pytimize.Props.C154_error",
    "Pytimize.Props.C154_inverse",
    "Pytimize.Props.C154_double",
    "Pytimize.Props.C154_canonical"
   ],
   "note": "Residual, failure and accuracy of np.linalg.inv for any rounding; explicit constants in double precision; entries of the canonical form"
  },
  {
   "property": "C155",
   "status": "proved",
   "theorems": [
    "Pytimize.Props.C155_solve",
    "Pytimize.Props.C155_noise",
    "Pytimize.Props.C155_near"
   ],
   "note": "np.linalg.solve and Newton's method with it in double precision"
  },
  {
   "property": "C156",
   "status": "proved",
   "theorems": [
    "Pytimize.Props.C156_det",
    "Pytimize.Props.C156_is_basis",
    "Pytimize.Props.C156_accepts",
    "Pytimize.Props.C156_integers",
    "Pytimize.Props.C156_singular_wrong"
   ],
   "note": "Error of det and agreement of is_basis with exact arithmetic within explicit bounds on size and entries; C156_singular_wrong shows that dependent columns with large entries are accepted"
  },
  {
   "property": "C157",
   "status": "proved",
   "theorems": [
    "Pytimize.Props.C157_iteration",
    "Pytimize.Props.C157_loop",
    "Pytimize.Props.C157_simplex"
   ],
   "note": "same bases and answer as the exact method when every decision keeps its margin; accuracy of the solution and certificate"
  },
  {
   "property": "C158",
   "status": "partial",
   "theorems": [
    "Pytimize.Props.C158_ray_partial",
    "Pytimize.Props.C158_ray_wrong"
   ],
   "note": "false as stated (C158_ray_wrong: a certificate that verify_unboundedness rejects); holds with the margins of C157 when clearly negative reduced costs precede the entering column"
  },
  {
   "property": "C159",
   "status": "proved",
   "theorems": [
    "Pytimize.Props.C159_two_phase",
    "Pytimize.Props.C159_solve"
   ],
   "note": "margins as hypotheses (Safe, Decided)"
  },
  {
   "property": "C160",
   "status": "proved",
   "theorems": [
    "Pytimize.Props.C160_solve"
   ],
   "note": "margins as hypotheses (Settled)"
  },
  {
   "property": "C161",
   "status": "proved",
   "theorems": [
    "Pytimize.Props.C161_simplex",
    "Pytimize.Props.C161_terminates",
    "Pytimize.Props.C161_two_phase",
    "Pytimize.Props.C161_answers",
    "Pytimize.Props.C161_solve_sef",
    "Pytimize.Props.C161_solve",
    "Pytimize.Props.C161_finds",
    "Pytimize.Props.C161_finds_sef"
   ],
   "note": "under the margins of C159 and C160 and for programs clear of the tolerances (Exact); the exceptions of C45 are hypotheses of C161_finds"
  },
  {
   "property": "C162",
   "status": "proved",
   "theorems": [
    "Pytimize.Props.C162_value_sef",
    "Pytimize.Props.C162_value",
    "Pytimize.Props.C162_finds",
    "Pytimize.Props.C162_finds_sef"
   ],
   "note": "under the margins of C159 and C160 and for programs clear of the tolerances (Exact); the exceptions of C45 are hypotheses of C162_finds"
  }
 ]
}