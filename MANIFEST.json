{"claims": [
 {"property": "C01", "status": "proved", "theorems": ["Verif.C01_levelset_permutation"], "note": "build_levelSet_CSC, all graphs with one diagonal entry per column"},
 {"property": "C02", "status": "proved", "theorems": ["Verif.C02_levels_respect_dependences"], "note": ""},
 {"property": "C03", "status": "proved", "theorems": ["Verif.C03_levels_longest_path"], "note": ""},
 {"property": "C04", "status": "proved", "theorems": ["Verif.C04_error_code_exact"], "note": "-1 also for acyclic graphs with n levels"},
 {"property": "C05", "status": "proved", "theorems": ["Verif.C05_levelset_solve_eq_serial", "Verif.C05_levelset_solve_end_to_end", "Verif.C05_levelset_seq_eq_serial"], "note": "every interleaving of the rows of a level; end to end with build_levelSet_CSC"},
 {"property": "C06", "status": "proved", "theorems": ["Verif.C06_lbc_solve_eq_serial", "Verif.C06_lbc_seq_eq_serial"], "note": "every valid coarse schedule, every interleaving, arbitrary (bitwise) arithmetic"},
 {"property": "C07", "status": "proved", "theorems": ["Verif.C07_no_data_race"], "note": "accesses of the threads of one coarse level"},
 {"property": "C08", "status": "proved", "theorems": ["Verif.C08_serial_solve_correct"], "note": "exact field arithmetic"},
 {"property": "C09", "status": "proved", "theorems": ["Verif.C09_group_lbc_eq_serial", "Verif.C09_group_levelset_eq_serial"], "note": "sptrsv_csr_group_lbc, sptrsv_csr_group_levelset, fs_csr_executor_sgroup"},
 {"property": "C10", "status": "proved", "theorems": ["Verif.C10_components_exact"], "note": "every interleaving of single loads and stores, sequentially consistent"},
 {"property": "C100", "status": "proved", "theorems": ["Verif.FLevel.C100_level_set_bn", "Verif.FLevel.C100_level_set_bn_upper", "Verif.FLevel.C100_copies", "Verif.FLevel.C100_schedule", "Verif.FLevel.C100_later_columns_lost", "Verif.FLevel.C100_no_copies"], "note": "the exact level sets, both branches; dependences shown only by later columns are lost"},
 {"property": "C101", "status": "proved", "theorems": ["Verif.FLevel.C101_fused_levels", "Verif.FLevel.C101_schedule", "Verif.FLevel.C101_orphans_missing", "Verif.FLevel.C101_orphan_witness"], "note": "the exact level sets, including the supernodes that are never listed"},
 {"property": "C102", "status": "proved", "theorems": ["Verif.GGraph.C102_rows", "Verif.GGraph.C102_parallel", "Verif.GGraph.C102_group_dag", "Verif.GGraph.C102_circles", "Verif.GGraph.C102_long_cycle_unseen", "Verif.GGraph.C102_consecutive"], "note": "exact adjacency lists, all interleavings; negative witness for longer cycles"},
 {"property": "C103", "status": "proved", "theorems": ["Verif.Greedy.C103_greedy", "Verif.Greedy.C103_unique", "Verif.Greedy.C103_grouped_graph"], "note": "termination, characterisation by a specification with a unique solution, exact graph of the groups"},
 {"property": "C104", "status": "proved", "theorems": ["Verif.Greedy.C104_merge", "Verif.Greedy.C104_all_lost", "Verif.Greedy.C104_merge_cheaper"], "note": "guarded property and the loss of all groups above the guard"},
 {"property": "C105", "status": "proved", "theorems": ["Verif.Collect.C105_cn_groups", "Verif.Collect.C105_cn_ub", "Verif.Collect.C105_single_never_groups", "Verif.Collect.C105_single_ub", "Verif.Collect.C105_input_edges"], "note": "exact groups; undefined behaviour for every non-empty graph"},
 {"property": "C106", "status": "proved", "theorems": ["Verif.Aggr.C106_aggressive", "Verif.Aggr.C106_dense", "Verif.Aggr.C106_empty_column"], "note": "partition, parts, patterns and maximality; undefined behaviour for an empty column"},
 {"property": "C107", "status": "proved", "theorems": ["Verif.C107_groups", "Verif.C107_extra", "Verif.C107_ub", "Verif.C107_ub_feeder"], "note": "guarded theorem for runs that end, and the undefined read"},
 {"property": "C108", "status": "proved", "theorems": ["Verif.Inner.C108_merge", "Verif.Inner.C108_out_too_short", "Verif.Inner.C108_no_progress"], "note": "guarded theorem and both negative cases"},
 {"property": "C109", "status": "proved", "theorems": ["Verif.Ic0.C109_serial", "Verif.Ic0.C109_factor"], "note": "any arithmetic; real numbers for the product"},
 {"property": "C11", "status": "proved", "theorems": ["Verif.C11_components_terminate"], "note": "no infinite execution, no deadlock"},
 {"property": "C110", "status": "proved", "theorems": ["Verif.Ic0.C110_lbc", "Verif.Ic0.C110_levelset", "Verif.Ic0.C110_group_lbc", "Verif.Ic0.C110_group_levelset", "Verif.Ic0.C110_race_free", "Verif.Ic0.C110_levelset_end_to_end", "Verif.Ic0.C110_lbc_end_to_end", "Verif.Ic0.C110_valid_needed", "Verif.Ic0.C110_comm_needed"], "note": "all interleavings; guarded by commuting subtractions, with a witness that the guard is needed"},
 {"property": "C111", "status": "proved", "theorems": ["Verif.Ic0r.C111_serial", "Verif.Ic0r.C111_lbc", "Verif.Ic0r.C111_levelset", "Verif.Ic0r.C111_not_factor"], "note": "any arithmetic for the scaling; real numbers for the negative statement"},
 {"property": "C112", "status": "proved", "theorems": ["Verif.Ic0Demo.C112_grouping", "Verif.Ic0Demo.C112_grouping_lbc", "Verif.Ic0Demo.C112_lbc"], "note": "composition of C44, C102, C45, C55 and C110; the pattern for the inspectors and the one of the factor are the same, as in the demo"},
 {"property": "C113", "status": "proved", "theorems": ["Verif.P2P.C113_spmp_solve", "Verif.P2P.C113_p2p_solve", "Verif.P2P.C113_convert", "Verif.P2P.C113_spmp", "Verif.P2P.C113_hdagg_p2p", "Verif.P2P.C113_larger_team", "Verif.P2P.C113_no_openmp", "Verif.P2P.C113_smaller_team"], "note": "SpMP (constructTaskGraph, WAIT, NOTIFY, the barrier) is external: constructTaskGraph is an oracle with the assumption OracleOk, which is shown satisfiable; findings: a team larger than planned or a build without OpenMP reads out of bounds, a smaller team leaves rows unsolved"},
 {"property": "C114", "status": "proved", "theorems": ["Verif.Dagp.C114_levels", "Verif.Dagp.C114_pgraph", "Verif.Dagp.C114_schedule", "Verif.Dagp.C114_cyclic", "Verif.Dagp.C114_dagp_solver", "Verif.Dagp.C114_other_direction"], "note": "dagP is external: the assumption LibOk on it (graph of the columns with rows as origins of the edges, a part for each vertex, no cycle between parts) is shown satisfiable; which direction loadFromCSC really uses cannot be seen in the repository, the other one is refuted by a witness; get_h_level_set_V2 calls a function that does not exist"},
 {"property": "C115", "status": "proved", "theorems": ["Verif.C115_read_mtx", "Verif.C115_read_csc", "Verif.C115_read_pattern", "Verif.C115_readers_agree", "Verif.C115_csc_to_mtx", "Verif.C115_print_csc", "Verif.C115_print_csc_fd", "Verif.C115_round_trip", "Verif.C115_round_trip_exact", "Verif.C115_round_trip_csc", "Verif.C115_header_sound", "Verif.C115_comment_at_end_hangs", "Verif.C115_size_hangs", "Verif.C115_short_file", "Verif.C115_short_file_csc", "Verif.C115_long_word", "Verif.C115_long_comment", "Verif.C115_pattern_misread", "Verif.C115_array_misread", "Verif.C115_symmetry_lost"], "note": "the conversions of real numbers (%lg, >>, %10.3g, setprecision) are parameters with the assumptions ScanOk and FmtOk, shown satisfiable with integers; int is not bounded; std::sort is a parameter; files in array format are modelled but only the header theorem is about them"},
 {"property": "C116", "status": "proved", "theorems": ["Verif.C116_table", "Verif.C116_width", "Verif.C116_parse", "Verif.C116_duplicate_names", "Verif.C116_no_columns", "Verif.C116_stale_values", "Verif.C116_other_columns", "Verif.C116_comma", "Verif.C116_driver_rows", "Verif.C116_dagp_missing", "Verif.C116_mat_name", "Verif.C116_mat_name_dot"], "note": "values are strings already (toString is not modelled); files that cannot be opened are not modelled"},
 {"property": "C117", "status": "proved", "theorems": ["Verif.C117_evaluate", "Verif.C117_no_tests", "Verif.C117_only_last_checked", "Verif.C117_serial", "Verif.C117_serial_exact", "Verif.C117_agrees", "Verif.C117_wavefront", "Verif.C117_wavefront_chain", "Verif.C117_spmp_levels", "Verif.C117_spmp_larger_team", "Verif.C117_parallel_wavefront", "Verif.C117_scheduled"], "note": "the virtual functions are parameters of the harness; the clock gives any times; what SpMP returns is an assumption (LevelTasks.Ok)"},
 {"property": "C118", "status": "proved", "theorems": ["Verif.C118_serial", "Verif.C118_exact", "Verif.C118_tree_hdagg"], "note": "METIS returns a permutation (OrdersNodes); the conversion of values (%lg) is any that satisfies ScanOk; the file holds a lower triangle marked symmetric"},
 {"property": "C119", "status": "proved", "theorems": ["Verif.C119_characteristics", "Verif.C119_shares_at_most_one", "Verif.C119_statistic", "Verif.C119_balanced_not_zero", "Verif.C119_statistic_out_of_bounds", "Verif.C119_statistic_dagp", "Verif.C119_potential_gain", "Verif.C119_gain_bounds", "Verif.C119_gain_negative", "Verif.C119_metrics", "Verif.C119_metrics_accumulate"], "note": "double is an ordered field; divisions by zero are not meaningful; the average size of groups is a field copied by computeMetrics and left out"},
 {"property": "C12", "status": "proved", "theorems": ["Verif.C12_labels_in_range"], "note": "every reachable state"},
 {"property": "C120", "status": "proved", "theorems": ["Verif.C120_test", "Verif.C120_test_chain", "Verif.C120_random", "Verif.C120_default_seed", "Verif.C120_one_per_column", "Verif.C120_chain_fails"], "note": "reading the command line and directories is left out; the comparison with a tolerance is a parameter that finds equal numbers equal"},
 {"property": "C121", "status": "proved", "theorems": ["Verif.C121_demo", "Verif.C121_demo_metis", "Verif.C121_random", "Verif.C121_etree_chain", "Verif.C121_star_fails", "Verif.C121_file", "Verif.C121_file_metis"], "note": "command line, output and the table of times are left out; the read of levelCost behind its end (C69) is allowed; METIS returns a numbering"},
 {"property": "C122", "status": "proved", "theorems": ["Verif.C122_benchmark", "Verif.C122_disconnected", "Verif.C122_full_fails"], "note": "built with METIS, without SpMP, MKL and DAGP; command line, random mode, output and table of times are left out; the read of levelCost behind its end (C69) is allowed; METIS returns a numbering"},
 {"property": "C123", "status": "proved", "theorems": ["Verif.C123_average_size", "Verif.C123_consecutive", "Verif.C123_ratio", "Verif.C123_sorting_best", "Verif.C123_ratio_two", "Verif.C123_no_number", "Verif.C123_grouped", "Verif.C123_grouped_above_one", "Verif.C123_average_size_grouped", "Verif.C123_grouped_empty"], "note": "quotients are pairs of numerator and denominator; int overflow left out"},
 {"property": "C124", "status": "proved", "theorems": ["Verif.C124_evaluate", "Verif.C124_demo", "Verif.C124_program", "Verif.C124_disconnected", "Verif.C124_full_fails"], "note": "arithmetic abstract (updates commute, no rounding claim); random mode, CSV output and destructors left out"},
 {"property": "C125", "status": "proved", "theorems": ["Verif.C125_demo", "Verif.C125_program", "Verif.C125_not_factor"], "note": "arithmetic abstract, C125_not_factor over the reals; random mode, CSV output and destructors left out"},
 {"property": "C126", "status": "proved", "theorems": ["Verif.BcscMtx.C126_file", "Verif.BcscMtx.C126_round_trip", "Verif.BcscMtx.C126_constructor", "Verif.BcscMtx.C126_not_lower", "Verif.BcscMtx.C126_empty_block", "Verif.BcscMtx.C126_explicit_zero"], "note": "printing and scanning of real numbers is a parameter"},
 {"property": "C127", "status": "proved", "theorems": ["Verif.SpmpH.C127_glc_valid", "Verif.SpmpH.C127_glc_end_to_end", "Verif.SpmpH.C127_same_levels", "Verif.SpmpH.C127_upper_reversed", "Verif.SpmpH.C127_hdagg_never", "Verif.SpmpH.C127_oracle_exists"], "note": "SpMP is a parameter with the assumption LevelOracleOk, which C127_oracle_exists shows can be met; the conversion of the graph is modelled"},
 {"property": "C128", "status": "proved", "theorems": ["Verif.GenMtx.C128_matrices", "Verif.GenMtx.C128_consistent", "Verif.GenMtx.C128_without_metis_ub", "Verif.GenMtx.C128_unsymmetric_ub", "Verif.GenMtx.C128_caller_numbering"], "note": "METIS is a parameter with the assumption OrdersNodes"},
 {"property": "C129", "status": "proved", "theorems": ["Verif.GenMtx.C129_general", "Verif.GenMtx.C129_half_not_accepted", "Verif.GenMtx.C129_pattern", "Verif.GenMtx.C129_pattern_not_accepted", "Verif.GenMtx.C129_unsymmetric_pattern_ub"], "note": "METIS is a parameter; for patterns the assumption is that it answers for a graph it does not accept"},
 {"property": "C13", "status": "proved", "theorems": ["Verif.C13_computeCC_exact", "Verif.C13_computeCC_finishes"], "note": "All graphs, all growing window sequences, all interleavings, with and without assertions; costs in any commutative monoid (exact arithmetic)."},
 {"property": "C130", "status": "proved", "theorems": ["Verif.LbcMain.C130_print", "Verif.LbcMain.C130_print_levels", "Verif.LbcMain.C130_readable", "Verif.LbcMain.C130_file", "Verif.LbcMain.C130_file_metis", "Verif.LbcMain.C130_random", "Verif.LbcMain.C130_chain", "Verif.LbcMain.C130_star_fails"], "note": "METIS and the conversion of numbers in the file are parameters with assumptions OrdersNodes and ScanOk; the read of levelCost behind its end (C69) is allowed"},
 {"property": "C131", "status": "proved", "theorems": ["Verif.Mmio.C131_read", "Verif.Mmio.C131_rejects", "Verif.Mmio.C131_integer_unfilled", "Verif.Mmio.C131_short", "Verif.Mmio.C131_unsymmetric", "Verif.Mmio.C131_unsymmetric_rejects", "Verif.Mmio.C131_write", "Verif.Mmio.C131_round_trip", "Verif.Mmio.C131_shift", "Verif.Mmio.C131_return_codes", "Verif.Mmio.C131_write_integer"], "note": "The conversions %lg and %20.16g are parameters with the assumptions ScanOk and FmtOk"},
 {"property": "C132", "status": "proved", "theorems": ["Verif.DagTest.C132_sequential", "Verif.DagTest.C132_parallel", "Verif.DagTest.C132_level_sets", "Verif.DagTest.C132_throws"], "note": "The command line and the name of the matrix are left out; the numbers of the command line are parameters"},
 {"property": "C133", "status": "proved", "theorems": ["Verif.StatSp.C133_levels", "Verif.StatSp.C133_sched", "Verif.StatSp.C133_group_sched"], "note": "Quotients are rational numbers instead of double; times and the number of cores are left out"},
 {"property": "C134", "status": "proved", "theorems": ["Verif.Profile.C134_levels", "Verif.Profile.C134_groups", "Verif.Profile.C134_lbc"], "note": "The random mode, the times and the solves (C122, C57) are left out"},
 {"property": "C135", "status": "proved", "theorems": ["Verif.TextBlock.C135_print", "Verif.TextBlock.C135_read", "Verif.TextBlock.C135_read_unfinished", "Verif.TextBlock.C135_round_trip", "Verif.TextBlock.C135_round_trip_exact", "Verif.TextBlock.C135_minus_lost"], "note": "Characters outside ASCII, for which isspace is undefined, count as no white space"},
 {"property": "C136", "status": "proved", "theorems": ["Verif.DenseText.C136_read", "Verif.DenseText.C136_read_short", "Verif.DenseText.C136_read_refused", "Verif.DenseText.C136_print", "Verif.DenseText.C136_print_past_end", "Verif.DenseText.C136_round_trip", "Verif.DenseText.C136_constant"], "note": "The text of a value is a parameter with the laws ScanOk and FmtOk; sizes that do not fit into int are left out"},
 {"property": "C137", "status": "proved", "theorems": ["Verif.DenseRows.C137_print", "Verif.DenseRows.C137_determines", "Verif.DenseRows.C137_file"], "note": "The text of a value is a parameter without white space"},
 {"property": "C138", "status": "proved", "theorems": ["Verif.ArraySizes.C138_read", "Verif.ArraySizes.C138_read_blank", "Verif.ArraySizes.C138_end", "Verif.ArraySizes.C138_end_blank", "Verif.ArraySizes.C138_hangs", "Verif.ArraySizes.C138_round_trip"], "note": "Sizes that do not fit into int are left out"},
 {"property": "C139", "status": "proved", "theorems": ["Verif.P2PCount.C139_waits", "Verif.P2PCount.C139_total"], "note": "The sum, a double in the code, is a natural number in the model; exact up to 2^53"},
 {"property": "C14", "status": "proved", "theorems": ["Verif.C14_hdagg_complete", "Verif.C14_hdagg_throws_on_chains", "Verif.C14_debug_assertion_fails", "Verif.C14_zero_costs_lose_nodes"], "note": "NDEBUG build, sequential level-set variant. Findings: throws on chains/cycles, assertion of line 431 fails in debug builds, zero costs lose nodes."},
 {"property": "C15", "status": "proved", "theorems": ["Verif.C15_hdagg_respects_dependences", "Verif.C15_hdagg_together"], "note": "As C14; lower triangular graph when parts are sorted by node number. C15_hdagg_together: any acyclic graph, dependent nodes are in one part or in later coarse levels."},
 {"property": "C16", "status": "proved", "theorems": ["Verif.C16_hdagg_end_to_end"], "note": "All balance decisions, interleavings of inspector and executor, arbitrary arithmetic of the solver."},
 {"property": "C17", "status": "proved", "theorems": ["Verif.C17_packing_covers_components", "Verif.C17_zero_costs_lose_components"], "note": "Exact cost arithmetic in an ordered group with a division that is positive on positive costs; finding for zero costs."},
 {"property": "C18", "status": "proved", "theorems": ["Verif.C18_glc_valid"], "note": "NDEBUG build, sequential level-set variant; all balance decisions and interleavings."},
 {"property": "C19", "status": "proved", "theorems": ["Verif.C19_coarsened_valid", "Verif.C19_coarsened_valid_any_factor", "Verif.C19_chain_out_of_bounds", "Verif.C19_empty_graph_divides_by_zero"], "note": "All factors. Findings: WM[0] out of bounds when the level set fails, division by zero for n=0."},
 {"property": "C20", "status": "proved", "theorems": ["Verif.C20_post_order_topological", "Verif.C20_back_of_empty_stack", "Verif.C20_chains_contiguous"], "note": "Acyclic graph, diagonal entry first and once per column. The unused read of the emptied stack (line 260) is unspecified in the main theorem; the second theorem shows that read strictly it is undefined behaviour in every call on a non-empty graph."},
 {"property": "C21", "status": "proved", "theorems": ["Verif.C21_sparsification_reachability"], "note": "Both variants, every number of threads and every order of the racing writes; without OpenMP the function overflows a buffer (C21_serial_build_overflows)."},
 {"property": "C22", "status": "proved", "theorems": ["Verif.C22_sparsification_removes", "Verif.C22_sparsification_no_shortcut"], "note": "Columns are sublists of the input columns (chain edges of cliques are input edges); with sorted columns no edge is implied by two others."},
 {"property": "C23", "status": "proved", "theorems": ["Verif.C23_group_graph", "Verif.C23_group_dependences"], "note": "Any order of the iterations of the two parallel loops."},
 {"property": "C24", "status": "partial", "theorems": ["Verif.C24_tree_grouping_partial", "Verif.C24_numbers_not_lower", "Verif.C24_members_not_sorted"], "note": "Partition and acyclic quotient proved; the claims about group numbers and the order inside a group are false and refuted on a concrete graph."},
 {"property": "C25", "status": "proved", "theorems": ["Verif.C25_ungroup_sorted", "Verif.C25_ungroup_post_order", "Verif.C25_ungroup_plain", "Verif.C25_ungroup_exceptions"], "note": "Sorting by node number (lower triangular graph), by post order of an acyclic graph whose paths contain the dependences, and no sorting; the two error cases."},
 {"property": "C26", "status": "proved", "theorems": ["Verif.Sp.C26_csc_to_csr_keeps_matrix", "Verif.Sp.C26_csc_to_csr_keeps_pattern", "Verif.Sp.C26_csc_to_csr_arrays_keeps_matrix", "Verif.Sp.C26_round_trip", "Verif.Sp.C26_csr_to_csc_square", "Verif.Sp.C26_csr_to_csc_not_square", "Verif.Sp.C26_csr_to_csc_wrong_shape", "Verif.Sp.C26_csc_to_csr_no_rows"], "note": "csc_to_csr proved for every well-formed matrix with at least one row (both overloads); the no-row case reads p[-1]-like memory and is shown as a finding. csr_to_csc proved for square matrices; for non-square ones it is shown to be wrong."},
 {"property": "C27", "status": "proved", "theorems": ["Verif.Sp.C27_transpose", "Verif.Sp.C27_transpose_pattern", "Verif.Sp.C27_transpose_twice", "Verif.Sp.C27_no_rows"], "note": "Entries, sortedness and involution for all matrices with at least one row and column; no-row case shown."},
 {"property": "C28", "status": "proved", "theorems": ["Verif.Sp.C28_make_half", "Verif.Sp.C28_make_half_pattern"], "note": "Entry list is exactly the filtered entry list, order kept."},
 {"property": "C29", "status": "proved", "theorems": ["Verif.Sp.C29_make_full", "Verif.Sp.C29_make_full_symmetric", "Verif.Sp.C29_half_of_full", "Verif.Sp.C29_make_full_unsymmetric", "Verif.Sp.C29_make_full_empty"], "note": "Also: the output is symmetric; stype 0 inputs and empty matrices described."},
 {"property": "C30", "status": "proved", "theorems": ["Verif.Util.C30_inv_perm", "Verif.Util.C30_compute_inv_perm", "Verif.Util.C30_reorder_array", "Verif.Util.C30_round_trip"], "note": ""},
 {"property": "C31", "status": "proved", "theorems": ["Verif.Sp.C31_permute_general", "Verif.Sp.C31_needs_permutation"], "note": "The second theorem shows that the hypothesis on the permutation is needed."},
 {"property": "C32", "status": "proved", "theorems": ["Verif.C32_compute_etree", "Verif.C32_compute_etree_unsym", "Verif.C32_lower_not_supported", "Verif.C32_duplicate_makes_loop"], "note": "Parents are the first sub-diagonal non-zeros of the symbolic factor (inductive Fill); also the A'A case without duplicates. A duplicate in a column makes a column its own parent (shown)."},
 {"property": "C33", "status": "partial", "theorems": ["Verif.Util.C33_add_exact", "Verif.Util.C33_mult_partial", "Verif.Util.C33_mult_overflow_not_zero"], "note": "add_size_t proved in full. mult_size_t: flag and value correct when the product fits, flag cleared when it does not; the claim that it returns 0 on overflow is false, with a proved counterexample."},
 {"property": "C34", "status": "proved", "theorems": ["Verif.Lbc.C34_worst_fit", "Verif.Lbc.C34_no_node_lost", "Verif.Lbc.C34_balance", "Verif.Lbc.C34_unbalanced_beyond_intmax"], "note": "For every type of costs and every sorting order; the balance bound for ordered costs with a total below INT_MAX, with a counterexample beyond."},
 {"property": "C35", "status": "proved", "theorems": ["Verif.Lbc.C35_height_partition", "Verif.LevelCuts.cover", "Verif.Lbc.C35_no_level_ub", "Verif.Lbc.C35_zero_parameters_ub", "Verif.Lbc.C35_zero_step_ub"], "note": "Under the guard on the parameters stated in the property; three witnesses show undefined behaviour outside of it."},
 {"property": "C36", "status": "proved", "theorems": ["Verif.Lbc.C36_lbc_valid", "Verif.Lbc.C36_nonmonotonic_loses_nodes", "Verif.Lbc.C36_zero_parts_ub", "Verif.Lbc.C36_no_packing_ub", "Verif.Lbc.C36_throws_on_chains"], "note": "Valid schedule for every interleaving under the stated conditions; witnesses and a general theorem for the excluded cases."},
 {"property": "C37", "status": "proved", "theorems": ["Verif.Lbc.C37_bfs_topological"], "note": "For every window, in terms of the state the callers provide."},
 {"property": "C38", "status": "proved", "theorems": ["Verif.Util.C38_dense_to_csc", "Verif.Util.C38_no_columns"], "note": "At least one column; without columns the assertion reads an unallocated array (shown)."},
 {"property": "C39", "status": "partial", "theorems": ["Verif.Util.C39_triplets_partial", "Verif.Util.C39_add_diags_arrays_too_short", "Verif.Util.C39_add_diags_loses_values", "Verif.Util.tripSorted_iff"], "note": "Full for add_diags=false and for inputs without empty columns. With add_diags and an empty column the claim is false for every input: the arrays are never large enough (proved)."},
 {"property": "C40", "status": "proved", "theorems": ["Verif.C40_csr_supernodes", "Verif.C40_csc_supernodes", "Verif.C40_block_supernodes", "Verif.C40_block_supernodes_upper", "Verif.C40_dense_rows", "Verif.C40_dense_cols", "Verif.C40_block_limit_exceeded", "Verif.C40_off_diag_negative"], "note": "All three supernode finders. BCSCMatrix::supernodes allows one column more than its limit; off_diag_size of column supernodes is one too small (-1 is possible)."},
 {"property": "C41", "status": "proved", "theorems": ["Verif.Util.C41_rhs_row_sums", "Verif.Util.C41_solution_is_ones", "Verif.Util.C41_hdagg_pipeline"], "note": "Also the whole pipeline csc_to_csr, rhs_init, HDAGG, parallel solve."},
 {"property": "C42", "status": "proved", "theorems": ["Verif.Util.C42_test_unique"], "note": ""},
 {"property": "C43", "status": "proved", "theorems": ["Verif.C43_tree_post_order", "Verif.C43_tree_post_order_weight", "Verif.C43_child_first", "Verif.C43_etree_post_order", "Verif.C43_empty_asserts"], "note": "All forests; n = 0 fails the assertion in the code (C43_empty_asserts). Composed with compute_etree (C32)."},
 {"property": "C44", "status": "proved", "theorems": ["Verif.C44_csr_runs", "Verif.C44_csc_runs", "Verif.C44_naive_blocks", "Verif.C44_naive_zero_ub"], "note": "Groups, member and inverse arrays for any content of the output arrays; the groups are the maximal runs. Block size 0 is shown undefined."},
 {"property": "C45", "status": "proved", "theorems": ["Verif.C45_queue_levels", "Verif.C45_queue_levels_acyclic"], "note": "For graphs that store exactly one diagonal entry, first in each column; also describes what happens for cyclic graphs."},
 {"property": "C46", "status": "proved", "theorems": ["Verif.C46_tree_grouping", "Verif.C46_tree_grouping_bfs"], "note": "Both variants, all size limits and loop orders."},
 {"property": "C47", "status": "proved", "theorems": ["Verif.C47_etree", "Verif.C47_etree_covers", "Verif.C47_factor_same_reach"], "note": "All row-form inputs, debug and release."},
 {"property": "C48", "status": "proved", "theorems": ["Verif.C48_group_costs", "Verif.C48_node_costs", "Verif.C48_work_pos", "Verif.C48_empty_cost_overflows", "Verif.C48_ilu_break_loses_work"], "note": "An initially empty cost vector overflows (C48_empty_cost_overflows); SpILU0_UL with groups needs non-empty rows (C48_ilu_break_loses_work)."},
 {"property": "C49", "status": "proved", "theorems": ["Verif.C49_tree_hdagg", "Verif.C49_groups", "Verif.C49_banded_matrices_throw"], "note": "For matrices in which each row uses the unknown before it the solvers always throw (C49_banded_matrices_throw). Release build; the debug assertion that may fail is C14_debug_assertion_fails."},
 {"property": "C50", "status": "partial", "theorems": ["Verif.C50_tree_wavefront_partial", "Verif.C50_banded_returns_rhs", "Verif.C50_wrong_solution"], "note": "Refuted as stated: when one path visits all groups the level count -1 is not checked and the right-hand side is returned (C50_banded_returns_rhs, C50_wrong_solution). Proved in all other cases."},
 {"property": "C51", "status": "partial", "theorems": ["Verif.Sp.C51_copy_sparse", "Verif.Sp.C51_copy_from_to_partial", "Verif.Sp.C51_copy_from_to_same_pointers", "Verif.Sp.C51_copy_from_to_stale_pointers", "Verif.Sp.C51_number_empty_col"], "note": "copy_sparse and number_empty_col in full. copy_from_to violates the claim (it assigns dst->p[i] to itself): proved that it copies indices and values only, that the result is equal if the pointers were equal before, and a counterexample otherwise."},
 {"property": "C52", "status": "proved", "theorems": ["Verif.C52_grouping_solver"], "note": "End to end over SpTrsvCSR_Grouping, for every interleaving of the threads."},
 {"property": "C53", "status": "proved", "theorems": ["Verif.C53_csr_v2_ub"], "note": "Finding: undefined on every non-empty lower triangular matrix."},
 {"property": "C54", "status": "proved", "theorems": ["Verif.Lbc.C54_lbc_end_to_end"], "note": "From C36 and C06."},
 {"property": "C55", "status": "proved", "theorems": ["Verif.Lbc.C55_seq_lbc_valid", "Verif.Lbc.C55_zero_parts_ub", "Verif.Lbc.C55_throws_on_chains"], "note": "Always completes; limits: number of parts 0, chains and cyclic graphs."},
 {"property": "C56", "status": "proved", "theorems": ["Verif.Lbc.C56_lbc_demo_solver"], "note": "End to end: costs, inspector, optional sorting of the parts, parallel executor."},
 {"property": "C57", "status": "proved", "theorems": ["Verif.Lbc.C57_grouped_lbc_solver"], "note": "End to end: grouping, group graph, costs (of the last row of a group), inspector, optional sorting, parallel executor."},
 {"property": "C58", "status": "proved", "theorems": ["Verif.C58_supernodal_rows", "Verif.C58_supernodal_cols", "Verif.C58_schedule", "Verif.C58_null_csr_ub"], "note": "For every order of the unordered_set. Column supernodes without a CSR form dereference a null pointer."},
 {"property": "C59", "status": "proved", "theorems": ["Verif.C59_blocked_format", "Verif.C59_constructor", "Verif.C59_nothing_lost", "Verif.C59_supernode_rows", "Verif.C59_compress_ub", "Verif.C59_read_past_end", "Verif.C59_empty_column_ub", "Verif.C59_unsorted_loses"], "note": "createFormat reads the index behind a column before comparing, so without the last diagonal entry it reads past the array; unsorted columns lose entries; compressed_BCSC_to_CSC writes past its array for every matrix."},
 {"property": "C60", "status": "proved", "theorems": ["Verif.C60_transpose_symmetric", "Verif.C60_pattern", "Verif.C60_reordered", "Verif.C60_not_symmetric", "Verif.C60_bad_permutation", "Verif.C60_index_n_ub"], "note": "C60_index_n_ub is the finding: Perm[k] = n passes the check of line 309 and is used as an index."},
 {"property": "C61", "status": "proved", "theorems": ["Verif.C61_ereach", "Verif.C61_after_etree"], "note": "ereach, any elimination tree, and composed with compute_etree"},
 {"property": "C62", "status": "proved", "theorems": ["Verif.C62_pattern"], "note": "exact pattern of every column, accessed_nnz"},
 {"property": "C63", "status": "proved", "theorems": ["Verif.C63_counts", "Verif.C63_not_lower"], "note": "arithmetic in int and double without overflow/rounding"},
 {"property": "C64", "status": "proved", "theorems": ["Verif.C64_symbolic_factor", "Verif.C64_unsymmetric_ub", "Verif.C64_upper_ub"], "note": "the METIS permutation is a parameter, assumed to be a permutation; memory leaks not modelled"},
 {"property": "C65", "status": "proved", "theorems": ["Verif.C65_populate_children", "Verif.C65_heights", "Verif.C65_weighted_heights", "Verif.C65_weighted_efficient_height", "Verif.C65_efficient_height_differs", "Verif.C65_subtree_cost"], "note": "get_tree_height_efficient with weights: proved what it returns and that it differs"},
 {"property": "C66", "status": "proved", "theorems": ["Verif.C66_level_set_tree", "Verif.C66_children_earlier", "Verif.C66_single_node_undefined"], "note": "from two nodes on; the single node is proved undefined"},
 {"property": "C67", "status": "proved", "theorems": ["Verif.C67_post_order_splitting"], "note": "Proved with an invariant of the stack: every node of the stack except the last has its parent below it, finished parts are whole trees. The number of rounds is bounded by 2n."},
 {"property": "C68", "status": "proved", "theorems": ["Verif.LbcTree.C68_height_partitioning", "Verif.LbcTree.C68_sizes_misaligned"], "note": "Finding: one number of parts is stored in every round, a bound only in some rounds, so the numbers do not belong to the windows and the last window may get more than one part."},
 {"property": "C69", "status": "proved", "theorems": ["Verif.LbcTree.C69_forest_lbc", "Verif.LbcTree.C69_flat_forest", "Verif.LbcTree.C69_reads_past_end", "Verif.LbcTree.C69_chain_fails", "Verif.LbcTree.C69_one_node_ub", "Verif.LbcTree.C69_distance_one_ub"], "note": "The schedule under the condition that the out-of-bounds read of levelCost is harmless; without that condition for forests of at most two levels. The limits are proved: every forest with more than two levels is read out of bounds, chains fail, one node and minLevelDist = 1 overflow."},
 {"property": "C70", "status": "proved", "theorems": ["Verif.C70_add", "Verif.C70_add_pattern", "Verif.C70_other_stype", "Verif.C70_nnz_too_large"], "note": "The values, including the order of the additions, for arbitrary value types."},
 {"property": "C71", "status": "proved", "theorems": ["Verif.C71_unsymmetric", "Verif.C71_unsymmetric_pattern", "Verif.C71_same_triangle", "Verif.C71_other_triangle", "Verif.C71_no_rows_ub"], "note": "One theorem for each case of stype."},
 {"property": "C72", "status": "proved", "theorems": ["Verif.C72_dag_etree", "Verif.C72_tree_lbc", "Verif.C72_lower", "Verif.C72_chain_fails", "Verif.C72_double_delete"], "note": "The schedule under the condition that the out-of-bounds read of levelCost (C69) is harmless."},
 {"property": "C73", "status": "proved", "theorems": ["Verif.C73_lbc_tree_demo", "Verif.C73_lbc_tree_runtime"], "note": "Composition of C72, C48 and C06."},
 {"property": "C74", "status": "proved", "theorems": ["Verif.C74_chain_grouping", "Verif.C74_unsorted_ub", "Verif.C74_empty_ub"], "note": "For sorted columns with the diagonal first; unsorted columns and the empty graph are undefined behaviour (concrete witnesses)."},
 {"property": "C75", "status": "proved", "theorems": ["Verif.Final.C75_final_dag"], "note": "Full statement."},
 {"property": "C76", "status": "proved", "theorems": ["Verif.Final.C76_entry_schedule", "Verif.Final.C76_columns_sorted"], "note": "Full statement; the sort is modelled as a stable insertion sort."},
 {"property": "C77", "status": "proved", "theorems": ["Verif.Final.C77_supernode_schedule", "Verif.Final.C77_split_listed_twice"], "note": "The condition that no supernode is split is needed: a split supernode is listed twice (witness)."},
 {"property": "C78", "status": "proved", "theorems": ["Verif.Final.C78_node_level"], "note": "Full statement."},
 {"property": "C79", "status": "proved", "theorems": ["Verif.C79_row", "Verif.C79_rows", "Verif.C79_stale", "Verif.C79_one_row", "Verif.C79_upper"], "note": "the hypotheses of C79_row hold again after each call (C79_rows)"},
 {"property": "C80", "status": "proved", "theorems": ["Verif.C80_coarsen", "Verif.C80_dep", "Verif.C80_undefined"], "note": ""},
 {"property": "C81", "status": "proved", "theorems": ["Verif.C81_merge_graph", "Verif.C81_merge_graph_csc", "Verif.C81_csc_empty", "Verif.C81_partial_order"], "note": ""},
 {"property": "C82", "status": "proved", "theorems": ["Verif.C82_perm_graph", "Verif.C82_perm", "Verif.C82_partition"], "note": ""},
 {"property": "C83", "status": "proved", "theorems": ["Verif.C83_perm_symmetric", "Verif.C83_partition_symmetric", "Verif.C83_never_accepted", "Verif.C83_one_direction", "Verif.C83_missing_diagonal_ub", "Verif.C83_unsymmetric"], "note": ""},
 {"property": "C84", "status": "proved", "theorems": ["Verif.C84_coarsened", "Verif.C84_not_blocks", "Verif.C84_own_block"], "note": ""},
 {"property": "C85", "status": "proved", "theorems": ["Verif.C85_reorder", "Verif.C85_with_metis", "Verif.C85_without_metis", "Verif.C85_unsymmetric_ub"], "note": ""},
 {"property": "C86", "status": "proved", "theorems": ["Verif.C86_read", "Verif.C86_read_iff", "Verif.C86_too_many_runs", "Verif.C86_unsorted", "Verif.C86_to_solver", "Verif.C86_truncated"], "note": ""},
 {"property": "C87", "status": "proved", "theorems": ["Verif.C87_multi_levels", "Verif.C87_multi_levels_acyclic", "Verif.C87_no_copy"], "note": "the queue loop, all graphs and all numbers of copies"},
 {"property": "C88", "status": "proved", "theorems": ["Verif.Lbc.C88_csc_lbc_valid", "Verif.Lbc.C88_csc_lbc_solve", "Verif.Lbc.C88_one_node_ub", "Verif.Lbc.C88_two_chain_ub", "Verif.Lbc.C88_no_packing_ub", "Verif.Lbc.C88_diagonal_not_first"], "note": "all graphs under the stated guard; limits with witnesses"},
 {"property": "C89", "status": "proved", "theorems": ["Verif.PartW.C89_bfs_partition", "Verif.PartW.C89_bfs_greedy", "Verif.PartW.C89_bfs_no_parts_ub", "Verif.PartW.C89_weight_partition", "Verif.PartW.C89_weight_complete", "Verif.PartW.C89_weight_zero_loses", "Verif.PartW.C89_weight_target_loses"], "note": "all graphs, lists, weights and targets; limits with proofs"},
 {"property": "C90", "status": "proved", "theorems": ["Verif.Stat.C90_csr_counts", "Verif.Stat.C90_csr_reuse", "Verif.Stat.C90_ic0_counts", "Verif.Stat.C90_levelset_load", "Verif.Stat.C90_lbc_load", "Verif.Stat.C90_group_load", "Verif.Stat.C90_loads_sum", "Verif.Stat.C90_lbc_no_openmp_ub", "Verif.Stat.C90_levelset_no_openmp_ub", "Verif.Stat.C90_group_no_openmp_ub"], "note": "all matrices, schedules and assignments of iterations to threads; int overflow not modelled"},
 {"property": "C91", "status": "proved", "theorems": ["Verif.TestU.C91_random_square", "Verif.TestU.C91_random_null", "Verif.TestU.C91_random_none_ub", "Verif.TestU.C91_random_empty_ub", "Verif.TestU.C91_random_fixed_seed", "Verif.TestU.C91_random_prepared", "Verif.TestU.C91_equal_value", "Verif.TestU.C91_equal_range", "Verif.TestU.C91_equal_csc", "Verif.TestU.C91_equal_exact", "Verif.TestU.C91_equal_csc_nan", "Verif.TestU.C91_rhs_blocked"], "note": "all shuffles, densities, matrices and arithmetics"},
 {"property": "C92", "status": "proved", "theorems": ["Verif.SmallU.C92_tridiag", "Verif.SmallU.C92_tridiag_one_ub", "Verif.SmallU.C92_sparse2dense", "Verif.SmallU.C92_sparse2dense_sym", "Verif.SmallU.C92_sparse2dense_symmetric", "Verif.SmallU.C92_sparse2dense_value", "Verif.SmallU.C92_dense_roundtrip", "Verif.SmallU.C92_extract_diagonals", "Verif.SmallU.C92_one_based", "Verif.SmallU.C92_verify_diagonal", "Verif.SmallU.C92_tree_to_csc"], "note": "all sizes, values, matrices and forests"},
 {"property": "C93", "status": "proved", "theorems": ["Verif.Measure.C93_residual", "Verif.Measure.C93_residual_zero", "Verif.Measure.C93_norm", "Verif.Measure.C93_nan_ignored", "Verif.Measure.C93_time_median", "Verif.Measure.C93_strip_name", "Verif.Measure.C93_strip_name_no_ext"], "note": "all vectors, orders and paths"},
 {"property": "C94", "status": "proved", "theorems": ["Verif.PostGroup.C94_post_order_and_group", "Verif.PostGroup.C94_read_past_end_ub", "Verif.PostGroup.C94_repeated_entries"], "note": "all graphs with the stated form; what happens outside of it is shown on two graphs"},
 {"property": "C95", "status": "proved", "theorems": ["Verif.Blocked.C95_blocked_levels", "Verif.Blocked.C95_blocked_levels_ub"], "note": "correct under the stated condition on the memory behind the array; undefined without it, for every input"},
 {"property": "C96", "status": "proved", "theorems": ["Verif.Blocked.C96_blocked_schedule", "Verif.Blocked.C96_blocked_schedule_filled", "Verif.Blocked.C96_blocked_ub", "Verif.Blocked.C96_blocked_silent_race", "Verif.Blocked.C96_blocked_no_room"], "note": "valid under the stated condition on the pattern; two counterexamples without it"},
 {"property": "C97", "status": "proved", "theorems": ["Verif.Inspect.C97_compute_depth", "Verif.Inspect.C97_compute_depth_silent", "Verif.Inspect.C97_compute_depth_empty"], "note": "longest paths, and the exact cases in which nothing is written"},
 {"property": "C98", "status": "proved", "theorems": ["Verif.Inspect.C98_find", "Verif.Inspect.C98_find_absent", "Verif.Inspect.C98_sup2node", "Verif.Inspect.C98_sup2node_absent"], "note": "correct for values that occur; endless otherwise"},
 {"property": "C99", "status": "proved", "theorems": ["Verif.MergeG.C99_merge_graphs", "Verif.MergeG.C99_exact_if_single", "Verif.MergeG.C99_merge_loses", "Verif.MergeG.C99_merge_empty"], "note": "the exact edges of the graph the code builds, including the lost dependences"}
]}
