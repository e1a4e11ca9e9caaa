{"id": "C01", "title": "Level sets list every node exactly once", "statement": "If build_levelSet_CSC returns a number of levels L >= 0 for a dependence graph given in CSC form with one diagonal entry per column, then level_ptr[0..L] is strictly increasing from 0 to n and level_set[0..n) is a permutation of 0..n-1; no array access is out of bounds and the call terminates.", "quantifier": "every n, every CSC graph (any number of edges, duplicates allowed) with exactly one diagonal entry per column, every result of the call", "why_tests_cant": "Tests sample a few random matrices; the begin/end window shrinking and in-degree counting must be right for all graphs.", "anchors": ["src/hdagg/hdagg.cpp:build_levelSet_CSC", "utils/sparse_inspector.cpp:build_levelSet_CSC"]}
{"id": "C02", "title": "Levels respect all dependences", "statement": "In the level set returned by build_levelSet_CSC, for every dependence u->v (u != v) node u is in a strictly earlier level than v, and node_to_level agrees with level_ptr/level_set. In particular two nodes of one level never depend on each other.", "quantifier": "every graph as in C01, every edge of it", "why_tests_cant": "A wrong level only shows up as a numerical race for particular schedules; no finite set of runs excludes it.", "anchors": ["src/hdagg/hdagg.cpp:build_levelSet_CSC", "src/hdagg/hdagg.cpp:computingNode2Level"]}
{"id": "C03", "title": "Levels are as early as possible", "statement": "The level assigned to a node equals the number of edges of a longest dependence path ending in that node, so the number of levels is the critical path length plus one and every level is non-empty.", "quantifier": "every graph as in C01, every node", "why_tests_cant": "Optimality is a statement about all paths of the graph.", "anchors": ["src/hdagg/hdagg.cpp:build_levelSet_CSC"]}
{"id": "C04", "title": "The level-set error code is exact", "statement": "build_levelSet_CSC always terminates; it returns -1 exactly when the dependence graph has a path with at least n-1 edges, i.e. when it has a cycle or when it is acyclic with n levels; otherwise it succeeds. (A caller expects -1 only for cyclic graphs; acyclic graphs whose levels are all singletons are rejected too.)", "quantifier": "every graph as in C01, cyclic or not", "why_tests_cant": "Requires reasoning about all graphs, including all cyclic ones, and about non-termination.", "anchors": ["src/hdagg/hdagg.cpp:build_levelSet_CSC", "utils/sparse_inspector.cpp:build_levelSet_CSC"]}
{"id": "C05", "title": "Parallel level-set triangular solve equals the serial solve", "statement": "sptrsv_csr_levelset, run with the level set of the matrix, leaves in x bit for bit the same values as sptrsv_csr, whatever order the rows of one level are executed in and however their individual updates interleave.", "quantifier": "every lower triangular CSR matrix with the diagonal stored last, every right-hand side, every arithmetic (no algebraic law of +,*,/ is used), every interleaving of the iterations of a level", "why_tests_cant": "The number of interleavings is exponential; tests see one.", "anchors": ["example/sptrsv_src/sptrsv.cpp:sptrsv_csr", "example/sptrsv_src/sptrsv.cpp:sptrsv_csr_levelset"]}
{"id": "C06", "title": "Any valid coarse schedule gives the serial result", "statement": "sptrsv_csr_lbc, run with any schedule (level_ptr, part_ptr, node list) that lists every row once and orders each dependence (earlier coarse level, or same part and earlier position), leaves in x exactly the values of sptrsv_csr for every interleaving of the parts of a coarse level.", "quantifier": "every matrix, every valid schedule, every interleaving, every arithmetic", "why_tests_cant": "Quantifies over all schedules and all interleavings.", "anchors": ["example/sptrsv_src/sptrsv.cpp:sptrsv_csr_lbc", "example/sptrsv_src/sptrsv.cpp:sptrsv_csr_lbc_seq"]}
{"id": "C07", "title": "Valid schedules are free of data races", "statement": "While a coarse level of a valid schedule is executed, no memory location of x written by one part is read or written by another part of the same coarse level.", "quantifier": "every matrix, every valid schedule, every pair of parts of a coarse level", "why_tests_cant": "Data races are not observable by testing in a reliable way.", "anchors": ["example/sptrsv_src/sptrsv.cpp:sptrsv_csr_lbc", "example/sptrsv_src/sptrsv.cpp:sptrsv_csr_levelset"]}
{"id": "C08", "title": "The serial triangular solve solves the system", "statement": "Over exact arithmetic, after sptrsv_csr(n,Lp,Li,Lx,x) with x = b on entry, the vector x satisfies L x = b, for a lower triangular L whose diagonal entries (stored last in each row) are non-zero; x is the only such vector.", "quantifier": "every n, every lower triangular CSR matrix with non-zero diagonal, every right-hand side, over every field", "why_tests_cant": "A statement about all matrices and right-hand sides.", "anchors": ["example/sptrsv_src/sptrsv.cpp:sptrsv_csr"]}
{"id": "C09", "title": "Grouped executors equal the serial solve", "statement": "sptrsv_csr_group_lbc, sptrsv_csr_group_levelset and fs_csr_executor_sgroup, run with a schedule of groups whose expansion to rows is a valid row schedule, produce exactly the values of sptrsv_csr for every interleaving.", "quantifier": "every matrix, every grouping and schedule with a valid expansion, every interleaving", "why_tests_cant": "Quantifies over all groupings, schedules and interleavings.", "anchors": ["example/sptrsv_src/sptrsv.cpp:sptrsv_csr_group_lbc", "example/sptrsv_src/sptrsv.cpp:sptrsv_csr_group_levelset", "example/sptrsv_src/executor.cpp:fs_csr_executor_sgroup"]}
{"id": "C10", "title": "Parallel connected components are exact under every interleaving", "statement": "When parallel_cc returns, two nodes of the window of levels have the same label if and only if they are connected by dependences inside the window (directions ignored), whatever the interleaving of the reads and writes of the OpenMP threads was.", "quantifier": "every graph, every window of levels, every number of threads, every interleaving of individual loads and stores", "why_tests_cant": "The hooking loop races by design; only a proof over all interleavings excludes lost updates that split or join components.", "anchors": ["src/hdagg/hdagg.cpp:parallel_cc", "src/lbc_csc_dag.cpp:parallel_cc"]}
{"id": "C11", "title": "Parallel connected components terminate", "statement": "parallel_cc finishes under every interleaving: no execution performs infinitely many rounds, and the pointer jumping loop of a round always ends.", "quantifier": "every graph, window and interleaving", "why_tests_cant": "Livelock depends on the schedule.", "anchors": ["src/hdagg/hdagg.cpp:parallel_cc"]}
{"id": "C12", "title": "Window component labels keep every index in range", "statement": "During parallel_cc every label is the position of a node in the window's node list and is never larger than the node's own position, so all array accesses stay in bounds at every step.", "quantifier": "every graph, window, interleaving and intermediate state", "why_tests_cant": "An invariant of every intermediate state of every execution.", "anchors": ["src/hdagg/hdagg.cpp:parallel_cc"]}
{"id": "C13", "title": "Incremental component computation is exact", "statement": "computeCC, called for growing windows of levels while re-using the labels of the previous window, ends with labels that separate exactly the connected components of the new window, and reports their number and the cost of each component.", "quantifier": "every graph, every sequence of growing windows, every interleaving", "why_tests_cant": "Re-use of stale labels is correct only if every earlier state satisfies an invariant.", "anchors": ["src/hdagg/hdagg.cpp:computeCC"]}
{"id": "C14", "title": "HDAGG schedules every node exactly once", "statement": "The schedule computed by HDAGG lists each node exactly once and its level and part pointer arrays are well formed (start at 0, monotone, end at the number of parts / nodes), for every outcome of the load-balance tests, both with and without bin packing, and in both part orders.", "quantifier": "every acyclic graph with fewer levels than nodes, every positive cost vector, every number of cores >= 1, every sequence of accept/reject decisions of the floating-point balance test", "why_tests_cant": "The greedy loop has a state that depends on floating point tests and on stale chunk arrays; no test enumerates the decisions.", "anchors": ["src/hdagg/hdagg.cpp:HDAGG", "src/hdagg/hdagg.cpp:computeSchedule", "src/hdagg/hdagg.cpp:computeCC"]}
{"id": "C15", "title": "HDAGG schedules respect all dependences", "statement": "In the schedule computed by HDAGG, for every dependence u->v either u is in an earlier coarse level than v, or both are in the same part of a coarse level and u comes first.", "quantifier": "as C14, with a lower triangular graph when parts are sorted by node number", "why_tests_cant": "A violation is a rare race in the executor.", "anchors": ["src/hdagg/hdagg.cpp:HDAGG", "src/hdagg/hdagg.cpp:computeSchedule"]}
{"id": "C16", "title": "HDAGG end to end: parallel solve equals serial solve", "statement": "Running sptrsv_csr_lbc with the schedule HDAGG computed for the matrix gives exactly the values of sptrsv_csr.", "quantifier": "every lower triangular matrix with full diagonal whose graph has fewer levels than rows, all costs, cores, decisions, interleavings and arithmetic", "why_tests_cant": "End-to-end statement over all inputs and schedules.", "anchors": ["src/hdagg/hdagg.cpp:HDAGG", "example/sptrsv_src/sptrsv.cpp:sptrsv_csr_lbc"]}
{"id": "C17", "title": "Chunk packing assigns every component to exactly one core", "statement": "The packing loop of HDAGG always ends with chunk_array[0]=0 <= chunk_array[1] <= ... <= chunk_array[cores] = number of components, provided every component has positive cost; no access is out of bounds.", "quantifier": "every list of positive component costs, every number of cores >= 1", "why_tests_cant": "The loop re-computes its target after each core; off-by-one cases depend on the costs.", "anchors": ["src/hdagg/hdagg.cpp:HDAGG (lines 702-745)"]}
{"id": "C18", "title": "GLC_V2 schedules are complete and respect dependences", "statement": "The schedule computed by GLC_V2 lists each node exactly once, and orders every dependence as in C15.", "quantifier": "every acyclic graph with fewer levels than nodes, positive costs, cores >= 1, decisions", "why_tests_cant": "As C14/C15.", "anchors": ["src/hdagg/hdagg.cpp:GLC_V2"]}
{"id": "C19", "title": "Coarsened level schedule is complete and respects dependences", "statement": "The schedule computed by build_coarsened_level_parallel lists each node exactly once and orders every dependence as in C15.", "quantifier": "every acyclic graph with fewer levels than nodes, every coarsening factor", "why_tests_cant": "As C14/C15.", "anchors": ["src/hdagg/hdagg.cpp:build_coarsened_level_parallel", "src/hdagg/hdagg.cpp:getFinalScheduleDAG"]}
{"id": "C20", "title": "Post order is a topological order", "statement": "computePostOrder, called for an acyclic graph whose columns start with the diagonal entry, fills post_order with a permutation of 0..n-1 in which every node precedes all nodes that depend on it. (The code reads stack.back() of the emptied stack after every search; the value is unused, but the read is undefined behaviour.)", "quantifier": "every acyclic graph with the diagonal stored first in each column", "why_tests_cant": "A statement about depth-first search on all graphs.", "anchors": ["src/hdagg/hdagg.cpp:computePostOrder"]}
{"id": "C21", "title": "Partial sparsification preserves all dependences", "statement": "In the graph returned by partialSparsification node v is reachable from node u exactly when it is in the input graph.", "quantifier": "every lower triangular graph with sorted columns, every number of threads and every interleaving of the clique detection", "why_tests_cant": "Reachability preservation is a statement about all pairs and all graphs.", "anchors": ["src/hdagg/hdagg.cpp:partialSparsification"]}
{"id": "C22", "title": "Partial sparsification only removes edges", "statement": "Every edge of the graph returned by partialSparsification is an edge of the input or one of the chain edges of a detected clique, every node keeps its diagonal entry first, and the columns stay sorted.", "quantifier": "as C21", "why_tests_cant": "Universal over graphs.", "anchors": ["src/hdagg/hdagg.cpp:partialSparsification"]}
{"id": "C23", "title": "The group graph is the exact quotient", "statement": "buildGroupDAG returns, for every group g, exactly the group itself and the other groups that contain a successor of a member of g, each once, in increasing order (so the group itself comes first when dependences go to larger group numbers).", "quantifier": "every graph, every partition of its nodes into groups", "why_tests_cant": "Universal over graphs and partitions.", "anchors": ["src/hdagg/hdagg.cpp:buildGroupDAG"]}
{"id": "C24", "title": "Tree-based grouping is a partition with an acyclic quotient", "statement": "treeBasedGrouping puts each node in exactly one group, numbers the groups so that every dependence between different groups goes from a lower to a higher group number, and keeps the nodes of a group in increasing order.", "quantifier": "every lower triangular graph, every size limit", "why_tests_cant": "A cyclic quotient deadlocks or corrupts the solve only for particular graphs.", "anchors": ["src/hdagg/hdagg.cpp:treeBasedGrouping"]}
{"id": "C25", "title": "Ungrouping a schedule keeps it valid", "statement": "ungroupingScheduleAndApplyOrdering turns a valid schedule of groups into a schedule of the nodes that lists each node once and respects every dependence, for both orderings of the nodes inside a part.", "quantifier": "every graph, grouping with acyclic quotient and valid group schedule", "why_tests_cant": "Composition over all graphs, groupings and schedules.", "anchors": ["src/hdagg/hdagg.cpp:ungroupingScheduleAndApplyOrdering"]}
{"id": "C26", "title": "CSC to CSR conversion keeps the matrix", "statement": "csc_to_csr returns a CSR matrix with exactly the same entries (row, column, value), with column indices increasing within each row, without reading or writing out of bounds.", "quantifier": "every CSC matrix with in-range row indices", "why_tests_cant": "Universal over matrices.", "anchors": ["utils/sparse_utilities.cpp:csc_to_csr"]}
{"id": "C27", "title": "Transposing twice restores the matrix", "statement": "transpose_general returns the transposed matrix (entry (i,j,x) iff the input has (j,i,x)); applied twice to a matrix with sorted duplicate-free columns it returns the very same arrays.", "quantifier": "every CSC matrix", "why_tests_cant": "Universal over matrices.", "anchors": ["utils/sparse_utilities.cpp:transpose_general"]}
{"id": "C28", "title": "make_half keeps exactly one triangle", "statement": "make_half returns exactly the entries on and below (lower) or on and above (upper) the diagonal, in the original order.", "quantifier": "every square CSC matrix, both triangles", "why_tests_cant": "Universal over matrices.", "anchors": ["utils/sparse_utilities.cpp:make_half"]}
{"id": "C29", "title": "make_full is the symmetric closure", "statement": "make_full of a lower triangular matrix returns exactly the entries of the matrix and of its transpose, diagonal entries once; taking the lower half again gives back the same entries.", "quantifier": "every lower triangular CSC matrix", "why_tests_cant": "Universal over matrices.", "anchors": ["utils/sparse_utilities.cpp:make_full", "utils/sparse_utilities.cpp:make_half"]}
{"id": "C30", "title": "Inverse permutation", "statement": "inv_perm / compute_inv_perm return the inverse permutation; applying a permutation and then its inverse with reorder_array restores the array.", "quantifier": "every permutation of every length, every array", "why_tests_cant": "Universal over permutations.", "anchors": ["utils/sparse_utilities.cpp:inv_perm", "utils/sparse_utilities.cpp:compute_inv_perm", "utils/sparse_utilities.cpp:reorder_array"]}
{"id": "C31", "title": "Permuting a matrix relabels its entries", "statement": "permute_general returns the matrix whose entries are those of the input with the columns selected by the column permutation and the rows renamed by the row permutation.", "quantifier": "every matrix and pair of permutations", "why_tests_cant": "Universal over matrices and permutations.", "anchors": ["utils/sparse_utilities.cpp:permute_general"]}
{"id": "C32", "title": "Elimination tree", "statement": "compute_etree returns for every column j the smallest row index i > j such that L(i,j) is structurally non-zero in the symbolic factor of the symmetric matrix, or -1 when there is none.", "quantifier": "every symmetric matrix stored as an upper triangle", "why_tests_cant": "The path-compressed update is correct only as an invariant over all prefixes of all matrices.", "anchors": ["utils/etree.cpp:compute_etree", "utils/etree.cpp:update_etree"]}
{"id": "C33", "title": "Overflow-safe size arithmetic", "statement": "add_size_t and mult_size_t return the exact sum / product and leave ok unchanged when it fits in size_t, and otherwise return 0 and set ok to false; they return 0 once ok is false.", "quantifier": "all pairs of 64-bit operands", "why_tests_cant": "2^128 operand pairs.", "anchors": ["utils/utils.cpp:add_size_t", "utils/utils.cpp:mult_size_t"]}
{"id": "C34", "title": "Bin packing loses no node", "statement": "worst_fit_bin_pack distributes the nodes of the input components over the bins so that every node appears exactly once, every component stays one block with its nodes in order, the bin costs are the sums of the component costs, the number of bins does not exceed the limit, and (while the total cost is below INT_MAX) two bins differ by at most the largest component cost.", "quantifier": "every list of components, costs, bin limit >= 1, and every order in which std::sort may leave the components", "why_tests_cant": "Universal over component lists.", "anchors": ["src/lbc_utils.cpp:worst_fit_bin_pack", "src/lbc_utils.cpp:find_min"]}
{"id": "C35", "title": "Height partitioning covers all levels", "statement": "height_partitioning_DAG_trng returns boundaries that start at level 0, strictly increase and end at (or beyond) the last level, so that every level belongs to exactly one leveled partition.", "quantifier": "every level set with at least one level, and every pair of tuning parameters such that minLevelDist covers all levels or divRate >= 1 and minLevelDist + divRate >= 1 (other parameters lead to undefined behaviour, for which witnesses are proved)", "why_tests_cant": "Universal over level counts and parameters; the stepping formula is floating point.", "anchors": ["src/lbc_utils.cpp:height_partitioning_DAG_trng"]}
{"id": "C36", "title": "LBC coarsening is complete and respects dependences", "statement": "get_coarse_Level_set_DAG_CSC03_parallel never reads or writes out of bounds, passes its own verification, lists each node exactly once and orders every dependence as in C15; outside of the stated conditions it fails (proved witnesses).", "quantifier": "every acyclic graph with one diagonal entry per column in which no path visits all nodes, every non-zero number of parts, every pair of tuning parameters with both steps positive or a first window of all levels, bin packing or a first window of two levels, every interleaving of the component computations and every distribution of the windows over threads that respects their order", "why_tests_cant": "As C14/C15.", "anchors": ["src/lbc_csc_dag.cpp:get_coarse_Level_set_DAG_CSC03_parallel"]}
{"id": "C37", "title": "In-partition breadth first order is topological", "statement": "modified_BFS_CSC appends every unvisited node of the window exactly once to the list of its partition, and every node after all nodes of the window it depends on.", "quantifier": "every acyclic graph, window, set of finished nodes and node-to-partition map, with the in-degrees and visited marks the callers provide", "why_tests_cant": "Universal over graphs.", "anchors": ["utils/sparse_utilities.cpp:modified_BFS_CSC"]}
{"id": "C38", "title": "Dense to sparse conversion keeps the matrix", "statement": "dense_to_csc returns a CSC matrix with exactly the non-zero entries of the dense matrix, columns sorted by row.", "quantifier": "every dense matrix", "why_tests_cant": "Universal over matrices.", "anchors": ["utils/sparse_io.cpp:dense_to_csc"]}
{"id": "C39", "title": "Triplets to CSC keeps the matrix", "statement": "compress_triplets_to_csc stores exactly the given triplets, sorted by column and then row; with add_diags it additionally stores a zero diagonal for every empty column when the arrays are large enough.", "quantifier": "every list of triplets", "why_tests_cant": "Universal over inputs.", "anchors": ["utils/sparse_io.cpp:compress_triplets_to_csc"]}
{"id": "C40", "title": "Supernodes are maximal runs of columns with nested patterns", "statement": "createCSRSupernode, createCSCSupernode and BCSCMatrix::supernodes split 0..n-1 into consecutive ranges. Within a range every row (column) nests with the first one: a row is the first row continued by one entry per step, a column is the first column without its leading entries. A range is cut only at the width limit or where the nesting stops. The limit is the given one for the first two and the given one plus one for BCSCMatrix::supernodes. For sorted triangular matrices with a full diagonal the diagonal block of a range is dense.", "quantifier": "every matrix with ordered pointers and every width limit; with assertions on, createCSR/CSCSupernode need non-empty rows/columns", "why_tests_cant": "Universal over matrices.", "anchors": ["utils/SuperNodalTools.cpp:createCSCSupernode", "utils/SuperNodalTools.cpp:createCSRSupernode", "utils/BCSCMatrix.cpp:supernodes"]}
{"id": "C41", "title": "Right-hand side generator", "statement": "rhs_init computes the row sums of the matrix, so the solve with that right-hand side returns the all-ones vector in exact arithmetic.", "quantifier": "every matrix, over every field", "why_tests_cant": "Universal over matrices.", "anchors": ["utils/test_utils.cpp:rhs_init"]}
{"id": "C42", "title": "Uniqueness check", "statement": "test_unique returns true exactly when the vector is a permutation of 0..n-1, for vectors with entries in range.", "quantifier": "every vector", "why_tests_cant": "Universal over vectors.", "anchors": ["utils/test_utils.cpp:test_unique"]}
{"id": "C43", "title": "Tree post order", "statement": "tree_post_order returns n and lists every node of the forest exactly once; the descendants of a node are listed directly in front of it (so every child comes before its parent), siblings are in ascending order, or ordered by weight (cut off to 0..n-1, ties by index), and roots are in ascending order.", "quantifier": "every non-empty forest with parent[i] > i or -1, every weight array or none, assertions on or off", "why_tests_cant": "Universal over forests.", "anchors": ["utils/lfactor_creation.cpp:tree_post_order", "utils/sparse_inspector.cpp:dfs_tree"]}
{"id": "C44", "title": "Row groupings are partitions", "statement": "NaiveGrouping (block size at least 1), inspection_sptrsvcsr_v1 and inspection_spicocsc_v1 put every row in exactly one group, with consistent pointer, member and inverse arrays; the groups of the two inspections are exactly the maximal runs of consecutive rows linked by the inspected pattern, and NaiveGrouping with block size 0 is undefined.", "quantifier": "every matrix, every block size, every previous content of the output arrays", "why_tests_cant": "Universal over inputs.", "anchors": ["src/group.cpp:group::NaiveGrouping", "src/group.cpp:group::inspection_sptrsvcsr_v1", "src/group.cpp:group::inspection_spicocsc_v1"]}
{"id": "C45", "title": "Queue-based level sets are valid", "statement": "buildLevelSet_CSC_Queue lists every node once and puts every node in a later level than the nodes it depends on.", "quantifier": "every acyclic graph with diagonal first", "why_tests_cant": "Universal over graphs.", "anchors": ["utils/sparse_inspector.cpp:buildLevelSet_CSC_Queue"]}
{"id": "C46", "title": "Tree-based grouping gives bounded tree-shaped groups with an acyclic quotient", "statement": "treeBasedGrouping and treeBasedGroupingBFS always finish, put every node in exactly one non-empty group no larger than the size limit, whose members all lead to the same node along nodes with exactly one successor (so all nodes but one have exactly one successor); the groups are numbered by their smallest nodes; and no group depends on itself through other groups.", "quantifier": "every lower triangular graph with a diagonal entry in each column, every size limit, every order of the parallel loop", "why_tests_cant": "A cyclic quotient, a lost node or a group over the limit arises only for particular shapes of graph and visit orders.", "anchors": ["src/hdagg/hdagg.cpp:treeBasedGrouping", "src/hdagg/hdagg.cpp:treeBasedGroupingBFS"]}
{"id": "C47", "title": "buildETree returns the elimination tree, which covers all dependences", "statement": "buildETree always returns a tree with at most one edge from each node, to its parent in the elimination tree of the symmetric matrix with the given lower triangle; every dependence of the matrix, filled in or not, follows from the tree edges; and for a matrix with its fill-in stored the tree has exactly the reachability of the matrix.", "quantifier": "every matrix in row form, entries above the diagonal being ignored", "why_tests_cant": "A lost dependence depends on the path compression and appears only for particular combinations of rows.", "anchors": ["src/hdagg/hdagg.cpp:computeParents", "src/hdagg/hdagg.cpp:buildETree"]}
{"id": "C48", "title": "Node and group costs count the work of the kernel exactly", "statement": "costComputation returns for every node the number of matrix entries the chosen kernel touches in its iteration, and for every group the sum over the members; the result does not depend on the order of the parallel loop, and all costs are positive when every row and column has an entry.", "quantifier": "every matrix in both forms, every kernel, every partition into groups, every loop order", "why_tests_cant": "A wrong cost does not change the result of a solve; it only silently unbalances the schedule or, at zero, breaks the division of the work.", "anchors": ["src/hdagg/hdagg.cpp:costComputation"]}
{"id": "C49", "title": "The grouped HDAGG solvers give the serial solution or throw", "statement": "For the solvers SpTrSv_LL_Tree_HDAGG and SpTrSv_LL_Tree_HDAGG_BFS, with or without isLfactor and bin packing: if one dependence path visits all groups, build_set throws; otherwise it never makes an out-of-bounds access, the schedule it returns respects every dependence of the matrix, and the parallel solve gives the values of the serial solve.", "quantifier": "every lower triangular matrix, right-hand side and arithmetic, every number of threads, every order of the parallel loops, every balance decision and interleaving, release build", "why_tests_cant": "Eight stages with parallel loops and data-dependent decisions have to fit together; each test sees one combination.", "anchors": ["example/SpTRSV_runtime.h:SpTrSv_LL_Tree_HDAGG::build_set", "example/SpTRSV_runtime.h:SpTrSv_LL_Tree_HDAGG_BFS::build_set"]}
{"id": "C50", "title": "The grouped wavefront solver solves the system", "statement": "SpTrSv_LL_Tree_Wavefront_No_unPACK always completes and returns the values of the serial solve.", "quantifier": "every lower triangular matrix, right-hand side and arithmetic, every number of threads, order of the parallel loops and interleaving", "why_tests_cant": "The result is wrong exactly when one dependence path visits all groups, which depends on the sparsification and grouping of the whole graph.", "anchors": ["example/SpTRSV_runtime.h:SpTrSv_LL_Tree_Wavefront_No_unPACK::build_set", "example/sptrsv_src/sptrsv.cpp:sptrsv_csr_group_levelset"]}
{"id": "C51", "title": "Copying a matrix gives an equal matrix", "statement": "copy_sparse returns a matrix with the same dimensions, pointers, row indices and values; copy_from_to makes its target equal to its source; number_empty_col counts the columns without entries.", "quantifier": "every well-formed matrix with at least one column (copy_from_to: every target with enough space)", "why_tests_cant": "Universal over matrices; a test with a pre-filled target cannot see that copy_from_to never copies the pointers.", "anchors": ["utils/sparse_utilities.cpp:copy_sparse", "utils/sparse_utilities.cpp:copy_from_to", "utils/sparse_utilities.cpp:number_empty_col"]}
{"id": "C52", "title": "Grouped triangular solve of the demo", "statement": "The pipeline of the grouping demo (inspection_sptrsvcsr_v1, fs_csr_inspector_dep, flattening the group DAG, buildLevelSet_CSC_Queue and the grouped level-set executor) returns the solution of the serial forward substitution, without reading or writing out of bounds.", "quantifier": "every lower triangular matrix in CSR with the diagonal last in each row, every right-hand side, every interleaving of the threads", "why_tests_cant": "Universal over matrices and schedules; a missing edge of the group DAG shows only under some interleavings.", "anchors": ["example/sptrsv_demo_utils.h:SpTrsvCSR_Grouping", "src/group.cpp:group::inspection_sptrsvcsr_v1", "src/group_utils.cpp:fs_csr_inspector_dep", "src/sparse_inspector.cpp:buildLevelSet_CSC_Queue"]}
{"id": "C53", "title": "The second CSR inspection is undefined", "statement": "inspection_sptrsvcsr_v2 reads rCnt[-1] on every non-empty lower triangular matrix, so no result of it can be relied on.", "quantifier": "every non-empty lower triangular matrix, every content of the output arrays", "why_tests_cant": "An out of bounds read of one byte rarely changes the outcome of a test.", "anchors": ["src/group.cpp:group::inspection_sptrsvcsr_v2"]}
{"id": "C54", "title": "LBC end to end", "statement": "For the graph of a lower triangular matrix the solve with the schedule of get_coarse_Level_set_DAG_CSC03_parallel (SptrsvLBCDAGParallel of the demo) gives the values of the serial solve.", "quantifier": "every lower triangular matrix whose graph meets the conditions of C36, every right-hand side and arithmetic, every interleaving of inspector and executor", "why_tests_cant": "Universal over matrices and interleavings.", "anchors": ["example/sptrsv_demo_utils.h:SptrsvLBCDAGParallel", "src/lbc_csc_dag.cpp:get_coarse_Level_set_DAG_CSC03_parallel", "example/sptrsv_src/sptrsv.cpp:sptrsv_csr_lbc"]}
{"id": "C55", "title": "The sequential LBC inspector gives a valid schedule", "statement": "get_coarse_Level_set_DAG_CSC03 ends without an out-of-bounds access or failing assertion, and its coarse schedule lists every node exactly once and puts every dependence into a later coarse level or to a later position of the same part.", "quantifier": "every well-formed acyclic graph with one diagonal entry per column and at most INT32_MAX nodes in which no path visits all nodes, every cost vector, every number of parts but 0, tuning parameters that satisfy C35, every permutation chosen by the sort, every content of the scratch array", "why_tests_cant": "Universal over graphs and parameters; the labels of clashing components are merged by a scan that depends on the whole history.", "anchors": ["src/lbc_csc_dag.cpp:get_coarse_Level_set_DAG_CSC03", "src/lbc_utils.cpp:dfs_CSC_CC", "src/lbc_utils.cpp:make_unique"]}
{"id": "C56", "title": "The LBC solvers of the demo", "statement": "For a lower triangular matrix the set-up of SptrsvLBCDAG and of SptrsvLBC_W_Sorting (parts sorted by row number) gives a valid schedule, and the parallel solve sptrsv_csr_lbc with it returns the values of the serial solve.", "quantifier": "every lower triangular matrix with two rows of which neither depends on the other, every right-hand side and arithmetic, every interleaving, sorting on or off", "why_tests_cant": "Universal over matrices and interleavings; sorting the parts discards the order chosen by the inspector.", "anchors": ["example/sptrsv_demo_utils.h:SptrsvLBCDAG", "example/sptrsv_demo_utils.h:SptrsvLBC_W_Sorting", "src/lbc_csc_dag.cpp:get_coarse_Level_set_DAG_CSC03", "example/sptrsv_src/sptrsv.cpp:sptrsv_csr_lbc"]}
{"id": "C57", "title": "Grouping combined with LBC", "statement": "The set-up of SpTrsvCSR_Grouping_H2 schedules every row group exactly once and respects all dependences between groups, and sptrsv_csr_group_lbc with it returns the values of the serial solve.", "quantifier": "every lower triangular matrix that has two row groups of which neither depends on the other, every right-hand side and arithmetic, every interleaving, sorting on or off", "why_tests_cant": "Universal over matrices and interleavings; four components are chained.", "anchors": ["example/sptrsv_demo_utils.h:SpTrsvCSR_Grouping_H2", "src/group.cpp:group::inspection_sptrsvcsr_v1", "src/group_utils.cpp:fs_csr_inspector_dep", "src/lbc_csc_dag.cpp:get_coarse_Level_set_DAG_CSC03", "example/sptrsv_src/sptrsv.cpp:sptrsv_csr_group_lbc"]}
{"id": "C58", "title": "The supernode graph of SuperNodal is the dependence graph of its supernodes", "statement": "The DAG built by SuperNodal::createDepDAG has one node per supernode, sorted columns that start with the diagonal, and an edge s->t exactly if some row of t depends on some column of s; so a schedule that respects it is, expanded row by row, a schedule of the matrix.", "quantifier": "every lower triangular matrix with a full diagonal in both forms, every width limit, every iteration order of the hash set", "why_tests_cant": "Universal over matrices and over the unspecified order of an unordered_set.", "anchors": ["utils/SuperNodalTools.cpp:createDepDAG", "utils/SuperNodalTools.cpp:SuperNodal"]}
{"id": "C59", "title": "The blocked format BCSC stores the same matrix", "statement": "BCSCMatrix stores, for consecutive blocks of columns, every column with all rows that occur in its block: position p[s]+(j-super[s])*nrows[s]+k holds the k-th row of block s and the value of the matrix there (zero if it has none), sizes and offsets agree, and no entry is lost.", "quantifier": "every matrix with sorted columns and every partition of the columns, provided the last diagonal entry is stored; for the supernodes found by the library itself it is enough that no column is empty", "why_tests_cant": "Universal over matrices and partitions; wrong padding shows up only for particular patterns.", "anchors": ["utils/BCSCMatrix.cpp:calcSize", "utils/BCSCMatrix.cpp:createFormat", "include/aggregation/BCSCMatrix.h:generateBCSC", "utils/BCSCMatrix.cpp:compressed_BCSC_to_CSC"]}
{"id": "C60", "title": "transpose_symmetric permutes a symmetric matrix", "statement": "transpose_symmetric(A, Perm) returns the symmetric matrix whose stored triangle is that of A, with rows and columns renumbered by the inverse of Perm, every entry exactly once with its value, stored as the opposite triangle and with negated stype; calling it twice (the second time without permutation), as every demo does, gives the reordered matrix in the original triangle with sorted columns.  Matrices that are not square or carry no symmetry flag and arrays that are not permutations are refused.", "quantifier": "every square well-formed matrix with at least one column, every stype different from 0, every permutation or none; for refusal every array of n entries none of which is n itself (that value slips through the check and is used as an index)", "why_tests_cant": "Universal over matrices and permutations; four separate copies of the loops must agree.", "anchors": ["utils/sparse_utilities.cpp:transpose_symmetric", "example/lbc_demo.cpp:main"]}
{"id": "C61", "title": "ereach returns a row of the Cholesky factor in topological order", "statement": "Given the upper triangle of a symmetric matrix and its elimination tree, ereach(n, Ap, Ai, k, parent, s, w) returns top such that s[top..n-1] lists exactly the columns of the structural non-zeros of row k of the Cholesky factor, each once, ordered such that a column comes before every column it updates; the marks in w are restored, the path pushed from the bottom of s never runs into the stack at its top, and no parent -1 is followed.", "quantifier": "for every pattern-well-formed square matrix with the upper triangle stored (entries below the diagonal are ignored), every row k, every work arrays of sufficient length with non-negative marks", "why_tests_cant": "the two stacks share one array and marks are flipped in place; whether they collide or a mark is left behind depends on the shape of the elimination tree, and the claim relates the output to an inductively defined fill-in", "anchors": ["utils/sparse_inspector.cpp:935-954", "include/aggregation/sparse_inspector.h", "utils/lfactor_creation.cpp:310-325"]}
{"id": "C62", "title": "build_L_pattern_from_col_counts returns the pattern of the factor", "statement": "Given the upper triangle of a symmetric matrix, its elimination tree and the column counts of its Cholesky factor, build_L_pattern_from_col_counts returns a CSC pattern whose column j lists exactly the rows of the structural non-zeros of column j of the factor, diagonal first and in ascending order; all accesses are in bounds, no assertion fails, every slot of Li is written; accessed_nnz[k] is the number of entries of A in the columns of row k of the factor.", "quantifier": "for every pattern-well-formed square matrix with the upper triangle stored, in release and debug builds, whatever the uninitialised array Li contains", "why_tests_cant": "the row indices are scattered into uninitialised memory at positions governed by the counts; that every slot is hit exactly once follows from the theory of elimination trees, not from samples", "anchors": ["utils/lfactor_creation.cpp:310-360"]}
{"id": "C63", "title": "row_col_counts_symmetric computes the counts of the Cholesky factor", "statement": "Given the lower triangle of a symmetric matrix, its elimination tree and a post order of the tree, row_col_counts_symmetric returns true, ColCount[j] is the number of structural non-zeros of column j of the Cholesky factor (with the diagonal), RowCount[i], if asked for, that of row i, First[i] is the least post order position of a descendant of i, Level[i] the depth of i, and fl the sum of squares of the column counts; all accesses are in bounds, the union-find chains end and no parent -1 is followed. For a matrix with stype >= 0 it returns false.", "quantifier": "for every pattern-well-formed square matrix, every post order of its elimination tree, whatever the output arrays contain before, with and without RowCount", "why_tests_cant": "the counts are computed without forming the factor, by skeleton entries, first descendants and least common ancestors found with path compression; that the increments add up to the number of fill entries holds by a theorem on row subtrees, not by samples", "anchors": ["utils/lfactor_creation.cpp:97-308"]}
{"id": "C64", "title": "build_symbolic_simplicial_lfactor returns the symbolic Cholesky factor of the post-ordered matrix", "statement": "For a symmetric matrix with the lower triangle stored, build_symbolic_simplicial_lfactor accesses nothing out of bounds and fails no assertion; perm is the initial (METIS or identity) permutation followed by a post order of the elimination tree with siblings ordered by column count, iperm and ipost are the inverses; parent is the elimination tree of the matrix renumbered by perm and is post-ordered; col_counts are the column counts of its factor, flops the sum of their squares, and column j of L lists exactly the structural non-zeros of column j of its factor, ascending. With the upper triangle stored, or without symmetry flag, the call is undefined behaviour (proved).", "quantifier": "for every pattern-well-formed non-empty square matrix, every initial permutation, debug and release builds, whatever uninitialised memory contains", "why_tests_cant": "the counts are computed in the old numbering and used in the new one; that renumbering by a post order does not change the fill-in is a theorem about elimination trees, and eight functions must agree on conventions", "anchors": ["utils/lfactor_creation.cpp:363-431", "include/aggregation/lfactor_creation.h:11-29", "utils/sparse_utilities.cpp:273-474", "utils/sparse_utilities.cpp:1140-1153"]}
{"id": "C65", "title": "Children, heights and subtree costs of forests are exact", "statement": "For an array of parents of a forest, populate_children stores the children of every node in ascending order and counts them; without weights get_node_depth is the distance from the root and get_tree_height_bruteforce, get_tree_height and get_tree_height_efficient all return the largest distance; with non-negative weights the first two return the largest weight of a path to a root; compute_subtree_cost returns the sum of the weights of every subtree; all accesses are in bounds. get_tree_height_efficient with weights leaves out the weight of the leaf and so disagrees with get_tree_height (proved).", "quantifier": "for every forest with parents larger than children, any number of roots, every array of weights, whatever the output arrays contain before", "why_tests_cant": "the efficient height stops a climb as soon as a longer path has passed a node; that the maximum survives for every order of the leaves is an invariant over all forests", "anchors": ["utils/sparse_utilities.cpp:619-694", "utils/sparse_utilities.cpp:712-737"]}
{"id": "C66", "title": "build_level_set_tree_efficient groups the nodes of a forest by height", "statement": "For a forest with at least two nodes build_level_set_tree_efficient writes within its arrays, satisfies its assertion, and returns the largest height plus one; node2level is the height of every node, and the slice of levelSet of level k lists the nodes of height k in ascending order; so every node is in a later level than its children. With one node it writes out of bounds (proved).", "quantifier": "for every forest with at least two nodes, debug and release builds", "why_tests_cant": "levels are overwritten while climbing from every leaf and a climb may stop early; that the final levels are the heights for every shape of the forest is an inductive invariant", "anchors": ["utils/sparse_inspector.cpp:459-501", "src/lbc_tree.cpp:43-79"]}
{"id": "C67", "title": "Splitting a window of an elimination forest gives its trees", "statement": "post_order_spliting, called after populate_children on a window of a forest (nodes outside have the entry -2), terminates without an access outside of the arrays. Its parts contain every node of the window exactly once, every part is one whole tree of the window in which children precede their parents, the cost of a part is the sum of the costs of its nodes, and the label of a node is the number of its part.", "quantifier": "all forests, all windows whose nodes have their parents in the window or no parent, all cost types with an addition, all contents of the arrays that are written", "why_tests_cant": "The function walks with an explicit stack, marks and counters of unvisited children; whether it leaves a node out, visits one twice, splits a tree or does not stop depends on the shape and the numbering of the forest, of which tests see a few.", "anchors": ["utils/sparse_utilities.cpp:933-1065", "src/lbc_tree.cpp:230-291"]}
{"id": "C68", "title": "height_partitioning cuts the levels into windows", "statement": "height_partitioning as called by the LBC inspector for trees terminates without an access outside of its arrays, and its bounds cut the levels into at least one, all non-empty windows. Every window is given at least one part and never more than asked for, and every window after the first begins at least minLevelDist levels below the top. If innerParts is below 2 * rate ^ q there are at most q + 1 windows, where rate is the divisor, or 10 if the divisor is at most 1.", "quantifier": "all positive numbers of levels, all ascending level pointers, all integer values of innerParts, minLevelDist and divRate", "why_tests_cant": "Where the cuts fall depends on the sizes of all levels, the number of parts, the distance and the divisor; a bound beyond the levels, an empty window or an endless loop would show only for particular combinations.", "anchors": ["src/lbc_utils.cpp:263-345", "src/lbc_tree.cpp:157-164"]}
{"id": "C69", "title": "LBC of a forest gives a schedule that respects the tree order", "statement": "get_coarse_levelSet_tree terminates without writing outside of its arrays and returns a schedule with every node exactly once, in which every node comes after all of its descendants: in a later level, or behind them in the same part. Every forest with more than two levels makes it read levelCost one element behind its end (the value is not used); a chain of more than two nodes makes it also read levelPtr behind its end.", "quantifier": "all forests with at least two nodes that are not one single chain, all node costs, all divisors, and either minLevelDist at least 2, or at most one part, or at most two levels, or fewer windows than levels by the bound of C68; the value of levelCost behind its end being arbitrary", "why_tests_cant": "A wrong schedule is a data race in the solver that uses it, visible only for some trees, thread counts and timings; the reads behind the end of the arrays stay invisible as long as the memory there is mapped.", "anchors": ["src/lbc_tree.cpp:10-429", "src/lbc_utils.cpp:43-117", "src/lbc_utils.cpp:263-345"]}
{"id": "C70", "title": "add returns the weighted sum of two sparse matrices", "statement": "add(A, B, alpha, beta) returns a matrix which has an entry exactly where A or B has one; its value is the sum of all stored contributions alpha*A and beta*B at that place, taken in storage order; every column is sorted and has no repeated row. For patterns the same holds without values. Matrices with different stype give NULL. The field nnz of the result is the sum of the two numbers of entries and hence too large as soon as entries coincide.", "quantifier": "all well-formed matrices of equal shape with at least one column, sorted or not, with repeated entries or not, and all value types and weights", "why_tests_cant": "A test compares a few sums; errors in the row markers of the scatter show only for particular overlaps of columns of A and B.", "anchors": ["utils/sparse_utilities.cpp:1070-1114"]}
{"id": "C71", "title": "make_symmetric returns the requested triangle", "statement": "For a matrix with stype 0, make_symmetric(A, lower) returns the requested triangle of (A + A^T)/2 with the matching stype. For a stored triangle it returns the matrix itself if this triangle is requested, and else the transposed triangle. A matrix without rows and with stype 0 makes it use a NULL pointer.", "quantifier": "all well-formed square matrices with at least one column, all values of stype, both triangles, patterns and matrices with values", "why_tests_cant": "The result is a composition of four functions that depends on stype; a test covers a few matrices, usually with symmetric patterns, for which most errors have no effect.", "anchors": ["utils/sparse_utilities.cpp:1116-1130"]}
{"id": "C72", "title": "LBC on the elimination tree gives a schedule of the symbolic factor", "statement": "get_coarse_levelSet_DAG_CSC_tree computes the elimination tree of the symmetric matrix that stype describes and returns a schedule with every column exactly once, in which column v comes after column u whenever row v of column u of the symbolic factor is non-zero; for a lower triangular pattern with stype -1 or 0 this is a schedule of its dependences. If the elimination tree is a chain of more than two nodes, it reads behind the end of its arrays; if stype is greater than 1, it deletes the matrix twice.", "quantifier": "all well-formed square patterns and stype at most 1 whose elimination tree is not one single chain, all costs and divisors, minLevelDist at least 2 or fewer parts than twice the divisor (10 if it is at most 1); the value of levelCost behind its end being arbitrary", "why_tests_cant": "Whether a schedule derived from the elimination tree covers all dependences depends on the fill of the matrix; a violation is a data race that shows only for some matrices and timings.", "anchors": ["src/lbc_csc.cpp:299-349", "utils/sparse_utilities.cpp:1070-1130", "utils/etree.cpp:compute_etree"]}
{"id": "C73", "title": "The LBC solvers on the elimination tree give the serial solution", "statement": "The set-up of SptrsvLBC (demo) and of SpTrSv_LL_LBC (benchmark) ends normally, and sptrsv_csr_lbc with the resulting schedule gives exactly the values of the serial forward substitution, for every interleaving of the parallel iterations.", "quantifier": "all lower triangular matrices whose elimination tree is not one single chain, all right-hand sides, all arithmetics, all parameters with minLevelDist at least 2 or fewer parts than twice the divisor (10 if it is at most 1), all interleavings; the value of levelCost behind its end being arbitrary", "why_tests_cant": "A run shows one interleaving; a schedule that misses a dependence gives the right result most of the time.", "anchors": ["example/sptrsv_demo_utils.h:113-145", "example/SpTRSV_runtime.h:1630-1680", "src/lbc_csc.cpp:299-349", "example/sptrsv_src/sptrsv.cpp:sptrsv_csr_lbc"]}
{"id": "C74", "title": "chainGrouping groups exactly the chains of the graph", "statement": "chainGrouping returns a partition of the nodes into non-empty groups.  Two nodes are in one group exactly when they lie on one chain, where a chain is a path along which each node has one successor and the next node one predecessor.  The nodes of a group are listed in path order, and every dependence between groups goes to a group with a larger number.  The debug assertions hold.", "quantifier": "all graphs with at least one node in column form with the diagonal first and sorted columns, debug and release builds", "why_tests_cant": "The number of ways in which chains branch, join and interleave is unbounded, and the traversal order depends on all of them.", "anchors": ["src/hdagg/hdagg.cpp:1650-1783"]}
{"id": "C75", "title": "getFinalScheduleDAG returns the dependence graph of the parts of a schedule", "statement": "getFinalScheduleDAG returns the partition of the nodes into the non-empty parts of the schedule, in schedule order, together with the graph of these groups: group b depends on group a exactly when a node of b depends on a node of a.  Every dependence goes to a larger group number, so the graph is lower triangular with the diagonal first.  The debug assertions hold.", "quantifier": "all well-formed graphs with one diagonal entry per column, all valid schedules (also with empty parts), all orders of the parallel loops, debug and release builds", "why_tests_cant": "The claim relates arbitrary schedules with arbitrary graphs; a lost or added dependence shows up only for particular part boundaries.", "anchors": ["src/hdagg/hdagg.cpp:2484-2535", "example/SpTRSV_runtime.h:1020-1060"]}
{"id": "C76", "title": "twoDReordering keeps every dependence between the entries of the matrix", "statement": "twoDReordering returns a schedule of all stored entries of the matrix: each entry once, in the part of its row, with its row, position and column stored correctly.  Entries of one row keep their order unless their columns are inverted, and every use of an unknown comes after the diagonal entry of its row, in a later level or later in the same part.  Inside a part, the entries of a run of consecutive rows are ordered by their columns.", "quantifier": "all matrices in compressed row form, all valid schedules of the rows, all former contents of the result vector", "why_tests_cant": "Sorting blocks of consecutive rows by column mixes the entries of different rows; that no dependence is inverted for any matrix and schedule is not visible in examples.", "anchors": ["src/hdagg/hdagg.cpp:2402-2482", "include/aggregation/hdagg.h:40-53"]}
{"id": "C77", "title": "convertCNScheduleToSuperNode keeps the schedule of the rows", "statement": "If each group is a sequence of whole supernodes, then the schedule of supernodes returned by convertCNScheduleToSuperNode stands for exactly the same schedule of rows as the given schedule of groups: same levels, same parts, same order.  In particular it is valid for the same dependences.", "quantifier": "all partitions into groups and into supernodes such that no supernode is split, all schedules of the groups, all orders of the parallel loop", "why_tests_cant": "The equality of two expanded schedules for every partition is an unbounded claim; off by one errors in the part pointers show up only for later parts.", "anchors": ["src/hdagg/hdagg.cpp:1091-1135"]}
{"id": "C78", "title": "computingNode2Level gives the level of every node", "statement": "computingNode2Level returns a vector of n entries in which the entry of each node is the level that lists the node, whatever the vector held before.", "quantifier": "all level sets of n nodes, all former contents of the vector", "why_tests_cant": "Holds for every partition of the nodes into levels, including empty levels.", "anchors": ["src/hdagg/hdagg.cpp:315-329"]}
{"id": "C79", "title": "computeNoneZeroPatternOfRowK returns a row of the Cholesky factor in topological order", "statement": "Given the rows of the lower triangle of a symmetric matrix and its elimination tree, computeNoneZeroPatternOfRowK(n, Ap, Ai, k, parent, s, w) leaves in s[top..n-1] exactly the columns of the structural non-zeros of row k of the Cholesky factor, each once and before every column that it updates, then k; all marks in w are cleared again, no parent -1 is followed, and s is left such that the function can be called again for any other row. The old value of s[n-1] is read as a node: an uninitialised work array is out-of-bounds access; an entry above the diagonal leaves the tree; the assertion rejects n = 1.", "quantifier": "for every well-formed lower triangular pattern in row form, every row k, every work array s with a node in s[n-1], and every sequence of rows computed with the same work arrays", "why_tests_cant": "two stacks share an array whose last element is reserved but read before it is written; whether a stale value or a left-over mark matters depends on what was there before, and the result is defined by an inductive fill-in relation", "anchors": ["src/hdagg/hdagg.cpp:1327-1347", "include/aggregation/hdagg.h:295-297"]}
{"id": "C80", "title": "coarsen_k_times builds the quotient of a graph by blocks of k consecutive nodes", "statement": "For k > 0 and a non-empty graph, coarsen_k_times(n, nnz, Ap, Ai, stype, k) stays inside its arrays and returns a well-formed graph with ceil(n/k) nodes in which c is in column b, once, exactly if the input has an entry (v, u) with u / k = b and v / k = c; nnz of the result is its number of entries. A lower triangular graph stays lower triangular, a column with its diagonal keeps exactly one diagonal entry, and a diagonal stored first stays first; its dependences are exactly the dependences between different blocks. k = 0 divides by zero and n = 0 writes to a null pointer.", "quantifier": "for every well-formed graph with at least one node, every k > 0, every nnz at least the number of entries, with and without assertions", "why_tests_cant": "the work array of marks must be clean again after every block and the write position must never pass nnz, which depends on how many entries of a block fall together, for all graphs and block sizes including a last incomplete block", "anchors": ["utils/sparse_utilities.cpp:1179-1214", "include/aggregation/sparse_utilities.h:366"]}
{"id": "C81", "title": "merge_graph and merge_DAGs_with_partial_order put graphs one after the other", "statement": "merge_graph of m graphs on n nodes gives a well-formed graph on m*n nodes in which node q*n+j depends on the nodes graph q says and on node j of graph q-1, and on nothing else; merge_DAGs_with_partial_order does the same with given dependences between graph q and graph q+1 in place of j to j. Both stay inside their arrays; the result is lower triangular, acyclic, has one diagonal entry per column and has it first if the graphs do. nnz returned by merge_DAGs_with_partial_order is too large by (m-1)*n; the CSC form of merge_graph writes to a null pointer for n = 0.", "quantifier": "for every non-empty list of well-formed graphs on the same n nodes, and every list of at least m-1 well-formed dependence graphs", "why_tests_cant": "the sizes of the new arrays are sums over all graphs and must be met exactly by counters running through nested loops; acyclicity of the merged graph is about all paths", "anchors": ["utils/sparse_utilities.cpp:767-930"]}
{"id": "C82", "title": "metis_perm_general and metis_partition_general hand METIS the adjacency graph and return its answer", "statement": "For a square matrix, metis_perm_general and metis_partition_general stay inside their arrays and call METIS with the graph in which the neighbours of u are the columns other than u with an entry in row u; for a symmetric pattern without repeated entries that is an undirected graph without loops, as METIS requires. If METIS keeps its promise, perm is a permutation of the nodes; part has a part below k for each node, puts two nodes together exactly if METIS does, and uses part 0 unless k > n+1. The weights are 1 plus the number of entries of the column.", "quantifier": "for every well-formed square matrix, with or without values, every METIS that meets its specification, with and without assertions", "why_tests_cant": "METIS accepts any array; whether the graph is the adjacency graph of the matrix can only be said for all matrices by relating two counting passes through a transposed copy", "anchors": ["utils/metis_interface.cpp:119-170", "utils/metis_interface.cpp:240-318"]}
{"id": "C83", "title": "What metis_perm_symmetric and metis_partition_symmetric hand to METIS", "statement": "For a matrix of which one triangle with the full diagonal is stored, both functions stay inside their arrays and return the answer of METIS for a graph whose node u has all its neighbours in the matrix and, added at the end, node 0. The graph is therefore never one METIS accepts: node 0 is its own neighbour, and nodes not adjacent to node 0 have it in one direction only. If diagonal entries are missing the array of the neighbours is overrun. metis_perm_symmetric returns -1 for stype 0.", "quantifier": "for every well-formed square matrix with exactly one diagonal entry in every column, every METIS, with and without assertions", "why_tests_cant": "METIS answers something for such graphs, so a test of the result sees a permutation; that the graph is wrong shows only in the relation between the arrays and the matrix", "anchors": ["utils/metis_interface.cpp:45-116", "utils/metis_interface.cpp:172-237"]}
{"id": "C84", "title": "metis_partition_coarsened: which part each node gets", "statement": "For a matrix with symmetric pattern and stype >= 0, metis_partition_coarsened joins blocks of c consecutive nodes to the quotient graph and partitions it into pc; with fewer than c nodes it writes out of bounds; otherwise part[j] = pc[min(j, m-1)] for j < m-1+c and 0 above, m = ceil(n/c), all parts below k. So nodes of one block are separated whenever METIS separates blocks 0 and 1 and c >= 2; nodes get the part of their block if c = 1 or n = c.", "quantifier": "for every well-formed square matrix with symmetric pattern, every c, k > 0, every METIS that meets its specification", "why_tests_cant": "every result is some partition; the wrong block offset shows only by comparing with the block of each node, for all sizes", "anchors": ["utils/metis_interface.cpp:320-345"]}
{"id": "C85", "title": "The example programs prepare the matrix correctly: full matrix, METIS, permuted lower triangle, both storage forms", "statement": "Given a lower triangular matrix with full diagonal and stype != 0, the preparation in the example programs with METIS (make_full, metis_perm_general, make_half, transpose_symmetric twice, csc_to_csr) stays in bounds and yields the lower triangle of the symmetrically permuted matrix: entry (r,c,v) becomes (max(pi r, pi c), min(pi r, pi c), v), where pi is the inverse of the permutation METIS returned; it has full diagonal, no repeated entries, sorted columns, and its rows and columns together are a valid input for every solver. Without METIS the lower triangle of any square matrix with sorted columns and full diagonal is prepared the same way. With METIS and stype 0 a null pointer is dereferenced.", "quantifier": "for every lower triangular matrix, every METIS that returns a permutation for undirected graphs, with and without assertions", "why_tests_cant": "the six functions pass pointers, sizes and symmetry flags to each other; that the final matrix is the permuted one for every matrix and every permutation is a statement about their composition", "anchors": ["example/lbc_demo.cpp:66-81", "example/sptrsv_demo.cpp:79-97", "example/SpTRSV_runtime.cpp:82-103"]}
{"id": "C86", "title": "read_mtx: for which files the matrix is that of the file", "statement": "If the lines of a Matrix Market file are ordered by column and every column has an entry, read_mtx returns a well-formed matrix that has every line once, in the order of the file. For lines ordered by column and at least one line the result is right only if no column is empty or all entries are in the last column; a file whose column changes more than n times writes out of bounds; an unordered file may give a well-formed matrix with exchanged columns. For a lower triangular matrix with full diagonal, columns and rows ascending, the example programs go on to a valid input for the solvers, with and without METIS.", "quantifier": "for every file (list of lines within the announced dimensions), every n > 0", "why_tests_cant": "test matrices come from files that happen to have no empty column; the loop over runs of equal columns never looks at which column it is", "anchors": ["utils/sparse_io.cpp:16-63"]}
{"id": "C87", "title": "Level sets of several copies of a graph", "statement": "level_set_multi_graphs ends without an out-of-bounds access for every graph (cyclic ones included) that stores the diagonal first in each column and every number K >= 1 of copies. Node v of copy q is in level l exactly if l = d + q, where d is the length of a longest dependence path ending in v. For an acyclic graph every copy of every node is listed exactly once, every dependence inside a copy goes to a later level, the next copy of a node is exactly one level later, and there are K - 1 more levels than for one copy. K = 0 is undefined behaviour.", "quantifier": "for every well-formed graph with the diagonal first in each column, every K", "why_tests_cant": "the in-degrees of the copies are set with memset to 0x01010101, so the counters of the copies never reach them; that the result is still right depends on the order in which a queue delivers the nodes of a level and holds for reasons that no finite set of graphs shows", "anchors": ["utils/sparse_inspector.cpp:184-268"]}
{"id": "C88", "title": "The LBC inspector of lbc_csc.cpp: a valid schedule, on chains as well", "statement": "get_coarse_levelSet_DAG_CSC ends without an out-of-bounds access for every acyclic graph that stores the diagonal first in each column, has at least three nodes (or two, which do not form a chain cut at distance 1), and for sound tuning parameters with bin packing, or with an edge and distance at least 2. Its schedule lists every node exactly once and puts every dependence into a later coarse level or to a later position of the same part, so the parallel solve with it gives the values of the serial solve. Unlike the other LBC inspectors it accepts chains. One node, a chain of two nodes cut at distance 1, and no bin packing without an edge write behind finalPartPtr; a column that does not begin with its diagonal can lose nodes.", "quantifier": "for every such graph, all costs, all tuning parameters in the stated range, every arithmetic and every interleaving of the solve", "why_tests_cant": "whether the parts fit into finalPartPtr (n elements instead of n+1) depends on the windows; no finite set of graphs shows that n parts never occur above two nodes", "anchors": ["src/lbc_csc.cpp:15-296"]}
{"id": "C89", "title": "Partition by weight and by breadth-first search", "statement": "partition_by_bfs ends without an out-of-bounds access or failed assertion for every graph, all weights and at least one part. Its parts cover every node exactly once; the nodes are listed in the order of a breadth-first search (restarted at the smallest node not listed when nothing more can be reached), followed in increasing order by nodes that the search did not discover, which exist only if every part has reached its target. Every part but the last gets nodes exactly until its target weight is reached, or no node is left. Without parts it indexes set_temp[-1]. partition_by_weight fills its parts in the same way; in exact arithmetic with positive weights and its own target no node is lost, whereas with zero weights no node is assigned at all, and given targets can lose nodes.", "quantifier": "for every graph, list, weights, targets, number of parts and arithmetic (exact ordered field where stated)", "why_tests_cant": "the parts depend on all weights and on the whole graph; that no node is lost or listed twice has to hold for all of them", "anchors": ["utils/utils.cpp:57-160", "include/aggregation/utils.h:80-84"]}
{"id": "C90", "title": "Statistics of the solvers", "statement": "fs_csr_stat reports 2 operations and 3 accesses per entry left of the diagonal, 1 and 2 per row, and as reuse the number of rows that read the unknown just before them; ic0_csc_stat counts one operation per column and entry and two per update, one access per entry and comparison and three per update. With OpenMP the value that the three load statistics (level sets of groups, LBC schedule, LBC schedule of groups) report for a level is the largest difference between the loads (numbers of entries of the rows processed) of two threads, for every number of threads, assignment and order; the loads add up to the entries of the level. Without OpenMP (how CMakeLists.txt builds the library) the thread index is 1 and the counter array has length 1, so each of them writes out of bounds as soon as a level lists a row.", "quantifier": "for every matrix, level set, schedule, grouping, number of threads and assignment of iterations to threads", "why_tests_cant": "the assignment of iterations to threads is up to the runtime; the out-of-bounds write goes unnoticed by a test that does not look at the heap", "anchors": ["example/sptrsv_src/executor.cpp:34-265", "CMakeLists.txt"]}
{"id": "C91", "title": "Random matrices and comparisons of the tests", "statement": "random_square_sparse, for every shuffle and every density that is not negative, returns a square matrix whose columns all have min(int(density*n+1), n) entries, sorted, distinct and with the diagonal, and its lower half, converted as in the example programs, is a valid input of every solver and inspector; it returns a null pointer if there are more than INT32_MAX entries. With the default fixed seed all columns have the same rows, except that the diagonal replaces the first of them where missing. A density that truncates to zero entries per column, or n=0, is undefined behaviour. is_equal for matrices is true exactly if columns, nnz, pointers and indices agree and no value difference exceeds eps (so a NaN equals anything, and the number of rows is ignored), in exact arithmetic with eps=0 exactly if the matrices are the same; for vectors NaN makes it false. rhs_init_blocked stores the row sums of a blocked matrix.", "quantifier": "for every n, density, shuffle, values, matrices, vectors and arithmetic", "why_tests_cant": "the tests themselves rest on these functions; the guarantee must hold for every outcome of the random generator", "anchors": ["utils/test_utils.cpp:12-119", "include/aggregation/test_utils.h:42-80"]}
{"id": "C92", "title": "Small matrix utilities", "statement": "tridiag(n,a0,a1,a2) for n>=2 is the well-formed tridiagonal matrix with sorted columns, a1 on the diagonal, a0 above and a2 below it; for n=1 it writes out of bounds. sparse2dense stores in every cell the last value of that cell, 0 without one, and with stype +-1 fills the mirrored cell too, so the result is symmetric; it undoes dense_to_csc. extract_diagonals gives the position of the first diagonal entry of every column that has one and leaves the other elements uninitialised. convert_to_one_based shifts the row indices and moves the pointers but returns only zero values. verify_csc_diagonal, without empty columns, is true exactly if every column starts with its diagonal entry. tree_to_csc lists in column p the children of node p.", "quantifier": "for every n, value type, well-formed matrix, dense array and forest", "why_tests_cant": "results for all sizes and structures, including the uninitialised and out-of-bounds elements a test may not notice", "anchors": ["utils/sparse_utilities.cpp:94-102", "utils/sparse_utilities.cpp:117-160", "utils/sparse_utilities.cpp:738-765", "utils/sparse_io.cpp:113-130"]}
{"id": "C93", "title": "Residual, norm, median of times and file names", "statement": "In exact arithmetic residual is the largest absolute difference in the range (0 exactly if the vectors agree there) and norm the largest absolute value; NaN elements are ignored by both. time_median of at least one measurement returns one of them such that more than half are not above and at least half are not below it, whatever sorting algorithm is used. strip_name removes the directory and the last extension, also for names with dots and for directories with dots in front of a name without extension, where p2-p1-1 wraps around.", "quantifier": "for every vector, range, list of times, sorting function and path shorter than 2^63 characters", "why_tests_cant": "unbounded vectors and strings; the unsigned wrap-around must be harmless in every case", "anchors": ["utils/sparse_utilities.cpp:476-492", "utils/utils.cpp:10-27", "utils/utils.cpp:166-173"]}
{"id": "C94", "title": "Post order with grouping of chains in one pass", "statement": "For an acyclic graph whose columns start with the diagonal and have no repeated entries, computePostOrderAndGroup ends normally and all its debug assertions hold. post_order lists every node once, predecessors before successors. The groups cut the post order into contiguous non-empty ranges; two nodes are in the same group exactly if they are on the same chain of links (a link goes to the only successor of a node, whose only predecessor that node is), and every range is such a chain in order. The returned graph has a diagonal entry first in every column, no repeated entries, and an edge between two different groups exactly if there is a dependence between their nodes; its edges go to groups with larger numbers.", "quantifier": "for every well-formed acyclic graph and both build modes", "why_tests_cant": "a chain must be contiguous in the depth-first post order of every graph; the group graph must have the edges of every pair of groups", "anchors": ["src/hdagg/hdagg.cpp:71-213"]}
{"id": "C95", "title": "Level sets of a matrix stored by blocks of columns", "statement": "build_levelSet_BCSC does not bound the loop that advances begin: for every matrix with at least one block it reads past the end of inDegree. If in every round the memory behind the array holds a value other than 1 that stops the loop, the result is correct: the level pointers increase strictly from 0 to the number of blocks, every block is listed exactly once, and a block is in level l exactly if the longest path of dependences that ends in it has l dependences.", "quantifier": "for every well-formed acyclic matrix stored by blocks, every content of the memory behind the array and both build modes", "why_tests_cant": "a test passes or fails depending on what is behind the array; the levels must be longest paths for every pattern", "anchors": ["utils/sparse_inspector.cpp:125-181"]}
{"id": "C96", "title": "Coarse schedules of the blocked LBC inspector", "statement": "If of two blocks that depend on the same block one depends on the other, directly or not (in particular for the pattern of a Cholesky factor), the parameters leave room for the parts (innerParts >= 1; minDist >= 2 or one part or no path of two dependences; a dependence exists or there are more blocks than parts) and the read past the end of C95 stops the loop, getCoarseLevelSet_DAG_BCSC02 ends normally and its schedule is valid: every block once, every dependence to a later coarse level or to a later position of the same part. Without the condition on the pattern the merging of components is wrong: there are lower triangular matrices for which the behaviour is undefined, and others for which two dependent blocks are put into different parts of the same coarse level while all assertions of the debug build pass.", "quantifier": "for every well-formed acyclic matrix stored by blocks with that pattern, every cost vector, sorting function, slack memory and parameters with room", "why_tests_cant": "the tests use factors of a few matrices; the merging error needs three blocks that meet pairwise, and the schedule must be valid for all patterns", "anchors": ["src/lbc_blocked.cpp:15-294", "src/lbc_utils.cpp:76-119", "utils/sparse_utilities.cpp:556-588"]}
{"id": "C97", "title": "compute_depth stores longest paths, or nothing", "statement": "For a non-empty square matrix with one diagonal entry per column and no path of n - 1 dependences (n the number of columns), compute_depth stores for every node the length of a longest dependence path that starts in it and leaves the other entries of the array unchanged. If the graph has a cycle, or a path that runs through all nodes (in particular for one node), it silently leaves the whole array unchanged. A matrix without rows makes it use a null pointer.", "quantifier": "for every well-formed square matrix, with or without values, every content of the array and both build modes", "why_tests_cant": "the stored depth must be a longest path for every pattern, and the case in which nothing is written shows no error", "anchors": ["utils/sparse_inspector.cpp:888-908"]}
{"id": "C98", "title": "Search of the supernode of a node", "statement": "In an ordered array find returns a position of the value, for every value that occurs; for a value that does not occur it calls itself for ever. If every listed node is the first column of a supernode plus a multiple of the number of columns, sup2node_gen returns the numbers of these supernodes; if the first listed node is not, it never ends.", "quantifier": "for every ordered array of supernodes, every value and every list of nodes", "why_tests_cant": "a test searches a few values that occur; termination for absent values cannot be observed", "anchors": ["utils/sparse_inspector.cpp:556-585"]}
{"id": "C99", "title": "Joint dependence graph of three kernels", "statement": "merge_graphs returns a well-formed graph with three nodes per supernode and no repeated entries. The first third has an edge between two supernodes exactly if an entry of A joins them, and an edge from every supernode to its copy in the second third. The last third has an edge between two supernodes exactly if an entry of C joins them. From the second to the last third there is only the edge to the supernode of the smallest row of B in the columns of the supernode: if B joins a supernode to more than one supernode, the other dependences are lost. Without supernodes the behaviour is undefined.", "quantifier": "for every three matrices of the same size with the same supernodes whose blocked formats can be built", "why_tests_cant": "the lost dependences appear only if the columns of a supernode of B meet several supernodes, and then only as a race; the graph must be right for all patterns", "anchors": ["utils/sparse_inspector.cpp:736-886"]}
{"id": "C100", "title": "Level sets of several copies of a supernodal kernel", "statement": "level_set_bn computes the level sets of K copies of the dependences between supernodes, where a copy of a supernode also waits for the previous copy: the levels are not empty, no node is listed twice, level l lists exactly the nodes whose longest dependence path has l steps. Copy q of a supernode is q levels after its first copy. For a lower triangular matrix every copy of every supernode is listed exactly once, and if the first columns of the supernodes show all dependences every dependence leads to a later level. The dependences that only a later column of a supernode shows are ignored. The same holds for the branch for upper triangular matrices with the last column of every supernode. The call with no copies is undefined.", "quantifier": "for every well-formed square matrix, every partition of its columns into supernodes and every number of copies; with more than one copy for columns with at most 16843008 entries", "why_tests_cant": "a lost dependence or a copy that is released too early shows only as a race, and the second and later copies are only right because memset(.., 1, ..) writes the value 0x01010101", "anchors": ["utils/sparse_inspector.cpp:272-456"]}
{"id": "C101", "title": "Level sets of two supernodal kernels joined by a matrix", "statement": "bcsc_csc_bcsc_levelset computes the level sets of the supernodes of two kernels, where the first columns of the supernodes of A and C give the dependences inside the kernels and all columns of B give those of the second kernel on the first. For lower triangular A and C and a matrix B with an entry in the rows of every supernode, all supernodes of both kernels are listed exactly once and all these dependences lead to later levels. A supernode of the second kernel into which no dependence leads, and everything that depends on it, is missing in the result.", "quantifier": "for every three well-formed matrices of the same size and every partition of the columns into supernodes", "why_tests_cant": "a missing supernode means unfinished work without any error message, and needs a matrix with empty rows; the order must be right for every pattern", "anchors": ["utils/sparse_inspector.cpp:589-733"]}
{"id": "C102", "title": "Graphs of rows and groups built as adjacency lists", "statement": "fs_csr_inspector_dep appends row i to the list of node v exactly if row i has an entry in column v other than its last one; fs_ic0csc_inspector_group gives the same lists for every interleaving of its threads, and group s is in the list of group i exactly if a column of i has an entry in a row of s; Group_DAG returns the strictly increasing list of the other groups that a group has edges to; detectDAGCircle reports exactly the pairs of nodes with edges in both directions, so it does not see longer cycles; for groups of consecutive rows of a lower triangular matrix the graph of the groups has no cycle.", "quantifier": "for every well-formed matrix, every partition into groups, and every interleaving of the parallel loop", "why_tests_cant": "an edge that is missing only for some interleaving or some pattern shows as a race in the solver; a cycle detector that misses cycles passes all tests without them", "anchors": ["src/group_utils.cpp:30-97", "include/aggregation/group_utils.h:16-18", "src/Group/Group_Utils.cpp"]}
{"id": "C103", "title": "Greedy grouping of consecutive columns", "statement": "startGrouping ends for every matrix and every search space; its groups are the only groups that are intervals covering all columns such that column v+1 joins the group of column v exactly if a column of that group has an entry in row v+1 within the search space. node_group_idx, group_children and group_nnz describe these groups, and getGroupedCSCFormat gives a well-formed acyclic graph whose column j is group j followed by exactly the groups that depend on it.", "quantifier": "for every well-formed graph and every search space; the acyclic graph for graphs whose edges go to later nodes", "why_tests_cant": "termination and uniqueness are statements about all patterns; a group that skips a column still gives plausible output", "anchors": ["src/Group/Group.cpp:314-487", "include/aggregation/group.h"]}
{"id": "C104", "title": "Merging of small groups", "statement": "mergeSmallGroups with a threshold up to the number of entries leaves groups that are non-empty intervals covering all columns, whose boundaries are boundaries of the old groups, each of which has at least the threshold of entries; reading from left to right, a group below the threshold is joined with the cheaper one of the last group that stayed and the next group. With a larger threshold and at least two groups all groups are lost.", "quantifier": "for every well-formed matrix, every search space and every threshold", "why_tests_cant": "the loss needs a threshold above the size of the matrix, and the bound has to hold for the last group of every matrix", "anchors": ["src/Group/Group.cpp:488-551"]}
{"id": "C105", "title": "Grouping of collections of nodes", "statement": "The groups of startCNGrouping partition the columns into runs where i and i+1 share a group exactly if the second entry of column i is i+1, but building the compressed graph reads group_set after its end for every non-empty graph. startSingleChildGrouping never joins two nodes and has the same invalid read.", "quantifier": "for every well-formed graph", "why_tests_cant": "a read of one element after the end of a vector usually shows no effect; that two conditions exclude each other for all inputs is not seen from outputs", "anchors": ["src/Group/Group.cpp:553-730"]}
{"id": "C106", "title": "Supernodes inside the parts of a schedule", "statement": "aggressiveSupernodeGrouping finds supernodes that partition the columns, lie inside the parts of the schedule, and whose columns have the pattern of the first column from the corresponding entry on, so that with sorted columns a supernode is a dense triangle above a common pattern. A following column of the same part that fits, with all columns between, is not left to a later supernode. The returned number is columns divided by supernodes. An empty first column is undefined behaviour.", "quantifier": "for every well-formed matrix with the diagonal first in each column, every partition into groups and every complete schedule of the groups", "why_tests_cant": "a supernode that joins columns of different parts breaks the schedule only for particular patterns; maximality and density are statements about all matrices", "anchors": ["src/hdagg/hdagg.cpp:1138-1232", "include/aggregation/hdagg.h:247"]}
{"id": "C108", "title": "Merging of inner parts up to a threshold", "statement": "merge_inner_part with a positive threshold takes the parts in their order into clusters, each of which is closed as soon as its cost reaches the threshold; the nodes of the parts are appended to the cluster and its cost is stored one place later. If every part reaches the threshold alone, the last cost is written outside an array with one place per part. With a threshold that is not positive no part is ever taken and the loop ends in an invalid write.", "quantifier": "for every list of parts, costs and threshold", "why_tests_cant": "the write after the end and the endless loop depend on the threshold; packing in order is a statement about all cost vectors", "anchors": ["src/lbc_utils.cpp:122-142"]}
{"id": "C109", "title": "Incomplete Cholesky factorisation without fill-in", "statement": "ic0_csc on a lower triangular matrix with sorted columns ends without invalid access and gives the values of the incomplete Cholesky factor: every stored entry, reduced by the products of the columns to the left, divided by the root or the pivot. There is only one such factor. In exact arithmetic, if no pivot is zero, the product of the factor with its transpose equals the matrix at every stored position.", "quantifier": "for every well-formed lower triangular matrix with sorted columns and every arithmetic", "why_tests_cant": "a test compares some matrices up to rounding; that every entry gets every update exactly once, and in which order, is a statement about all patterns", "anchors": ["example/old/spic0.cpp:30-56"]}
{"id": "C110", "title": "Parallel incomplete Cholesky factorisation", "statement": "spico_csc_levelset, spico_csc_group_levelset, spic0_csc_group_lbc and spico_csc_lbc with a schedule that respects the dependences give the values of ic0_csc for every interleaving of the threads, if subtractions commute. Two threads of a level access a common location only with atomic updates. The level set of build_levelSet_CSC and the schedule of the parallel LBC inspector can be used. Without commuting subtractions (floating point) two interleavings give different values.", "quantifier": "for every well-formed lower triangular matrix with sorted columns, every valid schedule and every interleaving", "why_tests_cant": "tests run few interleavings; a race or a lost update shows rarely", "anchors": ["example/old/spic0.cpp:59-133", "example/old/spic0.cpp:165-206", "example/old/spic0.cpp:238-272"]}
{"id": "C111", "title": "What the incomplete Cholesky kernels for rows compute", "statement": "spic0_csr, spic0_csr_levelset and spic0_csr_lbc on a lower triangular matrix with sorted rows only divide every row by the root of its diagonal entry and replace that entry by its root: the guard of the update is never true. The parallel kernels do so for any complete schedule and every interleaving; the serial one stops at the assertion if a diagonal entry is not positive. The result is not a Cholesky factor: if a row has an entry besides the diagonal that is not zero, the product of the result with its transpose is too large on the diagonal.", "quantifier": "for every well-formed lower triangular matrix with sorted rows, every arithmetic, every complete schedule and every interleaving", "why_tests_cant": "a test can show one wrong factor; that the update is dead code for all sorted patterns, and that no schedule matters, is a statement about all inputs", "anchors": ["example/old/spic0.cpp:9-28", "example/old/spic0.cpp:135-163", "example/old/spic0.cpp:208-236"]}
{"id": "C107", "title": "Groups made of chains of columns", "statement": "If inspection_spicocsc_v2 ends, its groups partition the columns, list no column before one it depends on, depend on each other without cycles, every column that depends on a group from outside is larger than the columns of the group, and no column with a successor is alone. The function reads child[ncol], after the end of the array, whenever the last column depends on the one before it, or on a column that is nobody's first successor and has no other successor; the result is as described if the value read there is not -1.", "quantifier": "for every well-formed lower triangular matrix with sorted columns and every content of the memory after the array", "why_tests_cant": "a test shows the groups of some matrices and does not notice the read after the end; acyclicity is a statement about all patterns", "anchors": ["src/group.cpp:55-152", "src/Group/Group.cpp:62-165", "include/aggregation/group.h:42-61"]}
{"id": "C112", "title": "The incomplete Cholesky factorisations of the demo, from the matrix to the factor", "statement": "For every lower triangular matrix with sorted columns the set-up of SpicoCSC_Grouping ends normally whatever the interleaving of the threads that build the graph of groups: the groups are runs of consecutive columns, the level set lists every group once and after the groups it depends on, and every interleaving of the factorisation gives the result of ic0_csc, if subtractions commute. The same holds for SpicoCSC_Grouping_H2 (two independent groups) and Spic0CSCParallelLBC (two independent columns), with sorted parts or not.", "quantifier": "for every well-formed lower triangular matrix with sorted columns, every interleaving of the inspector and of the factorisation, all tuning parameters and costs", "why_tests_cant": "two parallel phases feed each other; a test sees few interleavings of either and few patterns", "anchors": ["example/old/spic0_demo_utils.h:176-240", "example/old/spic0_demo_utils.h:281-380", "example/old/spic0_demo_utils.h:473-520", "src/group.cpp:10-53", "src/group_utils.cpp:30-46"]}
{"id": "C113", "title": "The point-to-point solvers neither race nor deadlock", "statement": "With a correct task graph (every node in one task, every task in one thread, every dependence inside a task in order or between tasks ordered by threads and parents, no cycle) the solvers of SpTrsv_LL_SpMP and SpTrSv_LL_Tree_HDAGG_BFS_P2P, whose threads synchronise only by flags, give the result of the serial solve in every interleaving, and every partial execution can be continued to the end. The classes build such a task graph, if SpMP is correct: the matrix handed to SpMP is symmetric, has a full diagonal with right diagonal data and contains all dependences between the groups.", "quantifier": "for every lower triangular matrix, every correct task graph, every left-over state of the flags, every interleaving; every order of the parallel loops of the inspector", "why_tests_cant": "a missing wait or a deadlock shows only in rare interleavings; the task graph depends on the pattern and the number of threads", "anchors": ["example/SpTRSV_runtime.h:995-1162", "example/SpTRSV_runtime.h:1432-1589", "example/SpMP_Interface.h:16-38"]}
{"id": "C114", "title": "The solver with a partition by dagP", "statement": "If dagP divides the graph of a lower triangular matrix into parts that form no cycle, SpTrSv_LL_DAGP turns them into a schedule that lists every row once and respects all dependences, and its solve gives the values of the serial solve. The level set of the parts returns -1 exactly if the parts form a cycle. The direction in which dagP reads the columns matters: with the other direction the schedule is reversed.", "quantifier": "for every lower triangular matrix, every partition, every number of parts, every positive edge weights, every interleaving and arithmetic", "why_tests_cant": "The result of dagP depends on the matrix and its heuristics; a wrong order inside the schedule shows only in some interleavings, or for some numberings of the parts.", "anchors": ["utils/external/DAGPInterface/includes/dagp_utils.h:20-247", "example/SpTRSV_runtime.h:1286-1345", "utils/sparse_io.cpp:convert_to_one_based", "utils/sparse_io.cpp:dense_to_csc"]}
{"id": "C115", "title": "Matrix Market files, character by character", "statement": "read_mtx and read_mtx_csc_real return the matrix that a Matrix Market text describes, whatever its comments, white space, case of the words and way to write the numbers; the stream reader for any order of the entries and for patterns, read_mtx for files in column order without empty columns; on such files both agree. CSC_to_mtx, print_csc_templated and print_csc write a text of their matrix, so that what is written and read again is the same matrix up to the rounding of the values. A first line is accepted by read_header only if it has the five words that are then reported.", "quantifier": "for every text, every matrix, every size below 2^31, every conversion of values that reads what it wrote", "why_tests_cant": "There are infinitely many texts for the same matrix; broken files that hang a reader or make it write outside its buffers are not among the samples of a test.", "anchors": ["utils/sparse_io.cpp:16-83", "utils/sparse_io.cpp:162-191", "utils/sparse_io.cpp:279-424", "include/aggregation/sparse_io.h:138-156", "utils/external/mmio.cpp:87-196", "utils/external/mmio.cpp:333-449", "include/aggregation/utils.h:82-102"]}
{"id": "C116", "title": "The tables of measurements are what was measured", "statement": "Whatever calls are made, CSVManager writes the header and then, for each record that is complete, one line with the last value given to each column, in the order of the columns; incomplete records and unknown columns write nothing, every line has as many fields as the header, and a reader gets header and rows back. The driver of the triangular solve writes one row per measurement.", "quantifier": "for every list of distinct column names, every file that exists before, every sequence of calls", "why_tests_cant": "The class has state between the calls (values and status of a record in progress), so the claim is about all sequences of calls.", "anchors": ["include/aggregation/csv_utils.h:28-136", "example/SpTRSV_runtime.cpp:113-133", "example/SpTRSV_runtime.cpp:183-192", "example/SpTRSV_runtime.cpp:540-550"]}
{"id": "C117", "title": "The test harness measures and checks the right thing", "statement": "evaluate of class FusionDemo gives each run the right-hand side of ones, whatever the run before has left in the vectors; the solution it reports is that of the last run; the message \"code has some problem\" is printed exactly if that solution differs from the reference; the time is a median of the times of the runs. For the serial class the solution solves the system; for the classes with level sets (own or from SpMP) and with coarse schedules the solution equals the serial one bit for bit for all interleavings of all runs, and only elements that are not numbers can cause the message.", "quantifier": "for all derived classes, matrices, numbers of runs, interleavings of each run, measured times, comparisons of values", "why_tests_cant": "The harness is itself the test of the project: if it were wrong, all tests of the solvers would be worthless; and it runs a few interleavings only.", "anchors": ["utils/FusionDemo.cpp:16-102", "example/SpTRSV_runtime.h:50-188", "example/SpTRSV_runtime.h:300-309", "src/hdagg/hdagg.cpp:2587-2631", "utils/sparse_inspector.cpp:1014-1025", "include/aggregation/sparse_io.h:64-68"]}
{"id": "C118", "title": "The benchmark from the file to the checked solution", "statement": "For every Matrix Market text of a lower triangle with full diagonal, the benchmark with METIS reads the matrix, renumbers rows and columns by the numbering of METIS, converts it, and the serial class computes, in exact arithmetic, the solution of the renumbered system with right-hand side one; the classes with tree grouping and HDAGG throw if one path of dependences visits all groups and otherwise report the solution of the serial class bit for bit, for every schedule and every interleaving of each run.", "quantifier": "for all texts of all such matrices, all numberings by METIS, all arithmetics, all schedules and interleavings", "why_tests_cant": "It composes reader, reordering, conversion, inspector, executor and harness; an error in the agreement between any two of them shows only for some matrices and numberings.", "anchors": ["example/SpTRSV_runtime.cpp:66-107", "example/SpTRSV_runtime.cpp:113-133", "include/aggregation/sparse_io.h:64-68", "utils/FusionDemo.cpp:77-102", "example/SpTRSV_runtime.h:50-70", "example/SpTRSV_runtime.h:435-495", "example/SpTRSV_runtime.h:632-700"]}
{"id": "C119", "title": "The measures printed for a schedule mean what their names say", "statement": "For every complete schedule, computeCharacteristics, computeStatistic, getPotentialGain and computeMetrics of the solver classes stay in bounds and return, in exact arithmetic: the share of the largest part in each of the first three levels; the number of parts that have nodes and its average per level; the average over the levels, weighted by cost, of the difference between the largest and the smallest part; one minus the ideal time (entries over threads) divided by the sum of the largest costs of the levels, which is between 0 and 1 if no level has more busy parts than threads, and 0 exactly if all threads are fully used; and the averages per row and entry for the three kernels. Where they differ from this: the smallest part is never taken above n; costs are kept per group but read per row; two numbers are added to what the caller passes in.", "quantifier": "for all matrices, all complete schedules, all costs, all numbers of threads, all orders of the parallel cost loop", "why_tests_cant": "The numbers are printed and compared between methods; no test knows what they should be, and the deviations show for large costs, grouped rows or repeated calls only.", "anchors": ["example/SpTRSV_runtime.h:330-432", "example/SpTRSV_runtime.h:527-629", "example/SpTRSV_runtime.h:730-966", "example/SpTRSV_runtime.h:1186-1268", "example/SpTRSV_runtime.h:1366-1401"]}
{"id": "C120", "title": "The unit test of the project passes for every matrix that is not a chain", "statement": "For every lower triangular matrix with full diagonal that is not a chain (no path through all rows), testSptrsvCsr of Catch_tests/sptrsv_tests.cpp stays in bounds, ends, and returns true in every interleaving of its parallel solve, unless the serial solution contains an element that is not a number. For the random section this holds for every shuffle and all values with the default seed, where at most k rows depend on others. For a chain the level sets are refused and the test compares the solution with the right-hand side: it fails although the solvers are right.", "quantifier": "for all lower triangular matrices, all arithmetics and comparisons, all shuffles, all values, all interleavings", "why_tests_cant": "It is a statement about the test itself: which inputs make it pass, and that the inputs it draws can never reach the case in which it fails.", "anchors": ["Catch_tests/sptrsv_tests.cpp:26-50", "Catch_tests/sptrsv_tests.cpp:53-71", "utils/test_utils.cpp:19-60", "utils/sparse_inspector.cpp:15-60"]}
{"id": "C121", "title": "The LBC demo reports the serial solution for all solvers", "statement": "For every lower triangular matrix with full diagonal whose elimination tree is not a chain, the demo program (example/sptrsv_demo.cpp) with its default parameters (20 threads, -1, 4000) or any others with p3 and p2 + p3 positive and either p2 at least 2 or one round of cutting, without METIS or with METIS and any numbering it may choose, stays in bounds (except for the one read of C69) and reports in every execution that ends the serial solution for the level set solver, LBC on the elimination tree, and LBC with sorting, with no message unless an element is not a number. Called without arguments this holds for every shuffle and all values. If the elimination tree is a chain, which can happen although rows are independent, it never ends normally.", "quantifier": "for all lower triangular matrices, all numberings by METIS, all shuffles and values, all arithmetics, all interleavings in all runs of all objects", "why_tests_cant": "The demo is itself the only test of these solvers; the set of matrices for which it is defined, all interleavings and all numberings cannot be run.", "anchors": ["example/sptrsv_demo.cpp:42-138", "example/sptrsv_demo_utils.h:22-330", "src/lbc_csc.cpp:299-349", "src/lbc_utils.cpp:263-345", "utils/FusionDemo.cpp:16-102"]}
{"id": "C122", "title": "The benchmark reports the serial solution for all its solvers", "statement": "For every Matrix Market file with the lower triangle of a symmetric matrix with full diagonal, and every numbering METIS may choose, the benchmark (example/SpTRSV_runtime.cpp) reports in every execution that ends the serial solution for all seven objects (serial, wavefront, wavefront of groups, HDAGG, HDAGG on groups found in depth and in breadth, LBC on the elimination tree), with no message unless an element is not a number, provided the elimination tree of the renumbered matrix is not a chain and no grouping has all its groups on one path. Both hold, whatever METIS does, if the unknowns fall into two parts that no entry connects. If the tree is a chain of more than two rows, or the groups of one of the HDAGG objects are on one path, the benchmark never ends normally; so for every matrix with three or more rows in which every two unknowns are coupled.", "quantifier": "for all files of lower triangles, all numberings by METIS, all numbers of cores from 1 to 9999, all arithmetics, all sizes of groups and balance decisions, all interleavings in all inspectors and runs of all objects", "why_tests_cant": "The benchmark is the program whose numbers are published; on which matrices it is defined depends on the numbering and on the groups, and wrong results show only under certain interleavings.", "anchors": ["example/SpTRSV_runtime.cpp:65-488", "example/SpTRSV_runtime.h:51-1760", "utils/FusionDemo.cpp:16-102"]}
{"id": "C123", "title": "The measures of the LBC demo classes mean what they say, except with empty parts and with groups", "statement": "For a complete schedule averWsize is the number of entries of the matrix divided by the number of parts, whatever the order of the nodes and also for grouped columns. consecutiveRatio is the number of nodes followed by their successor in the same part, divided by nodes minus parts; without empty parts it is at most one, and one exactly if every part is an interval in ascending order; sorting the nodes inside the parts gives the largest value any order can have. Deviations: with empty parts it can exceed one, with one node in every part it is 0/0, and the version for grouped columns counts every part once too often in the numerator and leaves out one group for every part in the denominator, so it exceeds one for perfectly consecutive parts, and reads before the array if the first part is empty.", "quantifier": "for all complete schedules with any number of levels, parts and nodes, all matrices and all groupings", "why_tests_cant": "No test calls these functions; the numbers look plausible, and whether they stay between zero and one depends on the shape of the schedule.", "anchors": ["example/sptrsv_demo_utils.h:215-241", "example/sptrsv_demo_utils.h:345-371", "example/old/spic0_demo_utils.h:403-443", "example/old/spic0_demo_utils.h:551-565"]}
{"id": "C124", "title": "The incomplete Cholesky demo reports the same factor from all seven objects, or never ends normally", "statement": "From a file with a lower triangular symmetric matrix and whatever numbering METIS chooses, the program factors the renumbered matrix; the serial object reports the incomplete Cholesky factor of that matrix, and unless a single dependence path visits all groups of columns, every object (level set, grouping, LBC with and without sorting, grouped LBC with and without sorting) reports exactly that factor without the message about a difference and with the median of its times, in every interleaving in which the threads get all their work done. If one path visits all groups, the program never ends normally: LBC refuses the chain. In particular two unconnected parts are enough for success, and a matrix in which every two unknowns are coupled always fails.", "quantifier": "for all matrices, files, METIS numberings, LBC parameters, thread interleavings and orders in which the inspector enters group edges", "why_tests_cant": "The program is a demo without a check; whether seven schedules give the same factor depends on every interleaving, and the failure depends on the shape of the matrix after renumbering.", "anchors": ["example/old/spico_csc_demo.cpp:25-143", "example/old/spic0_demo_utils.h:70-240", "example/old/spic0_demo_utils.h:281-384", "example/old/spic0_demo_utils.h:472-520", "utils/FusionDemo.cpp:77-102"]}
{"id": "C125", "title": "The row version of the incomplete Cholesky demo: three objects agree on values that are not a factor", "statement": "From a file with a lower triangular symmetric matrix and whatever numbering METIS chooses, the serial, level set and LBC objects of the demo for rows report the same values without the message about a difference, if the diagonal entries are positive and no dependence path visits all columns; these values are the rows of the renumbered matrix, each divided by the root of its diagonal entry. So the comparison in the demo cannot notice that they are not a Cholesky factor: the product with the transpose is too large on the diagonal of every row with another nonzero entry. If a diagonal entry is not positive the assertion stops the program, and if one path visits all columns it never ends normally.", "quantifier": "for all matrices, files, METIS numberings, LBC parameters, arithmetics and thread interleavings", "why_tests_cant": "The program compares its own objects with each other, and they agree; that they agree on something else than a factor for every matrix is a statement about all inputs and interleavings.", "anchors": ["example/old/spic0_demo.cpp:25-114", "example/old/spic0_demo_utils.h:25-69", "example/old/spic0_demo_utils.h:573-672", "utils/FusionDemo.cpp:77-102"]}
{"id": "C126", "title": "A matrix stored by blocks, written to a file and read back, keeps its values", "statement": "BCSC_to_mtx writes a well-formed Matrix Market file for every matrix stored by blocks of columns: the number of entries announced is the number of lines, the lines are exactly the positions of the blocks, in the order of columns and rows, each with the value of the matrix there. read_mtx applied to this file returns a matrix with the same (rounded) value at every position. The entries that the blocks add as explicit zeros become stored entries, so a block of two columns gives a stored entry above the diagonal and the matrix that comes back is not lower triangular. A block without columns, which the constructor of the format accepts, makes the writer divide by zero.", "quantifier": "for all matrices with sorted columns without an empty column, all partitions of the columns into blocks, all ways of printing numbers that can be read again", "why_tests_cant": "The result depends on every block width and number of rows of a block and on the text of every number; no set of test files covers the offsets of all block structures.", "anchors": ["utils/sparse_io.cpp:84-112", "utils/sparse_io.cpp:280-441", "utils/sparse_utilities.cpp:1"]}
{"id": "C127", "title": "Level sets computed by SpMP: GLC_V2 stays valid, HDAGG never returns a schedule", "statement": "If SpMP returns the level sets of the dependences of the lower triangle, GLC_V2 with parallelLevelset = true returns a complete schedule that respects all dependences of a lower triangular graph, for all interleavings and outcomes of the balance tests, and the solve with it gives the serial result; the levels are those of build_levelSet_CSC, and graphs in which one path visits all nodes, on which the other branch throws, are handled as well. For a graph that is not lower triangular the branch turns dependences around. HDAGG with parallelLevelset = true never returns a schedule with the nodes of a non-empty graph: the macro that guards its branch is spelt differently and never defined, the number of levels is not initialised, and whatever its value the call throws, reads behind an empty vector or returns an empty schedule.", "quantifier": "for all lower triangular graphs with a diagonal, positive costs, numbers of cores, level schedules of SpMP that meet the assumption, interleavings, outcomes of the balance tests; for HDAGG all values of the uninitialised variable", "why_tests_cant": "The result depends on the graph, the level sets and the interleaving, and for HDAGG on an indeterminate value; the branch needs a library that the tests do not have.", "anchors": ["src/hdagg/hdagg.cpp:608-660", "src/hdagg/hdagg.cpp:836-876", "src/hdagg/hdagg.cpp:2585-2660"]}
{"id": "C128", "title": "generate_matrices_from_mtx gives three matrices in one numbering, which is not that of the caller", "statement": "With METIS, for a lower triangular matrix with full diagonal marked symmetric, L2_csr is the lower triangle and B, B_csr the whole of the symmetric matrix, all three renumbered by one permutation that METIS returned; the lower triangle of B is L2_csr. The matrix passed in keeps its numbering, so it does not match L2_csr or B. Without METIS, or for a matrix not marked symmetric, a null pointer is dereferenced.", "quantifier": "for all lower triangular matrices with full diagonal and at least one column, all permutations METIS may return, debug and release builds", "why_tests_cant": "The result depends on the matrix and on the permutation METIS chooses; a test sees single matrices and one version of METIS, and the entries have to match as multisets under a renumbering.", "anchors": ["utils/FusionDemo.cpp:109-135"]}
{"id": "C129", "title": "metis_partitioning returns the matrix its parts belong to", "statement": "For a matrix with values and symmetric pattern, metis_partitioning returns an equal matrix and the parts METIS gave to the nodes of its adjacency graph, shifted so that part 0 is used; the ordering it computes first has no influence. For a lower triangle with values the graph given to METIS has its edges in one direction only, so METIS promises nothing. For a lower triangular pattern, if METIS answers although both graphs break its rules, the matrix returned is the whole symmetric pattern renumbered by the ordering of METIS, and the parts are those of the nodes in the new numbering. A pattern not marked symmetric dereferences a null pointer.", "quantifier": "for all square matrices without duplicates, all numbers of parts, all answers of METIS that meet its promise, debug and release builds", "why_tests_cant": "The function is called by no program and no test; the result depends on the matrix and on what METIS returns.", "anchors": ["utils/metis_interface.cpp:15-42"]}
{"id": "C130", "title": "example/lbc_demo prints a schedule from which every row and every dependence can be read off", "statement": "For a file with the lower triangle of a symmetric matrix with full diagonal, and for the random matrix of the program without arguments, lbc_demo prints the header and a listing with one line for each part and two empty lines behind each level, in which every row occurs exactly once and, for every entry below the diagonal, its column is in an earlier level than its row or earlier in the same line; the text determines the schedule. This needs that the elimination tree is not a chain; if it is and there are more than two rows, the program does not end normally.", "quantifier": "for all such files, all matrix sizes, all permutations METIS may return, all costs and parameters with p2 at least 2 or few threads, with and without METIS, debug and release builds", "why_tests_cant": "The output depends on the matrix, the parameters and METIS; a test compares single outputs and cannot say that no dependence is ever violated, nor that two schedules are never printed alike.", "anchors": ["example/lbc_demo.cpp:36-98", "utils/sparse_io.cpp:211-234"]}
{"id": "C131", "title": "The coordinate readers and writers of mmio keep the numbers; their indices and return codes differ", "statement": "mm_write_mtx_crd writes a Matrix Market file of the arrays it is given, for real, complex and pattern matrices of every shape, and mm_read_mtx_crd reads from it the same arrays, up to the rounding of the output format; indices are left as they are. mm_read_unsymmetric_sparse returns the same numbers with indices one less, for every shape. Shapes the format excludes and files that end early are errors for mm_read_mtx_crd. Deviations: an integer file is read with return code 0 but nothing is stored; a file that ends early makes mm_read_unsymmetric_sparse compute with indeterminate values; mm_write_banner, mm_write_mtx_crd_size and mm_write_mtx_array_size always report an error.", "quantifier": "for all arrays, sizes below 2^31, types, shapes, comments and white space in the file, all conversions of numbers that read what was written", "why_tests_cant": "No program or test calls these functions; a file is a text of any length, and that every array survives writing and reading cannot be sampled.", "anchors": ["utils/external/mmio.cpp:16-87", "utils/external/mmio.cpp:166-171", "utils/external/mmio.cpp:225-230", "utils/external/mmio.cpp:240-390"]}
{"id": "C132", "title": "The program that times the inspectors runs each of them ten times on the file, and throws on chains", "statement": "example/old/sptrsv_dag_test.cpp, called with a Matrix Market file of a symmetric matrix with full diagonal, builds ten times what the chosen mode asks for, from the triangle of the file or, with METIS, of the renumbered matrix: valid schedules by the parallel or the sequential LBC inspector, or the level sets by longest paths; the time printed is a median of the ten. Deviation: if every row uses the row before it (as in a tridiagonal matrix), it ends with an exception in every mode but that for level sets; there the inspector returned the code for a cyclic graph, which the program does not look at, and a time is printed.", "quantifier": "for all such files, numberings by METIS, modes, tuning parameters with positive steps, interleavings and contents of new arrays in each of the ten runs", "why_tests_cant": "The interleavings differ between the runs, the schedules are freed without being looked at, and a failing matrix is one whose numbering by METIS is a chain; a run that prints a time shows none of this.", "anchors": ["example/old/sptrsv_dag_test.cpp:19-136", "utils/utils.cpp:13-26", "src/lbc_csc_dag.cpp:401-685"]}
{"id": "C133", "title": "The class StatSpMat reports the groups, levels and the imbalance of the threads it claims to, except where it divides by zero or prints a member it never set", "statement": "For a lower triangular matrix in row form, the constructors of StatSpMat end normally and report: 2 nnz - n operations, 3 nnz - n accesses and the number of rows that use the row before; for level sets, the number of runs of rows as groups and parts, and as the number of levels the height of the graph of the groups; and the sum, average and sample variance, over the levels, of the largest difference between the loads of two threads, for the matrix, for a schedule and for a schedule of groups. Deviations: with a single level the variance is 0/0, and the constructor for schedules leaves the number of parts unset although it is printed.", "quantifier": "for all lower triangular matrices with a row, all schedules and groups with correct pointer arrays and at least one level, all numbers of threads, assignments of iterations to threads and orders in which they run", "why_tests_cant": "The loads depend on which thread runs which iteration, so two runs report different numbers; a test would have to recompute the groups, their graph, its height and all loads for every assignment.", "anchors": ["profiler/old/StatSpMat.cpp:12-284", "profiler/old/includes/StatSpMat.h:33-57", "example/sptrsv_src/executor.cpp:34-265"]}
{"id": "C134", "title": "The profiling program reports, for the matrix in the file, the statistics of the schedules its inspectors build", "statement": "For a file of a lower triangular matrix, with METIS or without, the program sptrsv_csr_profile reports the numbers of C133 for the rows of the (renumbered) triangle. Option 0: for the level sets of the groups of rows. Option 1, if two groups of rows are independent of each other: for a schedule that lists each group once and respects the uses between groups. Other options, if the elimination tree is not a path: for a schedule that lists each row once and respects the uses. As levels, options 1 and 2 report the length of a longest chain of rows, or -1 if every row uses the row before it. Deviations: the block size p2 passed for option 0 has no effect although a comment says that it enables the grouping, and with other options than 0 and 1 the number of parts is printed without having been set.", "quantifier": "for all files of lower triangular matrices with a row, all orderings of METIS, all numbers of threads and parameters of LBC in the stated ranges, all assignments of iterations to threads", "why_tests_cant": "The report depends on the file, the ordering METIS chooses, the parameters and the threads; the solves only show that the results are right, not that the numbers describe the schedules that were run.", "anchors": ["example/sptrsv_csr_profile.cpp:28-203", "profiler/old/StatSpMat.cpp:12-284", "example/sptrsv_demo_utils.h:30-160"]}
{"id": "C135", "title": "A text block written by print_string is read back by read_string up to the white space at the start of its lines", "statement": "print_string writes each line of the context with the indent in front and ends the last line. read_string appends the indented lines without white space at their start, skips the lines that begin with a minus sign, and leaves the stream at the first character of the text that follows; a last line that is not ended is kept. So a context whose lines do not start with white space is read back exactly. Deviations: white space at the start of a line is lost; a line with a negative number that follows a block is swallowed; at the end of the file the stream is left failed.", "quantifier": "for all lists of lines, all indents of white space, all texts that follow", "why_tests_cant": "The result depends on every line and on what follows in the file; a test shows a few texts, not that no line is lost, joined or read twice for any text.", "anchors": ["utils/sparse_io.cpp:266-276", "utils/sparse_io.cpp:478-494", "include/aggregation/utils.h:90-94"]}
{"id": "C136", "title": "A dense matrix written by print_dense is read back by read_mtx_array_real, and a constant by read_real_constant", "statement": "From a Matrix Market file in the array format with real values, read_mtx_array_real returns the sizes and the values in the order of the file. If the leading dimension divides the number of values, print_dense writes such a file, so the matrix is read back up to the rounding of the output. A constant is read back in the same way. Deviations: if the file has too few values the missing ones are 0 without a report, and so every symmetric file, which stores one triangle only, is read as another matrix; files with integers are refused; if the leading dimension does not divide the number of values, print_dense reads behind the end of the array.", "quantifier": "for all sizes, values, leading dimensions, indents, comments and white space in the file", "why_tests_cant": "A test reads a few files of one layout; the claim covers every layout the format allows and every leading dimension, including those for which the last line is not full.", "anchors": ["utils/sparse_io.cpp:427-442", "include/aggregation/sparse_io.h:162-193", "utils/sparse_io.cpp:473-475"]}
{"id": "C137", "title": "print_dense to a file descriptor prints the rows of the matrix, and nothing is lost", "statement": "For a matrix that is stored column by column, print_dense(fd, A) prints one line for each row with the values of the row in order, and reads no value outside of the array. Two matrices with the same text have the same shape and the same printed digits at each place. After read_mtx_array_real the lines are the rows of the matrix in the file.", "quantifier": "for all numbers of rows and columns, all values and all files in the array format", "why_tests_cant": "An index that exchanges rows and columns agrees on square symmetric matrices and on vectors; a test with a few shapes does not show that the place of each entry is right for all.", "anchors": ["utils/sparse_io.cpp:201-208", "utils/sparse_io.cpp:427-442"]}
{"id": "C138", "title": "mm_read_mtx_array_size reads the sizes of a dense matrix behind any comments, and reads back what mm_write_mtx_array_size writes", "statement": "Behind any number of comment lines the two sizes are read and the file is left at the next line; if the line behind the comments is blank, the sizes are taken from the lines that follow. A file that ends before gives an error code. What mm_write_mtx_array_size writes is read back. Deviation: if the line does not hold two numbers and the next word of the file is not a number, the function never returns.", "quantifier": "for all sizes, all comments and white space, all texts that follow", "why_tests_cant": "Whether the function returns depends on the whole text behind the comments; a test cannot show that a call never returns, nor that it is right for each layout.", "anchors": ["utils/external/mmio.cpp:200-222", "utils/external/mmio.cpp:225-230"]}
{"id": "C139", "title": "getNumberOfP2P reports the number of waits of the point-to-point solver", "statement": "The number returned by getNumberOfP2P is the number of all waits for a parent in the codes that the threads run in one solve with the same number of threads; for a correct task graph it is the number of parents of all tasks, each task counted once.", "quantifier": "for all task graphs, numbers of threads and matrices", "why_tests_cant": "The waits happen inside of a macro of another library and are not observable; a test compares the number with itself.", "anchors": ["example/SpTRSV_runtime.h:1611-1623", "example/SpTRSV_runtime.h:1571-1582"]}
