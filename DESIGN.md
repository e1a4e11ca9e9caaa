# Formal model of sympiler/aggregation in Lean 4

## 1. Approach

The C++ sources in /repo are modelled by hand, function by function, as total
computable Lean functions (`lean/Verif/Model/*.lean`).  Every definition cites
the file and lines it models.  Independent specifications are in
`lean/Verif/Spec/*.lean` (graphs, schedules, sparse matrices, triangular
solve, fill-in, forests).  Helper lemmas are in `lean/Verif/Proof/*.lean`.  The
property theorems are in `lean/Verif/Props/*.lean`, each next to non-vacuity
examples.  `lean/Verif/Res.lean` has the outcome monad and the loop combinators,
`ResLemmas.lean` and `WPM.lean` their proof rules.

Conventions of the model

* **Outcomes.**  A C++ function is modelled by a function into `Res α` with four
  outcomes: `ok a`, `ub` (undefined behaviour: out-of-bounds access, empty
  `back()`, null dereference, division by zero, ...), `exn` (C++ exception or failed
  `assert`), `nofuel` (a loop did not end within the fuel handed to the model).
  "The call succeeds" theorems state `= ok r ∧ ...`, so they include absence of
  out-of-bounds accesses, of failed assertions and termination.
* **Arrays** are Lean lists; every read and write is bounds-checked (`rd`, `wr`), an
  access outside of the array is `ub`.  Uninitialised arrays are either
  universally quantified (`garbage`, "whatever the array contains") or, where a
  comment says so, filled with zeros because the code writes before it reads.
* **Integers.**  `int`/`size_t` values are unbounded `Nat`/`Int`; overflow of
  `int` (more than 2^31-1 nodes or non-zeros) is out of scope, except for
  `add_size_t`/`mult_size_t`, which are about overflow and use 64-bit words.
* **Floating point.**  Numerical kernels are modelled over an arbitrary type with
  arbitrary operations when the claim is "bitwise equal", and over a field
  when the claim is algebraic.  Costs are elements of an arbitrary type or exact
  numbers.  Floating-point *decisions* (the HDAGG balance test) are arbitrary
  oracles: theorems hold for every outcome.
* **Concurrency.**  OpenMP parallel loops are modelled by small-step interleaving
  of the iterations: every iteration is its own thread (a superset of all real
  schedules), a step is one load or store.  Sequential consistency is assumed; for
  the solve executors data-race freedom is proved (C07), so C++ guarantees it.
  For the connected-component loops the races are in the C++ source; the
  model takes their loads and stores as atomic.  Parallel loops whose iterations
  write different elements run in an arbitrary order, given as a list.
* **Library functions.**  `std::sort` is a function with the specification of a
  sort (unstable: an arbitrary tie order) or an insertion sort where ties do
  not matter; `unordered_set` has an arbitrary iteration order; METIS is a parameter
  with the specification of its manual (Verif/Spec/Metis.lean), or any function.
* **Memory management, I/O apart from the texts of C115, timing, MKL/PAPI code paths, and METIS, SpMP and dagP themselves** are not modelled.

## 2. Properties: model and proof

"Finding" marks a place where the code violates what a user would expect; each is
a theorem on its own, and the property is then stated under the exact guard
(or marked partial).



| id | status | modelled (lean/Verif/Model) | how proved, findings |
|----|--------|------------------------------|-----------------------|
| C01 | proved | LevelSet: `build_levelSet_CSC` on arrays, fuelled loop | invariant: after L rounds exactly the nodes without a dependence path of L edges are listed |
| C02 | proved | LevelSet | same invariant; the in-degree array is 1 + number of unlisted predecessors (with multiplicity) |
| C03 | proved | LevelSet | level of a node = longest dependence path, both inclusions |
| C04 | proved | LevelSet | exact condition for -1. Finding: -1 also for acyclic graphs with n levels (chains) |
| C05 | proved | Exec, LevelSet: rows as load/store sequences, scheduler lists, barrier per level | invariant: finished rows hold the serial value, others their partial value; arbitrary arithmetic |
| C06 | proved | Exec: `sptrsv_csr_lbc` | as C05, from validity of the schedule alone |
| C07 | proved | Exec: accesses of the threads of one level | no two threads access an entry that one of them writes |
| C08 | proved | Exec: `sptrsv_csr` over a field | induction on rows, uniqueness by strong induction |
| C09 | proved | Exec: the grouped executors | reduction to C06 |
| C10 | proved | CC: loads and stores of `parallel_cc` as a transition system | invariant over all interleavings: labels decrease, a label is a position of the same component |
| C11 | proved | CC | measure: sum of labels; progress |
| C12 | proved | CC | invariant of every reachable state |
| C13 | proved | Hdagg: `computeCC` incrementally over windows | C10 per window; costs in a commutative monoid |
| C14 | proved | Hdagg: driver loop, balance decisions as oracle, chunk packing | window invariant. Findings: throws on chains, assertion of line 431 fails, zero costs lose nodes |
| C15 | proved | Hdagg | paths inside a window stay in one component |
| C16 | proved | Hdagg, Exec | composition of C14, C15, C06 |
| C17 | proved | Hdagg: packing in an ordered group | invariant of the packing loop; finding for zero costs |
| C18 | proved | Glc: `GLC_V2` | as C14 for its driver |
| C19 | proved | Glc: coarsened level schedule, any factor | windows of levels. Findings: `WM[0]` out of bounds, division by zero |
| C20 | proved | PostOrder: DFS with explicit stack | invariant: finished nodes have finished successors. Finding: `back()` of an empty stack |
| C21 | proved | Sparsify: phases of `partialSparsification`, racing writes in any order | path surgery on a topologically numbered graph. Finding: buffer overflow without OpenMP |
| C22 | proved | Sparsify | columns are sublists of input columns; two-step paths removed |
| C23 | proved | Group: group graph, parallel loops in any order | array invariants |
| C24 | partial | TreeGroup | partition and acyclic quotient proved; the claims on numbering and order inside groups are refuted (`_partial`) |
| C25 | proved | Group: ungrouping with three sort options | validity transported through the quotient |
| C26 | proved | Sparse: `csc_to_csr`, `csr_to_csc` | counting sort invariant; entry lists up to permutation. Findings: non-square and no-row cases |
| C27 | proved | Sparse: `transpose_general` | as C26; finding for no rows |
| C28 | proved | Sparse: `make_half` | filtered entry list |
| C29 | proved | Sparse: `make_full` | entry lists; findings for stype 0 and empty matrices |
| C30 | proved | Utils: inverse permutations, `reorder_array` | loop invariants |
| C31 | proved | Sparse: `permute_general` | entry lists renamed; witness that the hypothesis is needed |
| C32 | proved | Etree: `compute_etree` | ancestor array represents the forest of the leading submatrix; parents against the inductive definition of fill. Findings: duplicates |
| C33 | partial | Utils: 64-bit words | modular arithmetic; `mult_size_t` does not return 0 on overflow (`_partial`) |
| C34 | proved | LbcUtils: `worst_fit_bin_pack` | invariant; balance bound for totals below INT_MAX, witness beyond |
| C35 | proved | LbcUtils: `height_partitioning_DAG` | invariant under the guard; witnesses outside |
| C36 | proved | Lbc: `get_coarse_levelSet_DAG_CSC03_parallel` | windows, components, BFS, packing composed. Findings outside of the guard |
| C37 | proved | Lbc: `modified_BFS_CSC` | queue invariant |
| C38 | proved | Utils: `dense_to_csc` | entry lists; finding for no columns |
| C39 | partial | Utils: `compress_triplets_to_csc` | entry lists; `add_diags` with an empty column is refuted (`_partial`) |
| C40 | proved | Super, Bcsc: three supernode finders | maximal runs. Findings: limit exceeded by one, `off_diag_size` -1 |
| C41 | proved | Utils, Pipeline: `rhs_init` | exact arithmetic; pipeline to the parallel solve |
| C42 | proved | Utils: `test_unique` | loop invariant |
| C43 | proved | TreePost: `tree_post_order`, linked child lists, explicit-stack DFS | DFS against the specification of post orders; children by weight |
| C44 | proved | RunGroup | array invariants; maximal runs. Finding: block size 0 |
| C45 | proved | QueueLevels | queue invariant |
| C46 | proved | TreeGroup | groups are subtrees, acyclic quotient |
| C47 | proved | Etree: `buildETree` | as C32, reachability in the factor |
| C48 | proved | Cost | sums over rows. Findings: empty vector overflow, ILU break |
| C49 | proved | Pipeline | end to end composition. Finding: banded matrices throw |
| C50 | partial | Pipeline | as C49; refuted when one path visits all groups: -1 is not checked (`_partial`) |
| C51 | partial | Sparse: copies | `copy_from_to` refuted: keeps old pointers (`_partial`) |
| C52 | proved | RunGroup, Exec | end to end composition |
| C53 | proved | RunGroup | finding: undefined on every non-empty lower triangular matrix |
| C54 | proved | Lbc, Exec | C36 and C06 |
| C55 | proved | LbcSeq: DFS components, sequential inspector | as C36; limits shown |
| C56 | proved | LbcDemo | end to end; `lbc_config` choices |
| C57 | proved | LbcDemo | end to end with grouping |
| C58 | proved | Super: `SuperNodal`, unordered_set in any order | runs and dependence graph. Finding: null dereference |
| C59 | proved | Bcsc: all of BCSCMatrix.cpp | blocks contain exactly the matrix. Findings: read behind a column, `compressed_BCSC_to_CSC` out of bounds |
| C60 | proved | TransSym: `transpose_symmetric` | counting sort with permuted indices. Finding: index n accepted in `Perm` |
| C61 | proved | LFactor: `ereach` | row subtrees of the elimination tree |
| C62 | proved | LFactor: `build_L_pattern_from_col_counts` | column by column from C61 |
| C63 | proved | LFactor: `row_col_counts_symmetric` | first descendants, least common ancestors, union-find invariants |
| C64 | proved | LFactor: `build_symbolic_simplicial_lfactor` | composition of C32, C43, C60, C62, C63; renumbering by a post order keeps the fill. Findings: unsymmetric flag / upper triangle undefined |
| C65 | proved | `Model/TreeUtil`: populate_children, get_node_depth, the three heights, compute_subtree_cost; parents are integers, a negative one for a root; costs in any commutative monoid | bucket sort by parent for the children; depth by induction up the tree; the early exit keeps `touch[v] + rest(v) ≤ max`; subtree sums by the decomposition into the subtrees of the children (`Proof/TreeUtil`, `TreeHeight`, `TreeCost`) |
| C66 | proved | `Model/TreeUtil.levelSetEff`: build_level_set_tree_efficient with the assertion; arrays zero before the call, as in its only caller | invariant: every level is realised by a chain and all finished nodes push their parent up; every node is finished at the end by strong induction; then counting sort by level (`Proof/TreeLevel`) |
| C67 | proved | `post_order_spliting` (utils/sparse_utilities.cpp 933-1065): Model/PostSplit.lean; `partitionNum`, `costThreshold` only enter through a division whose result is not used | Invariant of the explicit stack (Proof/PostSplit.lean) and of the arrays (Proof/PostSplit2.lean): each stack node but the last has its parent further down, finished parts are whole trees, the counters count the unvisited children; measure 2(n - visited) - stack size |
| C68 | proved | `height_partitioning` with `sw = false` (lbc_utils.cpp 263-345): Model/LbcTree.lean `heightPartition` | Invariant of the two loops (Proof/LbcTreeHeight.lean): the bounds written so far are strictly ascending and below the number of levels; the number of parts shrinks; each round divides the number of parts by the rate, which bounds the number of rounds |
| C69 | proved | `get_coarse_levelSet_tree` (lbc_tree.cpp 10-429): Model/LbcTree.lean; costs of an arbitrary type; the `int` costs of windows and thresholds, which have no effect, are left out | Level sets of C66, windows of C68, splitting of C67 and packing of C54 are put together (Proof/LbcTree.lean): the forest of a window is closed, every part meets the first level of its window, hence the bound for the number of parts; a forest is the dependence graph of Proof/TreeDag.lean, so the emit invariant of the DAG inspectors is reused. For distances below 2 the parts still fit when there are fewer windows than levels |
| C70 | proved | `scatter`, `add` with `sort` (sparse_utilities.cpp 1070-1114): Model/Symm.lean; the weights and values of an arbitrary type | invariants over the entries of a column (markers, stored rows, running sums) and over the columns (Proof/Symm.lean); Spec/Add.lean lists the contributions in storage order. Finding: `nnz` of the result |
| C71 | proved | `make_symmetric` (1116-1130): Model/Symm.lean | composition of C27 (transposed values keep their order), C70, C28 and C60. Finding: no rows |
| C72 | proved | `get_coarse_levelSet_DAG_CSC_tree` (lbc_csc.cpp 299-349): Model/Symm.lean; the double delete for `stype` > 1 is the outcome `ub` | C60, C71 and C32 give the elimination tree, C69 a schedule of its descendants; the entries of the factor lie on paths of the tree (Proof/RowTree.lean). Findings: chains, `stype` > 1 |
| C73 | proved | `build_set` of `SptrsvLBC` and `SpTrSv_LL_LBC`: Model/Symm.lean | composition of C72, C48 and C06 |
| C74 | proved | `chainGrouping`: Model/Chain.lean | invariants of the traversal: the groups found so far are chains, open nodes have their predecessors in earlier groups |
| C75 | proved | `getFinalScheduleDAG`: Model/Final.lean | boundaries of groups = boundaries of parts, positions of a valid schedule (ExecSeq), C23 for the graph of groups |
| C76 | proved | `twoDReordering`: Model/Final.lean | unsorted list = rows in schedule order, blocks inside parts, stability of the sort for pairs that are not inverted |
| C77 | proved | `convertCNScheduleToSuperNode`: Model/Final.lean | run-length invariant per group, equality of the expanded schedules |
| C78 | proved | `computingNode2Level`: Model/Final.lean | loop invariant: all nodes of the levels seen have their level |
| C79 | proved | RowPattern: `computeNoneZeroPatternOfRowK` (the loop pushing a path is shared with `ereach`) | row subtrees of the elimination tree; marks as an invariant; the stale entry of `s` is carried along |
| C80 | proved | Merge: `coarsen_k_times` | loop invariants for marks, written prefix and pointers; the room left is bounded by the entries not yet seen |
| C81 | proved | Merge: both forms of `merge_graph`, `merge_DAGs_with_partial_order` | both are a sequence of columns appended to one array; acyclicity by the graph number, which never decreases along a path |
| C82 | proved | Metis: `metis_perm_general`, `metis_partition_general`; METIS is a parameter | the CSR copy has row u of the matrix in order (C26); the loop invariant says the written prefix is the rows without diagonal |
| C83 | proved | Metis: `metis_perm_symmetric`, `metis_partition_symmetric` | the buckets have a slot for the diagonal that is counted but never filled, so it keeps the initial 0 |
| C84 | proved | Metis: `metis_partition_coarsened` | C80 gives a symmetric quotient, C82 its partition; loop invariant for the overlapping writes |
| C85 | proved | Prepare: the lines before the solvers in the example programs | composition of C29, C82, C28, C60, C26; injectivity of the renumbering gives no repeated entries |
| C86 | proved | ReadMtx: `read_mtx` after parsing | the loop finds the starts of the runs (invariant); for sorted columns these are the counts of smaller columns exactly if all columns occur |
| C87 | proved | MultiLevels: `level_set_multi_graphs` with the wrong memset | invariant of the queue loop (counters of copy 0, membership of the queue by depth); the copies are driven by the unconditional push |
| C88 | proved | LbcCsc: `get_coarse_levelSet_DAG_CSC` on top of MultiLevels, Lbc and LbcSeq | levels from C87 with one copy, windows and emission as in C55, count of the parts for chains |
| C89 | proved | PartWeight: `sum_vector`, `partition_by_weight`, `partition_by_bfs` over arbitrary arithmetic | loop invariants: the concatenation of parts and queue is the order of discovery (`Disc`), prefix sums below the target; sum over the parts in an ordered field |
| C90 | proved | Stat: the five counting functions; threads as a parameter (`Threads`: number, owner and order of the iterations) | loop invariants; the counters of the threads after any order of the iterations are the loads; maximum of all differences by sortedness |
| C91 | proved | TestUtils: `generate_uniq_rand_vector`, `random_square_sparse` (shuffle and rand as oracles), the three `is_equal`, `rhs_init_blocked` | loop invariants: the index array is the concatenation of the sorted columns; composed with C85 for the preparation of the examples |
| C92 | proved | SmallUtil: `tridiag`, `sparse2dense`, `extract_diagonals`, `convert_to_one_based`, `verify_csc_diagonal`, `tree_to_csc` | loop invariants over columns and entries; `tree_to_csc` from C65, the dense round trip from C38 |
| C93 | proved | Measure: `residual`, `norm`, `time_median` (any sorting function), `strip_name` (64-bit unsigned arithmetic) | loop invariants of the running maximum; counting in a sorted permutation; position of the last separator |
| C94 | proved | PostGroup: `computePostOrderAndGroup` with its assertions; the value read past the end of a column is a parameter | the invariant of the search (C20) extended by: the successor of a link follows it; invariant of the grouping loop over the post order; group edges from the last node of a group |
| C95 | proved | Blocked: `build_levelSet_BCSC`; what is in memory behind `inDegree` is a parameter of every round | the rounds are those of `build_levelSet_CSC` on the graph of the blocks (invariant of C01-C03); without memory behind the array the first round whose prefix is done reads past the end |
| C96 | proved | Blocked: `getCoarseLevelSet_DAG_BCSC02` with `dfs_BCSC_CC`, `modified_BFS_BCSC`, `height_partitioning`, `make_unique`, `worst_fit_bin_pack`; costs in an arbitrary type | simulation of the blocked search by the search of the graph of the blocks; with comparable successors a search meets at most one older component, so that the wrong merging of several is not reached; then the invariants of the other LBC inspectors; counterexamples by computation |
| C97 | proved | Inspect: `compute_depth` on the models of `transpose_general` and `build_levelSet_CSC` | the levels of the transposed graph (C01-C04) are longest paths that end in a node, and paths of the transposed graph are the reversed paths |
| C98 | proved | Inspect: `find` with bounded number of calls, `sup2node_gen` | invariant: the value is in the range searched; if it is absent every call makes another one |
| C99 | proved | MergeG: `merge_graphs` on the blocked format of C59 | the six passes enumerate the supernodes of the rows of a block once each; the filling keeps the columns written so far; the pass over B reads only the first row of every block |
| C100 | proved | FLevel: `level_set_bn`, both branches | one proof for all level sets by counting (Proof/Kahn): the visits of a node plus the edges not yet followed stay constant; a node is released when a node set closed under the dependences is done; levels are longest paths |
| C101 | proved | FLevel: `bcsc_csc_bcsc_levelset` | the same invariant; the orphans get a loop, so they have no longest path |
| C102 | proved | GGraph: `connect`, `fs_csr_inspector_dep`, `fs_ic0csc_inspector_group`, `Group_DAG`, `detectDAGCircle` | the pushes of a loop as a filtered list; the parallel loop as any interleaving of the calls of the threads, which does not change the sorted unique lists |
| C103 | proved | Greedy: `startGrouping`, `getGroupedCSCFormat`, `getGroupedRangeArray` | loop invariant of the pool of candidates; a separate specification `IsGreedy` proved to have one solution |
| C104 | proved | Greedy: `mergeSmallGroups` | invariant of the sweep over the boundaries; the boundaries stay a subset of the old ones; `C104_merge_cheaper` gives the result as a left-to-right pass that joins each small group with its cheaper neighbour |
| C105 | proved | Collect: `startCNGrouping`, `startSingleChildGrouping` | invariant of the current run; the last read of `group_set` is outside; `C105_input_edges`: the counts are those of all entries of the rows |
| C106 | proved | Aggr: `aggressiveSupernodeGrouping` | invariant of the search from each first column; the average is 0/0 if there are no columns |
| C108 | proved | Inner: `merge_inner_part` | invariant of the clusters closed so far; undefined behaviour by an invariant that leads to the invalid write |
| C109 | proved | Ic0: `ic0_csc`; the arithmetic is abstract | each column is a sequence of updates; the invariant gives every entry as the fold of the updates of the columns done so far; specification `IsIC0` has one solution |
| C110 | proved | Ic0: the four parallel kernels, as threads of single loads, stores and atomic updates (Mach) | instructions of different threads of a level commute (different locations, or two atomic subtractions); hence every interleaving is equal to the sequential order, and every topological order gives the same fold |
| C111 | proved | Ic0r: the three kernels for rows; the parallel ones as threads of single loads and stores (Mach) | for sorted rows the loops of the update are loops with an identity body; rows are disjoint, so instructions of different threads commute |
| C107 | proved | SpicoV2: `inspection_spicocsc_v2`; the integers after the array `child` are a parameter | invariant: the arrays `next` and `pre` describe chains, each a run of columns with earlier columns inserted before their first successor; the collecting loop lists exactly the chains; the largest column of the groups grows along dependences |
| C112 | proved | Ic0Demo: build_set and fused_code of the three classes; the order of the calls of `connect` is a parameter | composition; the graph of runs of columns of a lower triangular matrix has only edges to later groups; longer arrays than needed are handled by `Ext` |
| C113 | proved | P2P: the parallel region with flags, one access at a time; P2PBuild: build_set of both classes and Convert_LBCCSR_to_SpMP; SpMP::constructTaskGraph is an oracle | history invariant: what each thread has executed is a prefix of its plan, a flag is set iff the notify was executed, a row is final iff its division was executed; progress: a minimal unfinished task in the acyclic order can always step; composition with C49, C75, C29, C26 |
| C114 | proved | Dagp: convert_to_pgraph, build_levelSet_CSC_pgraph, get_h_level_set, build_set of SpTrSv_LL_DAGP; dagP (loadFromCSC, dagP_partition_from_dgraph) is a parameter | the level set is the one of C03/C04 with all degrees one smaller (a translation of states that commutes with every step); the adjacency matrix has positive numbers exactly at the edges met so far; the schedule is the expansion of the level set by the parts, then C06 |
| C115 | proved | MtxRead: fgets, sscanf/fscanf with %s and %d on characters, mm_read_banner, mm_read_mtx_crd_size, read_mtx, CSC_to_mtx; MtxStream: getline, >>, trim, read_header, read_triplets_real, compress_triplets_to_csc, read_mtx_csc_real, print_csc_templated, print_csc | Spec/MtxText defines the texts of a matrix independently (words, gaps, numerals, lines); the conversions are shown to consume exactly the words of the specification, the entries by induction; then C86 and C39; written texts are shown to meet the specification, so the round trips follow |
| C116 | proved | Csv: the members of CSVManager and the text of the file; constructor, addElementToRecord, addRecord; the calls of the driver for one measurement and the name of the matrix | Spec/Csv gives the table of a sequence of calls as a fold without the state of the class; the invariant relates status and record to the values that wait; induction on the calls |
| C117 | proved | Harness: the vectors and times of FusionDemo; setting_up, fused_code (parameter), copy_vector, testing, evaluate; the serial, wavefront, SpMP wavefront and scheduled classes; SpmpLevels: the level sets made from the tasks of SpMP | invariant over the runs: each run starts with ones and leaves its result in x; the parallel classes by C05, C06 and the lemma that the tasks of a level, taken thread by thread, are its rows |
| C118 | proved | nothing new: the text reader (C115), the preparation with METIS (C85), the harness (C117) and the tree HDAGG pipeline (C49) are composed as the driver does | composition; the rows of the renumbered list of entries are the rows of the matrix in CSR form |
| C119 | proved | Metrics: computeCharacteristics, computeStatistic (with costs, and with sizes for dagP), getPotentialGain, computeMetrics of the classes in SpTRSV_runtime.h, with costComputation (C48), make_full (C29) and csc_to_csr (C26) | the loops over parts and levels are folds over the parts of the level; largest and smallest parts characterised as members of the list of costs; sums over the parts of all levels are sums over the nodes because the schedule is complete; the bounds of the gain by comparing each level with threads times its largest part |
| C120 | proved | UnitTest: testSptrsvCsr and the random section of Catch_tests/sptrsv_tests.cpp, with random_square_sparse (C91), make_half (C29), csc_to_csr (C26), build_levelSet_CSC (C04), sptrsv_csr_levelset (C05) | composition; the level sets are refused exactly for a chain (C04), otherwise the parallel solve equals the serial one (C05); with equal shuffles the rows that depend on others are among the k drawn ones, so paths have at most k edges |
| C121 | proved | DemoMain: sptrsv_demo.cpp from the matrix on, with the classes SptrsvSerial, SptrsvLevelSet, SptrsvLBC, SptrsvLBC_W_Sorting in the harness (C117), preparation (C85) and random matrices (C91) | composition of C05, C73, C56 in the harness; if no fill links two neighbours they are independent and no path visits all rows, so one condition serves all classes; C69, C72 and C73 were extended to distances below 2: the windows are fewer than the levels, hence one level at least is merged and the parts fit into the array; rows that were not drawn have no fill |
| C122 | proved | Bench: SpTRSV_runtime.cpp from the text of the file (C115) through METIS and reordering (C85) to the seven objects in the harness (C117), with SpTrSv_LL_HDAGG::build_set, which was not modelled before | composition of C05, C16, C49, C50, C73 in the harness; one pair of neighbours without fill serves wavefront, HDAGG and LBC; a group leads along single successors to one node (C46, strengthened), so groups with different last rows are not on one path; parts are kept by renaming and by fill, and each has a last row |
| C123 | proved | DemoStat: averWsize and consecutiveRatio of the demo classes, plain and for grouped columns; a quotient is the pair of its two whole numbers | invariants of the loops (telescoping sums over pointers); the number of neighbours of a list is at most the number of elements whose successor is in the list, with equality for ascending lists |
| C124 | proved | Ic0Main: the harness on a factor (setting_up copies the matrix into the factor, testing compares nnz values), the seven objects, reordering, reading of the file | the harness is unrolled run by run (every run starts from the matrix again); C109-C113 for the executors, C60/C85/C115 for the matrix; the groups are a partition into intervals, so one path through all groups makes the group matrix a chain, which LBC refuses |
| C125 | proved | Ic0CsrMain: the classes for rows on the harness of Ic0Main, reordering, reading of the file | C111 for the kernels, uniqueness of the scaled rows, C124_evaluate for the harness, C26 for the conversion to rows |
| C126 | proved | BcscMtx: the writer on the characters of the file, on the blocked format of Bcsc | the loops append the lines of the entries; C59 for the format, C115 for the reader, C115 round trip lemmas for the text |
| C127 | proved | SpmpHdagg: the branch parallelLevelset of GLC_V2 (make_full, csc_to_csr, Convert_LBC_CSR_to_SpMP, levelsetCSRParallel_SpMP, node_to_level) with SpMP as a parameter; HDAGG with an arbitrary value of the uninitialised nlevels | the levels meet the invariant LevelOk of the level sets, with which the rest of GLC_V2 was proved (C18); C06 for the solve; the loops of HDAGG by unfolding |
| C128 | proved | GenMtx.generate: make_full, metis_perm_general, make_half, transpose_symmetric twice (Prepare.reorder), csc_to_csr, make_full, csc_to_csr; METIS a parameter, a build without METIS is none | composition of C85, C26 and C29; the finding on a literal matrix with METIS numbering backwards |
| C129 | proved | GenMtx.partitioning: both branches, with permGeneral, permSymmetric, copySparse, transposeSymmetric, makeFull, partGeneral, partSymmetric | composition of C82, C83, C51, C60 and C29; that the renumbered pattern has each diagonal entry once by counting coordinates |
| C130 | proved | LbcMain.program, runRandom, run, inspect, printHLevelSet, printLevelSet: reading, reordering, costs, tree inspector, output as text; the command line is parameters | the loops append lines (forRange_append); the lines of consecutive parts are consecutive slices of the nodes; C72, C85, C115 for the rest; reading back by cancelling digits up to the comma |
| C131 | proved | Mmio.isValid, scanLine, scanLines, readCrd, readUnsymmetric, writeCrd, writeBanner, writeSize, writeArraySize on the text of the file; mm_read_banner and mm_read_mtx_crd_size from C115 | induction on the entries of a text with any white space (Spec/MmioText.lean); the written text meets that specification |
| C132 | proved | DagTest.inspect, measure, program: file, METIS, conversion to rows, costs, the loop of ten runs with their own interleavings and array contents, median | C115 and C85 give the matrix; invariant of the loop of ten in total and partial form (wpm) over C55, C36, C01-C04; chains of lower triangular matrices are exactly those in which every row uses the row before |
| C133 | proved | StatSp.fromMatrix, fromDag, fromSched, fromGroupSched: the constructors with the members they set; a member that is not set and a quotient by zero are `none` | C44 gives the groups, C102 their graph, C45 its levels as longest paths, C90 the loads; the sums are folds over the levels |
| C134 | proved | Profile.report, Profile.program: the program from the text of the file to the members of `StatSpMat` | C115 and C85 give the matrix, C26 its rows, C57 and C73 the schedules, C01-C04 the number of level sets, C133 the numbers |
| C135 | proved | TextBlock.printString, readString on the streams of C115, with seekg | induction over the lines with the rule of getline for one line; the last step by cases on what follows |
| C136 | proved | Mtx.readMtxArray, printDense, printConstant, readConstant on the streams of C115 | induction over the values of the file; induction over the lines that are written; the remainder by lda for the access behind the end |
| C137 | proved | Mtx.printDenseFd | both loops as concatenations; cancellation of words and lines from the front |
| C138 | proved | Mmio.readArraySize with the comment loop of C115 | induction over the comments and over the steps of the loop that never ends |
| C139 | proved | P2P.numberOfP2P with the thread codes of C113 | simulation of the loops that build the codes by the loops that count; induction over the threads |

## 3. What is modelled and what is not

Modelled (lines are cited at each definition):

| file in /repo | modelled | not modelled |
|---------------|----------|--------------|
| utils/FusionDemo.cpp | evaluate, setting_up, testing, the vectors; generate_matrices as in C85 | profiling, output |
| example/SpTRSV_runtime.h, measures | computeCharacteristics, computeStatistic, getPotentialGain, computeMetrics | computeStatistic of LBC |
| Catch_tests/sptrsv_tests.cpp | testSptrsvCsr, random section | section over a directory of files, output |
| example/sptrsv_demo.cpp | lbc_demo from the matrix on, random mode | command line, output |
| example/SpTRSV_runtime.cpp | main from the file on, with METIS, without SpMP, MKL, DAGP | command line, random mode, output, statistics |
| example/old/spic0_demo_utils.h, measures | averWsize, consecutiveRatio | the other members of the classes |
| example/old/spico_csc_demo.cpp | spic0_demo01 with a file and METIS up to the last evaluate | random mode, CSV output, destructors |
| example/old/spic0_demo.cpp | spic0_demo01 with a file and METIS up to the last evaluate | random mode, CSV output, destructors |
| src/hdagg/hdagg.cpp | all inspectors (HDAGG, GLC_V2, coarsened levels), level sets, components, sparsification, groupings, costs, ungrouping, post order, schedules | statistics and printing |
| src/lbc_csc_dag.cpp, src/lbc_utils.cpp | DAG inspectors, sequential and parallel; packing, merging, height partitioning, BFS, costs | nothing |
| src/group.cpp, src/group_utils.cpp, include/.../group.h | row and column run groupings, chains, group levels, group graph | old class interfaces |
| src/lbc_tree.cpp | `get_coarse_levelSet_tree` | the parts inside `#if 0`, the timing variables |
| src/lbc_csc.cpp | all | `#ifdef CHECK` verification |
| src/lbc_blocked.cpp | all | costs of the windows |
| src/Group/* | `fs_csr_inspector_dep`, `Group_DAG`, `detectDAGCircle`, greedy and collection groupings (Group.cpp:314-730) | older copies of the classes in src/group.cpp |
| utils/sparse_utilities.cpp | conversions, transposition, halves, permutations, post order, copies, BFS, `transpose_symmetric`, children, heights and subtree costs of forests, `post_order_spliting`, `add`, `make_symmetric`, `merge_graph`, `merge_DAGs_with_partial_order`, `coarsen_k_times`, `tridiag`, `sparse2dense`, `residual`, `norm` | printing |
| utils/sparse_inspector.cpp | `build_levelSet_CSC`, queue levels, `level_set_multi_graphs`, `build_levelSet_BCSC`, `find`, `sup2node_gen`, `merge_graphs`, `compute_depth`, `level_set_bn`, `bcsc_csc_bcsc_levelset` | nothing |
| utils/etree.cpp, utils/lfactor_creation.cpp | all but memory management | METIS call: an arbitrary permutation |
| utils/SuperNodalTools.cpp, utils/BCSCMatrix.cpp | all | printing |
| utils/sparse_io.cpp | `dense_to_csc`, `compress_triplets_to_csc`, `read_mtx`, `read_mtx_csc_real`, `read_header` and the writers `CSC_to_mtx`, `BCSC_to_mtx`, `print_csc` on the characters of the file, `convert_to_one_based`, `verify_csc_diagonal` | conversion of real numbers, other printing |
| include/aggregation/csv_utils.h | `CSVManager` | `toString`, messages |
| utils/external/mmio.cpp | `mm_read_banner`, `mm_read_mtx_crd_size`, `mm_write_banner`, `mm_write_mtx_crd_size`, `mm_typecode_to_str` | the functions that the repository does not call |
| utils/utils.cpp, test_utils.cpp | size arithmetic, right-hand side, uniqueness check, partition by weight and by BFS, random matrices, comparisons, median of times, file names | - |
| example/sptrsv_src/* , example/sptrsv_demo_utils.h, example/SpTRSV_runtime.h | serial and parallel triangular solves, operation and load statistics, demo drivers for HDAGG, LBC, grouping | timing and MKL drivers |
| utils/external/DAGPInterface/includes/dagp_utils.h | `convert_to_pgraph`, `build_levelSet_CSC_pgraph`, `get_h_level_set`, `dagp_partition` around the library | dagP itself (assumption `LibOk`), `get_h_level_set_V2` (calls a function that does not exist), printing |
| example/SpMP_Interface.h and the SpMP drivers of example/SpTRSV_runtime.h | conversion, task graph input, point-to-point solves; the barrier and the wait/notify macros as atomic flag operations | SpMP itself (oracle `OracleOk`), its branch for unsymmetric patterns |
| utils/metis_interface.cpp | all but `metis_partitioning` | METIS itself, `IpermIDX` |
| example/old/spic0.cpp | all incomplete Cholesky kernels | nothing |
| example/old/spic0_demo_utils.h | set-up and run of the classes for columns | timers, statistics, memory management |
| mmio, profiler, rest of example/old, external interfaces, tests | nothing | all |

## 4. Findings

Each is a theorem in the manifest (see the table in section 2 for its property):

* Level sets return -1 on chains (an acyclic graph with n levels), and HDAGG, GLC_V2 and both LBC inspectors throw on them
  (`C04_error_code_exact`, `C14_hdagg_throws_on_chains`, `Lbc.C36_throws_on_chains`, `Lbc.C55_throws_on_chains`, `C49_banded_matrices_throw`).  The grouped wavefront
  solver does not check the code and returns the right-hand side as the solution (`C50_wrong_solution`); the coarsened
  schedule then reads `WM[0]` out of bounds (`C19_chain_out_of_bounds`).
* HDAGG: assertion of line 431 fails in debug builds, zero costs lose nodes.
* LBC: non-monotone guard loses nodes, zero parts or no packing are undefined; `lbc_config` gives `cp = ic = 0` for small ratios, outside of the guard of C35.
* `computePostOrder` reads `back()` of an empty stack; partial sparsification overflows a buffer without OpenMP;
  `inspection_sptrsvcsr_v2` is undefined on every non-empty matrix.
* `csr_to_csc` is wrong for non-square matrices; several conversions read unallocated memory for matrices without rows or columns;
  `copy_from_to` keeps old column pointers; `compress_triplets_to_csc(add_diags)` overflows; `mult_size_t` does not return 0 on overflow.
* BCSC: supernodes are one wider than the limit, `createFormat` reads behind a column, `compressed_BCSC_to_CSC` always writes out of bounds;
  column supernodes have `off_diag_size` one too small and dereference a null CSR.
* `transpose_symmetric` accepts `Perm[k] = n`; the symbolic factorization is undefined unless the matrix is flagged lower symmetric.
* `merge_DAGs_with_partial_order` returns `nnz` too large by `n` for every graph but the last; `merge_graph` (CSC form) and
  `coarsen_k_times` write to a null pointer for graphs without nodes (C80, C81).
* `get_tree_height_efficient` ignores the weight of the leaf; `build_level_set_tree_efficient` overflows for one node.
* LBC for forests: `levelCost` is read behind its end in every forest with more than two levels, `levelPtr` for chains; `minLevelDist = 1` can
  overflow `finalPartPtr`; the numbers of parts are stored out of step with the windows (C68, C69).
* `add` leaves `nnz` too large when entries coincide; `make_symmetric` uses a null pointer for matrices without rows;
  `get_coarse_levelSet_DAG_CSC_tree` fails on chains and deletes the matrix twice for `stype` > 1 (C70-C72).
* `chainGrouping` is undefined for unsorted columns and for the empty graph; `convertCNScheduleToSuperNode` lists a split supernode twice (C74, C77).
* `computeNoneZeroPatternOfRowK` reads `s[n-1]` before writing it and asserts `n ≠ 1` (C79).
* `tree_post_order` asserts on n = 0; empty cost vectors overflow; the ILU cost loop stops at the first empty row.
* METIS interface: the symmetric variants hand METIS a graph in which node 0 is a neighbour of every node, its own included
  (`C83_never_accepted`, `C83_one_direction`), and overrun the array if a diagonal entry is missing (`C83_missing_diagonal_ub`);
  the coarsened variant gives node j the part of block j instead of block j / c (`C84_coarsened`, `C84_not_blocks`).
* `read_mtx` returns a wrong or malformed matrix for files with an empty column and overruns the pointer array for files not ordered
  by column (`C86_read_iff`, `C86_too_many_runs`, `C86_unsorted`); with METIS an unsymmetric file makes the example programs
  dereference a null pointer (`C85_unsymmetric_ub`).
* `level_set_multi_graphs` sets the in-degrees of the copies to 0x01010101 (memset), so edges never release a node of a copy; the levels
  are right all the same because the next copy of a node is pushed unconditionally.  No copy at all is undefined, nodes of cycles are dropped (C87).
* `get_coarse_levelSet_DAG_CSC` overruns `finalPartPtr` for one node, for a chain of two nodes cut at distance 1 and without bin packing on
  graphs without edges; it loses nodes if the diagonal is not first in its column (C88).
* `partition_by_weight` assigns no node at all if all weights are zero, and loses nodes if the given targets are too small;
  `partition_by_bfs` with no parts indexes `set_temp[-1]` (C89).
* Without OpenMP `fs_csr_levelset_stat`, `sptrsv_csr_lbc_stat` and `sptrsv_csr_group_lbc_stat` use thread index 1 with a
  counter array of length 1 and write out of bounds at the first row (C90).
* `random_square_sparse` restarts the random engine for every column, so with a fixed seed (the default) all columns have the
  same rows up to the diagonal; it has undefined behaviour for `n = 0` and for densities that give no entry.
  `is_equal(CSC*, CSC*)` takes a NaN to be equal to anything (C91).
* `tridiag` writes out of bounds for `n = 1` and declares `stype = -1` and a pattern although it stores both halves with
  values; `convert_to_one_based` assigns the new values to themselves, so all values of its result are 0;
  `extract_diagonals` leaves elements uninitialised for columns without a diagonal entry (C92).
* `residual` and `norm` ignore NaN: a solver that produced only NaN would have residual 0 (C93).
* `computePostOrderAndGroup` reads the second entry of every column, also of columns that have none; for the last
  column that is past the end of the vector (the value is not used).  Repeated entries are not noticed: the chain is
  split, the group graph has repeated entries, and all assertions pass.  The assertion
  `in_degree[next] == out_degree == 1` compares a Boolean with 1 (C94).
* `build_levelSet_BCSC` has `while (inDegree[begin] == 1) begin++` without a bound and always runs past the end of
  the array (C95).  `getCoarseLevelSet_DAG_BCSC02` relabels all but the first of the components that meet, although
  the first need not be the one with the smallest number, and lowers the number of components without closing the gaps
  in their numbers; for patterns that are not those of a Cholesky factor the result is undefined or a wrong schedule
  (C96).  `finalPartPtr` has room for one part less than there are blocks.
* `compute_depth` does not test the error code -1 of `build_levelSet_CSC`, which it also gets for every graph with a
  path through all nodes; then the array is not written (C97).  `find` calls itself for ever if the value is absent (C98).
  `merge_graphs` reads `nB->i[nB->p[j]]` where `nB->i[nB->p[j] + r]` is meant and loses dependences (C99).
* `level_set_bn` follows only the first (last) column of every supernode and loses the dependences of the others; it
  initialises the degrees of the later copies with `memset(.., 1, ..)`, which is 0x01010101 per integer, and is right only
  because no counter reaches this value (C100).  `bcsc_csc_bcsc_levelset` starts only with sources of the first kernel:
  a supernode of the second kernel without dependences is never listed (C101).
* `detectDAGCircle` only finds cycles of length one and two (C102).  The comment of `startGrouping` says that candidates
  are in `[head, head + S)`, the code also takes distance `S`; the header says that `getGroupedRangeArray` has two entries
  per group, the code writes the boundaries (C103).  `mergeSmallGroups` loses all columns if the threshold is above the
  number of entries (C104).  `startCNGrouping` and `startSingleChildGrouping` read `group_set[n]` after its end for every
  non-empty graph, and the latter never groups anything (C105).  src/Group/Group.cpp is not in the list of compiled files,
  although its classes are declared in include/aggregation/group.h.
* `aggressiveSupernodeGrouping` builds an invalid range for an empty first column, and stops the search at the first column
  of another length (C106).  `merge_inner_part` writes the costs one place later than the clusters, so after the end if
  every part is a cluster, and does not end for a threshold that is not positive (C108).  The parallel incomplete Cholesky
  kernels are only deterministic if subtractions commute, so not for floating-point numbers (C110).
* The incomplete Cholesky kernels for rows guard the update by `Li[l] == Li[k] && Li[l + 1] <= Li[k]`, which never holds in
  sorted rows; they only scale the rows and their result is not a factor (C111).
* `inspection_spicocsc_v2` reads `child[ncol]` as soon as the last column gets into a group, for example for every matrix whose
  last sub-diagonal entry is stored; `status[curIdx]==2;` has no effect (C107).
- C113: without OpenMP the point-to-point solvers set `tid = 1` for a team of one thread; they clear no flag and
  read `threadBoundaries[2]`, behind the end for a task graph made for one thread
  (`C113_no_openmp`).  With more threads than the task graph was made for they read behind the end as
  well (`C113_larger_team`); with fewer, rows are left unsolved without an error
  (`C113_smaller_team`).
- C114: `convert_to_pgraph` stores the edges between the parts turned round, so the solver with dagP is right
  only if `loadFromCSC` reads the rows of a column as origins of edges; with the other reading the schedule is reversed
  and the solve is wrong (`C114_other_direction`).  Parts with a cycle give -1 levels, and without assertions
  `get_h_level_set` returns 1 all the same and the solver leaves the right-hand side as it is (`C114_cyclic`).
- C115, broken files: `read_header` never returns if the file ends on a comment without the end of the line
  (`C115_comment_at_end_hangs`); `mm_read_mtx_crd_size` never returns if the size line and what follows are not
  numbers (`C115_size_hangs`); a file with too few entries gives the null pointer in `read_mtx` and an access at
  index -1 in `read_mtx_csc_real` (`C115_short_file`, `C115_short_file_csc`); a first word of 64 characters or more
  is written beyond its array (`C115_long_word`); the part of a comment behind its 1024th character can be taken
  for the sizes (`C115_long_comment`).
- C115, correct files: `read_mtx` misreads patterns and arrays, since it does not look at these words
  (`C115_pattern_misread`, `C115_array_misread`); `CSC_to_mtx` always writes `general`, so a symmetric matrix comes back
  as a general one (`C115_symmetry_lost`).
- C116: the measurements of dagP never get into the table, since their column `Profitable` is not set
  (`C116_dagp_missing`, SpTRSV_runtime.cpp:540-550); with two columns of the same name nothing is ever written
  (`C116_duplicate_names`); the values of an incomplete record appear in the next one (`C116_stale_values`); an existing
  file is continued whatever its columns are (`C116_other_columns`); commas in values are not quoted (`C116_comma`); a
  path such as `../a.mtx` makes the range of the matrix name end before it begins (`C116_mat_name_dot`).
- C117: with `set_num_test(0)` nothing is solved and the time is -1 (`C117_no_tests`); only the last of the runs is
  checked, so a race that shows in the others goes unnoticed (`C117_only_last_checked`); for chains, for which
  `build_levelSet_CSC` gives up, the wavefront class reports the right-hand side as its solution
  (`C117_wavefront_chain`); if SpMP has run with fewer threads than `nthreads`, the task boundaries are read out
  of bounds (`C117_spmp_larger_team`).
- C119: the smallest part of a level starts with `n_`, a number of rows, but is compared with costs: a perfectly balanced
  schedule with parts of cost `x > n` is reported with a difference of `x - n` (`C119_balanced_not_zero`).  After
  ungrouping, `computeStatistic` reads the costs of groups with the numbers of rows, out of bounds
  (`C119_statistic_out_of_bounds`).  With fewer threads than parts the potential gain is negative (`C119_gain_negative`).
  `computeMetrics` adds to the values of two of its reference parameters (`C119_metrics_accumulate`), and what it calls
  the cost of ILU0 is the formula of IC0 applied to the full matrix (`C119_metrics`).  `computeStatistic` of the LBC class
  (SpTRSV_runtime.h:1701-1703) uses `part_no` before it is set; it is not modelled.
- C120: the unit test fails for every chain whose solution is not the vector of ones, although the solvers are right
  (`C120_test_chain`, `C120_chain_fails`).  Its random matrices never are chains, because with the default seed all columns
  are shuffled alike: at most `k + 1` levels (`C120_default_seed`).  The configuration with one entry per column tests
  diagonal matrices only (`C120_one_per_column`).
- C121: the demo is undefined for every matrix with more than two rows whose elimination tree is a chain
  (`C121_etree_chain`), for instance two rows that depend on the first one and not on each other (`C121_star_fails`).
- C122: the benchmark never ends normally if the elimination tree is a chain of more than two rows (reads behind the end
  of an array, C72) or if the groups of an HDAGG object are on one path (exception from `std::vector`, C49); for full
  matrices this happens with every numbering (`C122_full_fails`).
- Not modelled, seen while reading example/SpTRSV_runtime.cpp: `getWaveStatistic` of the classes with HDAGG returns
  `part_no`, which is never set, and the benchmark prints an average computed from it; without METIS the file does not
  compile, since `tmp` is declared twice (lines 98 and 165).
- C123: `consecutiveRatio` of the grouped class (example/old/spic0_demo_utils.h 439-441) adds the last group of every part
  to the numerator in full and adds `groupPtr[x]-groupPtr[x]` to the denominator; for perfectly consecutive parts the
  numerator is `n` and the denominator at most `n - 2·parts` (`C123_grouped_above_one`).
- C123: `consecutiveRatio` of the plain classes counts -1 for an empty part (`C123_ratio_two`) and divides 0 by 0 if every
  part has one node (`C123_no_number`).
- C124: the incomplete Cholesky demo (example/old/spico_csc_demo.cpp) never ends normally if one dependence path visits
  all groups of columns, for instance if every two unknowns are coupled (`C124_full_fails`).
- C125: the demo of the row kernels (example/old/spic0_demo.cpp) compares three objects that agree on values that are not
  a Cholesky factor (`C125_demo`, `C125_not_factor`); it never ends normally if one path visits all columns.
- C126: a lower triangular matrix written by `BCSC_to_mtx` does not come back lower triangular if a block has two columns
  (`C126_not_lower`); an empty block is a division by zero (`C126_empty_block`).
- C127: `HDAGG` with `parallelLevelset = true` never returns a schedule with the nodes of a non-empty graph
  (`C127_hdagg_never`): the branch is guarded by the macro `SpMP`, the build defines `SPMP`. In `GLC_V2` the macro is
  right, but dependences of a graph that is not lower triangular are turned around (`C127_upper_reversed`).
- C128: `generate_matrices_from_mtx` renumbers what it returns, but the caller goes on with the matrix passed in, which
  keeps its numbering (`C128_caller_numbering`); without METIS it dereferences a null pointer.
- C129: `metis_partitioning` chooses by `is_pattern` instead of `stype`; for half a matrix with values, and for every
  pattern, METIS gets a graph it does not accept (`C129_half_not_accepted`, `C129_pattern_not_accepted`).
- C130: like the other programs with the tree inspector, `lbc_demo` fails if the elimination tree is a chain
  (`C130_chain`, `C130_star_fails`).
- C131: `mm_read_mtx_crd` of an integer file returns 0 and arrays in which nothing is stored (`C131_integer_unfilled`);
  three writers compare the number of characters that `fprintf` returns with the number of conversions and always report
  an error (`C131_return_codes`); `mm_read_unsymmetric_sparse` does not look at what `fscanf` returns (`C131_short`).
- C132: `sptrsv_dag_test.cpp` throws on chains in modes 0 and 1 (`C132_throws`) and prints a time although
  `build_levelSet_CSC` returned -1 in mode 2 (`C132_level_sets`).
- C133: with one level `VarianceMaxDiff` of `StatSpMat` is the root of 0/0 (`Levelled.balance`), and the constructor for
  schedules never assigns `npart`, which `PrintData` prints (`C133_sched`).
- C134: `sptrsv_csr_profile` passes `p2` as the block size of the groups, but the constructor does not use it
  (StatSpMat.cpp:39); for option 1 it passes `getPartNo()`, a member which the inspector never sets, and the constructor
  does not use it either.
- C135: `read_string` swallows a line with a negative number that follows a block (`C135_minus_lost`); the source has a
  TODO at this test.
- C136: `read_mtx_array_real` does not look at the symmetry: a symmetric file, which stores one triangle, is read as
  another matrix, filled up with zeros (`C136_read_short`).  `print_dense` reads behind the end if `lda` does not divide the
  number of values (`C136_print_past_end`).
- C138: `mm_read_mtx_array_size` never returns if a word that is not a number stands where the sizes are expected
  (`C138_hangs`), as `mm_read_mtx_crd_size` (C115).

Where a property of the first list turned out false, `properties.jsonl` states the exact guard, or the property is `partial` and the
`_partial` theorem proves what holds next to a theorem refuting the rest.

## 5. Testing the theorems against wrong programs

`seeded/LOG.jsonl` has one line per wrong program: an edit of a model definition, made in a copy outside of /verif, with the theorems
that fail.  Edits that no theorem notices are either equivalent programs or led to a tightened theorem, as the log says.

## 6. Trusted base

* The kernel of Lean 4.33.0 and the Mathlib definitions used in statements.
* The hand translation of C++ to the model, within the conventions of section 1.
* The English statements in properties.jsonl against the theorem statements.
* No axioms are added.  No `sorry`, `native_decide` or `bv_decide` is used.

### Axioms of each theorem

* `propext, Classical.choice, Quot.sound` (427 theorems): C01_levelset_permutation, C02_levels_respect_dependences, C03_levels_longest_path, C04_error_code_exact, C05_levelset_solve_eq_serial, C05_levelset_solve_end_to_end, C05_levelset_seq_eq_serial, C06_lbc_solve_eq_serial, C06_lbc_seq_eq_serial, C07_no_data_race, C08_serial_solve_correct, C09_group_lbc_eq_serial, C09_group_levelset_eq_serial, C10_components_exact, C11_components_terminate, C12_labels_in_range, C13_computeCC_exact, C13_computeCC_finishes, C14_hdagg_complete, C14_hdagg_throws_on_chains, C15_hdagg_respects_dependences, C15_hdagg_together, C16_hdagg_end_to_end, C17_packing_covers_components, C18_glc_valid, C19_coarsened_valid, C19_coarsened_valid_any_factor, C19_chain_out_of_bounds, C20_post_order_topological, C20_back_of_empty_stack, C20_chains_contiguous, C21_sparsification_reachability, C22_sparsification_removes, C22_sparsification_no_shortcut, C23_group_graph, C23_group_dependences, C24_tree_grouping_partial, C25_ungroup_sorted, C25_ungroup_post_order, C25_ungroup_plain, Sp.C26_csc_to_csr_keeps_matrix, Sp.C26_csc_to_csr_keeps_pattern, Sp.C26_csc_to_csr_arrays_keeps_matrix, Sp.C26_round_trip, Sp.C26_csr_to_csc_square, Sp.C27_transpose, Sp.C27_transpose_pattern, Sp.C27_transpose_twice, Sp.C28_make_half, Sp.C28_make_half_pattern, Sp.C29_make_full, Sp.C29_make_full_symmetric, Sp.C29_half_of_full, Util.C30_inv_perm, Util.C30_compute_inv_perm, Util.C30_reorder_array, Util.C30_round_trip, Sp.C31_permute_general, C32_compute_etree, C32_compute_etree_unsym, Util.C33_add_exact, Util.C33_mult_partial, Lbc.C34_worst_fit, Lbc.C34_no_node_lost, Lbc.C34_balance, Lbc.C35_height_partition, Lbc.C36_lbc_valid, Lbc.C36_throws_on_chains, Lbc.C37_bfs_topological, Util.C38_dense_to_csc, Util.C39_triplets_partial, Util.C39_add_diags_arrays_too_short, Util.tripSorted_iff, C40_csr_supernodes, C40_csc_supernodes, C40_block_supernodes, C40_block_supernodes_upper, Util.C41_rhs_row_sums, Util.C41_solution_is_ones, Util.C41_hdagg_pipeline, Util.C42_test_unique, C43_tree_post_order, C43_tree_post_order_weight, C43_child_first, C43_etree_post_order, C44_csr_runs, C44_csc_runs, C44_naive_blocks, C45_queue_levels, C45_queue_levels_acyclic, C46_tree_grouping, C46_tree_grouping_bfs, C47_etree, C47_etree_covers, C47_factor_same_reach, C48_group_costs, C48_node_costs, C49_tree_hdagg, C49_groups, C49_banded_matrices_throw, C50_tree_wavefront_partial, C50_banded_returns_rhs, Sp.C51_number_empty_col, C52_grouping_solver, C53_csr_v2_ub, Lbc.C54_lbc_end_to_end, Lbc.C55_seq_lbc_valid, Lbc.C55_throws_on_chains, Lbc.C56_lbc_demo_solver, Lbc.C57_grouped_lbc_solver, C58_supernodal_rows, C58_supernodal_cols, C58_schedule, C58_null_csr_ub, C59_blocked_format, C59_constructor, C59_supernode_rows, C59_compress_ub, C60_transpose_symmetric, C60_pattern, C60_reordered, C61_ereach, C61_after_etree, C62_pattern, C63_counts, C64_symbolic_factor, C64_upper_ub, C65_populate_children, C65_heights, C65_weighted_heights, C65_weighted_efficient_height, C65_subtree_cost, C66_level_set_tree, C66_children_earlier, C67_post_order_splitting, LbcTree.C68_height_partitioning, LbcTree.C69_forest_lbc, LbcTree.C69_flat_forest, LbcTree.C69_reads_past_end, LbcTree.C69_chain_fails, C70_add, C70_add_pattern, C71_unsymmetric, C71_unsymmetric_pattern, C71_other_triangle, C72_dag_etree, C72_tree_lbc, C72_lower, C72_chain_fails, C73_lbc_tree_demo, C73_lbc_tree_runtime, C74_chain_grouping, Final.C75_final_dag, Final.C76_entry_schedule, Final.C76_columns_sorted, Final.C77_supernode_schedule, Final.C78_node_level, C79_row, C79_rows, C80_coarsen, C81_merge_graph, C81_partial_order, C82_perm_graph, C82_perm, C82_partition, C83_perm_symmetric, C83_partition_symmetric, C84_coarsened, C84_own_block, C85_reorder, C85_with_metis, C85_without_metis, C86_read, C86_read_iff, C86_too_many_runs, C86_to_solver, C87_multi_levels, C87_multi_levels_acyclic, Lbc.C88_csc_lbc_valid, Lbc.C88_csc_lbc_solve, Lbc.C88_diagonal_not_first, PartW.C89_bfs_partition, PartW.C89_bfs_greedy, PartW.C89_weight_partition, PartW.C89_weight_complete, PartW.C89_weight_zero_loses, Stat.C90_csr_counts, Stat.C90_csr_reuse, Stat.C90_ic0_counts, Stat.C90_levelset_load, Stat.C90_lbc_load, Stat.C90_group_load, Stat.C90_lbc_no_openmp_ub, Stat.C90_levelset_no_openmp_ub, Stat.C90_group_no_openmp_ub, TestU.C91_random_square, TestU.C91_random_none_ub, TestU.C91_random_fixed_seed, TestU.C91_random_prepared, TestU.C91_equal_csc, TestU.C91_equal_exact, TestU.C91_rhs_blocked, SmallU.C92_tridiag, SmallU.C92_sparse2dense, SmallU.C92_sparse2dense_sym, SmallU.C92_sparse2dense_symmetric, SmallU.C92_sparse2dense_value, SmallU.C92_dense_roundtrip, SmallU.C92_extract_diagonals, SmallU.C92_verify_diagonal, SmallU.C92_tree_to_csc, Measure.C93_residual, Measure.C93_residual_zero, Measure.C93_norm, Measure.C93_strip_name_no_ext, PostGroup.C94_post_order_and_group, Blocked.C95_blocked_levels, Blocked.C95_blocked_levels_ub, Blocked.C96_blocked_schedule, Blocked.C96_blocked_schedule_filled, Inspect.C97_compute_depth, Inspect.C97_compute_depth_silent, Inspect.C98_find, Inspect.C98_sup2node, MergeG.C99_merge_graphs, MergeG.C99_exact_if_single, FLevel.C100_level_set_bn, FLevel.C100_level_set_bn_upper, FLevel.C100_schedule, FLevel.C101_fused_levels, FLevel.C101_schedule, FLevel.C101_orphans_missing, FLevel.C101_orphan_witness, GGraph.C102_rows, GGraph.C102_parallel, GGraph.C102_group_dag, GGraph.C102_circles, GGraph.C102_consecutive, Greedy.C103_greedy, Greedy.C103_unique, Greedy.C103_grouped_graph, Greedy.C104_merge, Greedy.C104_all_lost, Greedy.C104_merge_cheaper, Collect.C105_cn_groups, Collect.C105_cn_ub, Collect.C105_single_never_groups, Collect.C105_single_ub, Collect.C105_input_edges, Aggr.C106_aggressive, Inner.C108_merge, Inner.C108_out_too_short, Inner.C108_no_progress, Ic0.C109_serial, Ic0.C109_factor, Ic0.C110_lbc, Ic0.C110_levelset, Ic0.C110_group_lbc, Ic0.C110_group_levelset, Ic0.C110_race_free, Ic0.C110_levelset_end_to_end, Ic0.C110_lbc_end_to_end, Ic0r.C111_serial, Ic0r.C111_lbc, Ic0r.C111_levelset, Ic0r.C111_not_factor, C107_groups, C107_extra, C107_ub, C107_ub_feeder, Ic0Demo.C112_grouping, Ic0Demo.C112_grouping_lbc, Ic0Demo.C112_lbc, P2P.C113_spmp_solve, P2P.C113_p2p_solve, P2P.C113_convert, P2P.C113_spmp, P2P.C113_hdagg_p2p, P2P.C113_larger_team, P2P.C113_no_openmp, P2P.C113_smaller_team, Dagp.C114_levels, Dagp.C114_pgraph, Dagp.C114_schedule, Dagp.C114_cyclic, Dagp.C114_dagp_solver, C115_read_mtx, C115_read_csc, C115_read_pattern, C115_readers_agree, C115_csc_to_mtx, C115_print_csc, C115_print_csc_fd, C115_round_trip, C115_round_trip_exact, C115_round_trip_csc, C115_header_sound, C115_comment_at_end_hangs, C115_size_hangs, C115_short_file, C115_short_file_csc, C115_long_word, C115_long_comment, C115_pattern_misread, C115_array_misread, C115_symmetry_lost, C116_table, C116_width, C116_parse, C116_duplicate_names, C116_stale_values, C116_other_columns, C116_comma, C116_driver_rows, C116_dagp_missing, C116_mat_name, C116_mat_name_dot, C117_evaluate, C117_no_tests, C117_only_last_checked, C117_serial, C117_serial_exact, C117_agrees, C117_wavefront, C117_wavefront_chain, C117_spmp_levels, C117_spmp_larger_team, C117_parallel_wavefront, C117_scheduled, C118_serial, C118_exact, C118_tree_hdagg, C119_characteristics, C119_shares_at_most_one, C119_statistic, C119_balanced_not_zero, C119_statistic_dagp, C119_potential_gain, C119_gain_bounds, C119_gain_negative, C119_metrics, C119_metrics_accumulate, C120_test, C120_test_chain, C120_random, C120_default_seed, C120_one_per_column, C121_demo, C121_demo_metis, C121_random, C121_etree_chain, C121_star_fails, C121_file, C121_file_metis, C122_benchmark, C122_disconnected, C122_full_fails, C123_ratio, C123_sorting_best, C123_grouped_above_one, C124_evaluate, C124_demo, C124_program, C124_disconnected, C124_full_fails, C125_demo, C125_program, C125_not_factor, BcscMtx.C126_file, BcscMtx.C126_round_trip, BcscMtx.C126_constructor, BcscMtx.C126_empty_block, BcscMtx.C126_explicit_zero, SpmpH.C127_glc_valid, SpmpH.C127_glc_end_to_end, SpmpH.C127_same_levels, SpmpH.C127_upper_reversed, SpmpH.C127_hdagg_never, SpmpH.C127_oracle_exists, GenMtx.C128_matrices, GenMtx.C128_consistent, GenMtx.C128_caller_numbering, GenMtx.C129_general, GenMtx.C129_pattern, LbcMain.C130_print, LbcMain.C130_print_levels, LbcMain.C130_readable, LbcMain.C130_file, LbcMain.C130_file_metis, LbcMain.C130_random, LbcMain.C130_chain, LbcMain.C130_star_fails, Mmio.C131_read, Mmio.C131_rejects, Mmio.C131_integer_unfilled, Mmio.C131_short, Mmio.C131_unsymmetric, Mmio.C131_unsymmetric_rejects, Mmio.C131_write, Mmio.C131_round_trip, Mmio.C131_shift, Mmio.C131_return_codes, Mmio.C131_write_integer, DagTest.C132_sequential, DagTest.C132_parallel, DagTest.C132_level_sets, DagTest.C132_throws, StatSp.C133_levels, StatSp.C133_sched, StatSp.C133_group_sched, Profile.C134_levels, Profile.C134_groups, Profile.C134_lbc, DenseText.C136_read, DenseText.C136_read_short, DenseText.C136_read_refused, DenseText.C136_print, DenseText.C136_round_trip, DenseRows.C137_file, ArraySizes.C138_read, ArraySizes.C138_read_blank, ArraySizes.C138_end, ArraySizes.C138_end_blank, ArraySizes.C138_hangs, ArraySizes.C138_round_trip, P2PCount.C139_waits, P2PCount.C139_total.

* `propext` (81 theorems): C14_debug_assertion_fails, C14_zero_costs_lose_nodes, C17_zero_costs_lose_components, C19_empty_graph_divides_by_zero, C24_members_not_sorted, C25_ungroup_exceptions, Sp.C26_csr_to_csc_not_square, Sp.C26_csr_to_csc_wrong_shape, Sp.C26_csc_to_csr_no_rows, Sp.C27_no_rows, Sp.C29_make_full_unsymmetric, Sp.C29_make_full_empty, Sp.C31_needs_permutation, C32_duplicate_makes_loop, Util.C33_mult_overflow_not_zero, Lbc.C34_unbalanced_beyond_intmax, Lbc.C35_no_level_ub, Lbc.C35_zero_parameters_ub, Lbc.C35_zero_step_ub, Lbc.C36_zero_parts_ub, Lbc.C36_no_packing_ub, Util.C38_no_columns, Util.C39_add_diags_loses_values, C40_block_limit_exceeded, C40_off_diag_negative, C43_empty_asserts, C48_empty_cost_overflows, C48_ilu_break_loses_work, C50_wrong_solution, Sp.C51_copy_from_to_stale_pointers, Lbc.C55_zero_parts_ub, C59_read_past_end, C59_empty_column_ub, C59_unsorted_loses, C60_not_symmetric, C60_index_n_ub, C63_not_lower, C64_unsymmetric_ub, C65_efficient_height_differs, C66_single_node_undefined, LbcTree.C68_sizes_misaligned, LbcTree.C69_one_node_ub, LbcTree.C69_distance_one_ub, C70_other_stype, C70_nnz_too_large, C71_same_triangle, C74_unsorted_ub, C74_empty_ub, Final.C77_split_listed_twice, C79_stale, C79_one_row, C79_upper, C81_merge_graph_csc, C83_never_accepted, C83_missing_diagonal_ub, C83_unsymmetric, C85_unsymmetric_ub, C86_unsorted, C86_truncated, C87_no_copy, Lbc.C88_one_node_ub, Lbc.C88_two_chain_ub, Lbc.C88_no_packing_ub, PartW.C89_weight_target_loses, TestU.C91_equal_csc_nan, SmallU.C92_tridiag_one_ub, PostGroup.C94_read_past_end_ub, PostGroup.C94_repeated_entries, Blocked.C96_blocked_no_room, Inspect.C97_compute_depth_empty, MergeG.C99_merge_empty, FLevel.C100_no_copies, Ic0.C110_valid_needed, Ic0.C110_comm_needed, Dagp.C114_other_direction, C116_no_columns, GenMtx.C128_without_metis_ub, GenMtx.C128_unsymmetric_ub, GenMtx.C129_pattern_not_accepted, GenMtx.C129_unsymmetric_pattern_ub, DenseText.C136_constant.

* `propext, Quot.sound` (60 theorems): C24_numbers_not_lower, C32_lower_not_supported, LevelCuts.cover, Lbc.C36_nonmonotonic_loses_nodes, C40_dense_rows, C40_dense_cols, C44_naive_zero_ub, C48_work_pos, Sp.C51_copy_sparse, Sp.C51_copy_from_to_partial, Sp.C51_copy_from_to_same_pointers, C59_nothing_lost, C60_bad_permutation, C71_no_rows_ub, C72_double_delete, C80_dep, C80_undefined, C81_csc_empty, C83_one_direction, C84_not_blocks, PartW.C89_bfs_no_parts_ub, Stat.C90_loads_sum, TestU.C91_random_null, TestU.C91_random_empty_ub, TestU.C91_equal_value, TestU.C91_equal_range, SmallU.C92_one_based, Measure.C93_nan_ignored, Measure.C93_time_median, Measure.C93_strip_name, Blocked.C96_blocked_ub, Blocked.C96_blocked_silent_race, Inspect.C98_find_absent, Inspect.C98_sup2node_absent, MergeG.C99_merge_loses, FLevel.C100_copies, FLevel.C100_later_columns_lost, GGraph.C102_long_cycle_unseen, Aggr.C106_dense, Aggr.C106_empty_column, C119_statistic_out_of_bounds, C120_chain_fails, C123_average_size, C123_consecutive, C123_ratio_two, C123_no_number, C123_grouped, C123_average_size_grouped, C123_grouped_empty, BcscMtx.C126_not_lower, GenMtx.C129_half_not_accepted, TextBlock.C135_print, TextBlock.C135_read, TextBlock.C135_read_unfinished, TextBlock.C135_round_trip, TextBlock.C135_round_trip_exact, TextBlock.C135_minus_lost, DenseText.C136_print_past_end, DenseRows.C137_print, DenseRows.C137_determines.

