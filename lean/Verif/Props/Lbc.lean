import Verif.Proof.LbcAll
import Verif.Props.Hdagg

/-!
# C36, C37, C54: LBC with the parallel inspector

`get_coarse_Level_set_DAG_CSC03_parallel` (src/lbc_csc_dag.cpp 67-399) and `modified_BFS_CSC`
(utils/sparse_utilities.cpp).  Vocabulary: `Csc.Dep`, `Csc.Acyclic`, `Csc.IsDepth`
(Verif/Spec/Graph.lean), `Sched.Valid` (Verif/Spec/Sched.lean).
-/

namespace Verif.Lbc
open Res Csc LevelSet Hdagg

variable {g : Csc}

/-! ### C37 -/

theorem exists_rank (hwf : g.WF) (hac : g.Acyclic) :
    ∃ rank : Nat → Nat, ∀ u v, g.Dep u v → rank u < rank v := by
  have h : ∀ v, ∃ d, v < g.n → g.IsDepth v d := by
    intro v
    by_cases hv : v < g.n
    · obtain ⟨d, hd⟩ := exists_depth hwf hac hv
      exact ⟨d, fun _ => hd⟩
    · exact ⟨0, fun h => absurd h hv⟩
  refine ⟨fun v => (h v).choose, ?_⟩
  intro u v hd
  have hu := (h u).choose_spec (hwf.dep_lt hd).1
  have hv := (h v).choose_spec (hwf.dep_lt hd).2
  exact hv.2 _ (.snoc hu.1 hd)

/-- **C37.**  `W` is a window and `S` the nodes finished before it: no node of `W` is in `S`, and
what a node of `W` depends on is in `S` or in `W`.  The listed leaves are the nodes of `W` that
depend on nothing in `W` (that is, `remIn S v`, the number of entries for `v` in columns of other
nodes outside `S`, is 0).  `inDegree` counts the diagonal and these entries.  The nodes of `W` are
not visited, their successors outside `W` are.  (`BfsPre` is the list of these conditions.)

Then `modified_BFS_CSC` ends without an out-of-bounds access or a failing assertion, and there is an
order `ord` that lists every node of `W` exactly once and after all nodes of `W` it depends on, such
that every partition list is extended by its nodes, in the order `ord`.  Exactly the nodes of
`W` become visited. -/
theorem C37_bfs_topological (hwf : g.WF) (hd1 : g.OneDiag) (hac : g.Acyclic) {S W : List Nat}
    {lab : List Int} {s0 : Bfs} {levelPtr levelSet : List Nat} {lev : Nat}
    (hlev : lev + 1 < levelPtr.length) (hle : levelPtr.getD lev 0 ≤ levelPtr.getD (lev + 1) 0)
    (hset : levelPtr.getD (lev + 1) 0 ≤ levelSet.length)
    (hp : BfsPre g S W ((levelSet.drop (levelPtr.getD lev 0)).take
      (levelPtr.getD (lev + 1) 0 - levelPtr.getD lev 0)) lab s0) (debug : Bool) :
    ∃ s ord, bfs debug g.n g.p g.i lab levelPtr levelSet lev s0 = ok s ∧
      ord.Perm W ∧ (∀ u v, u ∈ W → v ∈ W → g.Dep u v → [u, v].Sublist ord) ∧
      s.parts.length = s0.parts.length ∧
      (∀ q, s.parts.getD q [] = s0.parts.getD q []
        ++ ord.filter (fun v => decide (lab.getD v 0 = (q : Int)))) ∧
      s.visited.length = g.n ∧
      ∀ x, s.visited.getD x true = (s0.visited.getD x true || decide (x ∈ W)) := by
  obtain ⟨rank, hrank⟩ := exists_rank hwf hac
  obtain ⟨s, h1, ord, h2⟩ := wp_iff.1 (bfs_wp hwf hd1 hlev hle hset hp rank hrank debug)
  exact ⟨s, ord, h1, h2.perm, h2.topo, h2.partsLen, h2.parts, h2.visLen, h2.vis⟩

/-- The window of the levels 1 and 2 of the graph `0→2, 1→2, 2→3`: the conditions hold. -/
example : BfsPre exGraph [0, 1] [2, 3] [2] [0, 0, 0, 0]
    ⟨[], [true, true, false, false], [1, 1, 1, 2], [[]]⟩ := by
  refine ⟨by decide, by decide, by decide, ?_, ?_, ?_, by decide, by decide, rfl, by decide, ?_,
    by decide, by decide, by decide⟩
  · intro v hv
    obtain rfl : v = 2 := by simpa using hv
    exact ⟨by decide, by decide⟩
  · intro v hv hn
    obtain rfl : v = 3 := by
      simp only [List.mem_cons, List.not_mem_nil, or_false] at hv hn
      omega
    decide
  · rintro u v ⟨hu, hv, hne⟩ hW
    change u < 4 at hu
    rcases (by omega : u = 0 ∨ u = 1 ∨ u = 2 ∨ u = 3) with rfl | rfl | rfl | rfl <;> simp
  · intro x hx hS
    change x < 4 at hx
    simp only [List.mem_cons, List.not_mem_nil, or_false] at hS
    rcases (by omega : x = 2 ∨ x = 3) with rfl | rfl <;> decide

/-- The call on this window, and on the whole graph with two partitions. -/
example : bfs true 4 exGraph.p exGraph.i [0, 0, 0, 0] [0, 2, 3, 4] [0, 1, 2, 3] 1
      ⟨[], [true, true, false, false], [1, 1, 1, 2], [[]]⟩
    = ok ⟨[], [true, true, true, true], [1, 1, 0, 0], [[2, 3]]⟩ := by decide +kernel

/-! ### C36 -/

/-- What a caller of the inspector has to provide: a well-formed acyclic graph with one
diagonal entry in each column, in which no path visits all nodes; a cost for every node; not the
value 0 for the number of parts; tuning parameters for which the cutting into windows is sound
(C35: both steps positive, or the first window takes all levels); and without bin packing, a first
window of at least two levels.  `sort` is the sorting of the components of `std::sort`; `lost`
are the values in `outCost` left by the racing updates; `assign` gives the windows to the threads,
each window once, each thread in increasing order (monotonic dynamic scheduling). -/
structure LbcHyp {K : Type} (g : Csc) (P : Params K) (minDist divRate : Int) (nodeCost : List K)
    (lab0 : List Int) (assign : List Nat → List (List Nat)) : Prop where
  wf : g.WF
  oneDiag : g.OneDiag
  acyclic : g.Acyclic
  nonempty : 0 < g.n
  shallow : ¬ ∃ v, g.IsDepth v (g.n - 1)
  costLen : nodeCost.length = g.n
  labLen : lab0.length = g.n
  innerParts : P.innerParts ≠ 0
  steps : (1 ≤ divRate ∧ 1 ≤ minDist + divRate) ∨ (0 ≤ minDist ∧ ∀ v, ¬ g.PathTo minDist.toNat v)
  packing : P.binPack = true ∨ (2 ≤ minDist ∧ ∃ u v, g.Dep u v)
  sort : ∀ l, (P.sort l).Perm l
  lost : ∀ l c, (P.lost l c).length = c.length
  assign : ∀ ws, (assign ws).flatten.Perm ws ∧ ∀ ts ∈ assign ws, ts.Sublist ws

section
variable {K : Type} [Add K] [LT K] [DecidableLT K]

omit [Add K] [LT K] [DecidableLT K] in
theorem LbcHyp.noPath {P : Params K} {minDist divRate : Int} {nodeCost : List K}
    {lab0 : List Int} {assign : List Nat → List (List Nat)}
    (h : LbcHyp g P minDist divRate nodeCost lab0 assign) (v : Nat) : ¬ g.PathTo (g.n - 1) v := by
  intro hv
  refine h.shallow ⟨v, hv, ?_⟩
  intro m hm
  have := hm.lt_n h.wf h.acyclic
  omega

/-- **C36.**  For every interleaving of the component computations (`P.sched`) and every
distribution of the windows, a run of the parallel LBC inspector has no out-of-bounds access and
no failing assertion, and if it completes, then its schedule has well-formed pointers,
lists every node exactly once, and puts every dependence into a later coarse level or to a
later position of the same part.  Some interleaving completes. -/
theorem C36_lbc_valid {P : Params K} {minDist divRate : Int} {nodeCost : List K} {lab0 : List Int}
    {assign : List Nat → List (List Nat)} (h : LbcHyp g P minDist divRate nodeCost lab0 assign)
    (zero : K) :
    wpl (coarsenParallel P g.n g.p g.i minDist divRate nodeCost zero lab0 assign)
      (fun s => s.Valid g.n g.Dep) ∧
    ∃ sched s, coarsenParallel { P with sched := sched } g.n g.p g.i minDist divRate nodeCost zero
      lab0 assign = ok s := by
  have hP : ParamsOk P := ⟨h.innerParts, h.sort, h.lost⟩
  constructor
  · have := coarsenParallel_wpm h.wf h.oneDiag h.nonempty h.noPath hP h.steps h.packing h.costLen zero
      h.labLen h.assign (t := false) (by simp)
    rwa [wpm_false] at this
  · obtain ⟨⟨cnt, V⟩, hV, L, hW, -⟩ := wp_iff.1 (windows_wp h.wf h.oneDiag h.nonempty h.noPath P h.steps)
    dsimp only at hW
    have hex : ∀ (l : Nat) (lab : List Int), ∃ sch, l < cnt → lab.length = g.n →
        CC.parallelCC g.p g.i (V.lo l) (V.lo (l + 1)) V.node2Level (V.nodes L l) lab sch ≠ nofuel := by
      intro l lab
      by_cases hl : l < cnt ∧ lab.length = g.n
      · obtain ⟨sch, lab', h1⟩ := (CC.parallelCC_spec h.wf (hW.window hl.1) hl.2).2
        exact ⟨sch, fun _ _ hc => by rw [h1] at hc; cases hc⟩
      · exact ⟨[], fun h1 h2 => absurd ⟨h1, h2⟩ hl⟩
    let sched : Nat → List Int → List Nat := fun l lab => (hex l lab).choose
    have := coarsenParallel_wpm h.wf h.oneDiag h.nonempty h.noPath (P := { P with sched := sched })
      ⟨hP.inner, hP.sort, hP.lost⟩ h.steps h.packing h.costLen zero h.labLen h.assign (t := true) ?_
    · rw [wpm_true] at this
      obtain ⟨s, h1, -⟩ := wp_iff.1 this
      exact ⟨sched, s, h1⟩
    · intro _ cnt' V' L' hV' hW' l hl
      have hV2 : windows P g.n g.p g.i minDist divRate = ok (cnt', V') := hV'
      rw [hV] at hV2
      cases hV2
      have hLL : L' = L := hW'.height.symm.trans hW.height
      subst hLL
      intro lab hlab
      exact (hex l lab).choose_spec hl hlab

/-- **C54.**  For the dependence graph of a lower triangular matrix, the parallel solve
`sptrsv_csr_lbc` with the schedule of the parallel LBC inspector (`SptrsvLBCDAGParallel` of the demo)
gives the values of the serial solve, for every interleaving of the inspector and of the
executor, and every arithmetic. -/
theorem C54_lbc_end_to_end {F : Type} (A : Arith F) {m : Mat F} (hm : m.LowerCsr)
    (hg : Mat.SameDeps g m) {P : Params K} {minDist divRate : Int} {nodeCost : List K}
    {lab0 : List Int} {assign : List Nat → List (List Nat)}
    (h : LbcHyp g P minDist divRate nodeCost lab0 assign) (zero : K) {b : List F}
    (hb : b.length = m.n) :
    ∃ xs, Exec.sptrsvCsr A m.n m.p m.i m.x b = ok xs ∧
      wpl (coarsenParallel P g.n g.p g.i minDist divRate nodeCost zero lab0 assign) (fun s =>
        AlwaysGives (fun sch => Exec.sptrsvLbc A m.p m.i m.x s sch b) xs) := by
  obtain ⟨xs, hS⟩ := Exec.exists_solution (A := A) hm hb
  refine ⟨xs, Exec.sptrsvCsr_spec hm hb hS, ?_⟩
  refine wpl_mono (C36_lbc_valid h zero).1 fun s hs => ?_
  have hv : s.Valid m.n m.RowDep :=
    ⟨hg.1 ▸ hs.ptrs, hg.1 ▸ hs.complete, fun u v huv => hs.respects u v ((hg.2 u v).2 huv)⟩
  obtain ⟨xs', h1, h2⟩ := C06_lbc_solve_eq_serial A hm hv hb
  rw [Exec.sptrsvCsr_spec hm hb hS] at h1
  cases h1
  exact h2

end

/-! ### Examples and limits -/

/-- Parameters for the examples: round robin of four threads. -/
def exParams : Params Nat where
  debug := true
  innerParts := 2
  binPack := true
  big := 1000
  sort := id
  sched := fun _ _ => (List.range 200).map (· % 4)
  lost := fun _ c => c

theorem exGraph_noPath : ¬ ∃ v, exGraph.IsDepth v (exGraph.n - 1) := by
  rintro ⟨v, hv⟩
  obtain ⟨o, h1, h2, -⟩ := C04_error_code_exact exGraph_wf exGraph_oneDiag
  have h3 : buildLevelSet exGraph.n exGraph.p exGraph.i
      = ok ⟨3, [0, 2, 3, 4, 0], [0, 1, 2, 3], [0, 0, 1, 2]⟩ := by decide
  rw [h3] at h1
  cases h1
  exact absurd (h2.2 (.inr ⟨v, hv⟩)) (by decide)

theorem exGraph_acyclic : exGraph.Acyclic := by
  by_contra hc
  obtain ⟨o, h1, h2, -⟩ := C04_error_code_exact exGraph_wf exGraph_oneDiag
  have h3 : buildLevelSet exGraph.n exGraph.p exGraph.i
      = ok ⟨3, [0, 2, 3, 4, 0], [0, 1, 2, 3], [0, 0, 1, 2]⟩ := by decide
  rw [h3] at h1
  cases h1
  exact absurd (h2.2 (.inl hc)) (by decide)

/-- The hypotheses hold for the graph `0→2, 1→2, 2→3`, and the run gives two coarse levels. -/
example : LbcHyp exGraph exParams 2 1 [1, 1, 1, 1] [0, 0, 0, 0] (fun l => [l]) ∧
    coarsenParallel exParams exGraph.n exGraph.p exGraph.i 2 1 [1, 1, 1, 1] 0 [0, 0, 0, 0]
      (fun l => [l]) = ok ⟨2, [0, 1, 2, 0, 0], [0, 3, 4, 0], [0, 1, 2, 3]⟩ := by
  refine ⟨⟨exGraph_wf, exGraph_oneDiag, exGraph_acyclic, by decide, exGraph_noPath, rfl, rfl,
    by decide, .inl (by decide), .inl rfl, fun _ => .refl _, fun _ _ => rfl, ?_⟩, by decide +kernel⟩
  intro ws
  exact ⟨by simp, by simp⟩

/-- **C36, limit: the order of the windows of a thread.**  `visited` is marked below the window and
never cleared, so if a thread gets a later window first (allowed for `schedule(dynamic, 1)` since
OpenMP 5), then nodes of the earlier window are lost: here node 2 is not in the schedule. -/
theorem C36_nonmonotonic_loses_nodes :
    ∃ s, coarsenParallel { exParams with debug := false } exGraph.n exGraph.p exGraph.i 2 1
      [1, 1, 1, 1] 0 [0, 0, 0, 0] (fun l => [l.reverse]) = ok s ∧ ¬ s.Complete 4 := by
  refine ⟨⟨2, [0, 1, 2, 0, 0], [0, 2, 3, 0], [0, 1, 3, 0]⟩, by decide +kernel, ?_⟩
  intro hc
  have := hc.mem_iff (a := 2)
  revert this
  decide

/-- **C36, limit: number of parts 0** is read out of bounds. -/
theorem C36_zero_parts_ub : coarsenParallel { exParams with innerParts := 0 } exGraph.n exGraph.p
    exGraph.i 2 1 [1, 1, 1, 1] 0 [0, 0, 0, 0] (fun l => [l]) = Res.ub := by decide +kernel

/-- **C36, limit: no bin packing on a diagonal matrix.**  Every node becomes a part, and
`finalPartPtr`, allocated with `n` elements, is written at position `n`. -/
theorem C36_no_packing_ub : coarsenParallel { exParams with binPack := false } 2 [0, 1, 2] [0, 1] 2 1
    [1, 1] 0 [0, 0] (fun l => [l]) = Res.ub := by decide +kernel

/-- **C36, limit: chains.**  On every well-formed graph that is cyclic, or in which a path visits
all nodes, the inspector throws (the arrays are allocated with a negative size). -/
theorem C36_throws_on_chains {K : Type} [Add K] [LT K] [DecidableLT K] (hwf : g.WF) (hd : g.OneDiag)
    (hbad : ¬ g.Acyclic ∨ ∃ v, g.IsDepth v (g.n - 1)) (P : Params K) (minDist divRate : Int)
    (nodeCost : List K) (zero : K) (lab0 : List Int) (assign : List Nat → List (List Nat)) :
    coarsenParallel P g.n g.p g.i minDist divRate nodeCost zero lab0 assign = exn := by
  obtain ⟨o, ho, h4, -⟩ := C04_error_code_exact hwf hd
  have hr := h4.2 hbad
  unfold coarsenParallel windows
  rw [ho, ok_bind, hr]
  have h1 : ∀ a b : List Nat, nodeLevels (-1 : Int).toNat a b g.n = ok (List.replicate g.n 0) := by
    intro a b
    rfl
  rw [h1, ok_bind]
  rfl

end Verif.Lbc
