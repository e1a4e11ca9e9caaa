import Verif.Model.Sparsify
import Verif.Model.Etree
import Verif.Model.TreeGroup
import Verif.Model.Group
import Verif.Model.Cost
import Verif.Model.Hdagg

/-!
# Model: the grouped solvers of example/SpTRSV_runtime.h

`build_set` of the classes `SpTrSv_LL_Tree_HDAGG`, `SpTrSv_LL_Tree_HDAGG_BFS` and
`SpTrSv_LL_Tree_Wavefront_No_unPACK`, called once on a new object (all vectors are empty), in a
build with OpenMP.
-/

namespace Verif.Pipeline
open Res Group Cost

/-- Everything that is not determined by the input: the number of threads in the team and the orders
of the parallel loops, the rounded size limit, the division of costs, the balance tests and the
interleavings of the component computations. -/
structure Env (K : Type) where
  bins : Nat
  writes : List (Nat × Nat) → List (Nat × Nat)
  order : Nat → List Nat
  order₂ : Nat → List Nat
  order₃ : Nat → List Nat
  order₄ : Nat → List Nat
  order₅ : Nat → List Nat
  q : Nat
  rdiv : K → Nat → K
  accept : Nat → Nat → Bool

/-- The graph and the groups, SpTRSV_runtime.h:455-468, 654-668 (and 206-211 with
`isLfactor = bfs = false`): the arrays of the graph and the grouping. -/
def groups {K : Type} (debug isLfactor bfs : Bool) (e : Env K) (n nnz : Nat)
    (cscP cscI csrP csrI : List Nat) : Res ((List Nat × List Nat) × Grouping) := do
  let d ← (if isLfactor then Etree.buildETree debug n csrP csrI
    else Sparsify.partialSparsification debug (.openmp e.bins) e.writes (e.order n) true n nnz
      cscP cscI [] [])
  let G ← (if bfs then treeBasedGroupingBFS debug isLfactor e.q n d.1 d.2
    else treeBasedGrouping debug isLfactor e.q e.order₂ n d.1 d.2)
  ok (d, G)

/-- `build_set` of `SpTrSv_LL_Tree_HDAGG`, SpTRSV_runtime.h:452-494, and of
`SpTrSv_LL_Tree_HDAGG_BFS`, 651-699 (without the statistics): the schedule. -/
def treeHdagg {K : Type} [Zero K] [Add K] [Sub K] [LT K] [DecidableLT K] [DecidableEq K] [NatCast K]
    (debug isLfactor bfs binPack : Bool) (e : Env K) (cc cc' : Hdagg.Orac) (cores n nnz : Nat)
    (cscP cscI csrP csrI : List Nat) : Res Sched := do
  let r ← groups debug isLfactor bfs e n nnz cscP cscI csrP csrI
  let dag ← buildGroupDAG (e.order₃ r.2.num) (e.order₄ r.2.num) n r.2.num r.2.ptr r.2.set
    r.1.1 r.1.2
  let cost ← costComputation (e.order₅ r.2.num) r.2.num cscP cscI csrP csrI .spTrSvLL r.2.ptr r.2.set
    true (List.replicate r.2.num 0)
  let s ← Hdagg.hdagg debug e.rdiv e.accept cc cc'
    ⟨r.2.num, dag.1, dag.2, cost.map (fun c : Nat => (c : K)), cores, false, binPack⟩
  ungroup debug n s.2 r.2.ptr r.2.set (if bfs then some r.1 else none) true false

/-- The result of `build_set` of the wavefront class: `nlevels`, `level_ptr`, `level_set`,
`group_ptr`, `group_set`. -/
structure Wave where
  nlevels : Int
  levelPtr : List Nat
  levelSet : List Nat
  groupPtr : List Nat
  groupSet : List Nat
deriving DecidableEq, Repr

/-- `build_set` of `SpTrSv_LL_Tree_Wavefront_No_unPACK`, SpTRSV_runtime.h:203-227;
`computingLevelSet_CSC` is `build_levelSet_CSC` with new arrays (sparse_inspector.cpp:1014-1025). -/
def treeWavefront {K : Type} (debug : Bool) (e : Env K) (n nnz : Nat)
    (cscP cscI csrP csrI : List Nat) : Res Wave := do
  let r ← groups debug false false e n nnz cscP cscI csrP csrI
  let dag ← buildGroupDAG (e.order₃ r.2.num) (e.order₄ r.2.num) n r.2.num r.2.ptr r.2.set
    r.1.1 r.1.2
  let o ← LevelSet.buildLevelSet r.2.num dag.1 dag.2
  let set ← forRange 0 r.2.num (fun g set => do
    let lo ← rd r.2.ptr g
    let hi ← rd r.2.ptr (g + 1)
    Hdagg.sortRange set lo hi) r.2.set
  ok ⟨o.ret, o.levelPtr, o.levelSet, r.2.ptr, set⟩

end Verif.Pipeline
