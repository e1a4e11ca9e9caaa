import Verif.Model.LevelSet
import Verif.Model.CC
import Verif.Model.LbcUtils
import Verif.Spec.Sched

/-!
# Model: LBC coarsening of a DAG (src/lbc_csc_dag.cpp)

`get_coarse_Level_set_DAG_CSC03_parallel` (lines 323-399) with `make_partitions_parallel`
(191-321), `process_l_partition` (91-189), `parallel_cc` (32-89) and `modified_BFS_CSC`
(utils/sparse_utilities.cpp 591-618).

Costs are elements of a type `K` with an addition and a comparison; nothing is assumed about them.
Arrays that the code leaves uninitialised and writes before reading are filled with zeros, except
`node2partition`, whose initial content is an input.  The fields `totalCC`, `partNo`, `isChanged`,
`slackGroups`, `xi` and the costs of the parts of the final schedule have no effect and are left out
(their array accesses are not).
-/

namespace Verif.Lbc
open Res

/-! ### `modified_BFS_CSC` -/

/-- `queue`, `visited`, `inDegree`, `newLeveledParList`. -/
structure Bfs where
  queue : List Nat
  visited : List Bool
  deg : List Int
  parts : List (List Nat)
deriving DecidableEq, Repr

/-- sparse_utilities.cpp:608-612. -/
def bfsEdge (cn : Nat) (s : Bfs) : Res Bfs := do
  let d ← rd s.deg cn
  let deg ← wr s.deg cn (d - 1)
  if d - 1 = 1 then do
    let v ← rd s.visited cn
    ok { s with deg := deg, queue := if v then s.queue else s.queue ++ [cn] }
  else ok { s with deg := deg }

/-- sparse_utilities.cpp:602-613, the body of `while (!queue.empty())`. -/
def bfsPop (Lp Li : List Nat) (lab : List Int) (s : Bfs) : Res Bfs :=
  match s.queue with
  | [] => ub
  | u :: q => do
    let visited ← wr s.visited u true
    let l ← rd lab u
    let part ← rdZ s.parts l
    let parts ← wrZ s.parts l (part ++ [u])
    let lo ← rd Lp u
    let hi ← rd Lp (u + 1)
    forRange lo hi (fun r s => do
      let cn ← rd Li r
      bfsEdge cn s) ⟨q, visited, s.deg, parts⟩

/-- sparse_utilities.cpp:598-614, one leaf.  Every node enters the queue at most once, so `n + 1`
rounds of fuel suffice (proved).  With `debug` the assertion is checked. -/
def bfsLeaf (debug : Bool) (n : Nat) (Lp Li : List Nat) (lab : List Int) (u : Nat) (s : Bfs) :
    Res Bfs := do
  let l ← rd lab u
  if debug = true ∧ l < 0 then exn else
  whileF (n + 1) (fun s => ok (!s.queue.isEmpty)) (bfsPop Lp Li lab)
    { s with queue := s.queue ++ [u] }

/-- `modified_BFS_CSC`, sparse_utilities.cpp:591-618; the queue is empty at the start. -/
def bfs (debug : Bool) (n : Nat) (Lp Li : List Nat) (lab : List Int) (levelPtr levelSet : List Nat)
    (lev : Nat) (s : Bfs) : Res Bfs := do
  let a ← rd levelPtr lev
  let b ← rd levelPtr (lev + 1)
  forRange a b (fun ii s => do
    let u ← rd levelSet ii
    bfsLeaf debug n Lp Li lab u s) s

/-! ### Loops over levels -/

/-- `for (ii = lo; ii < hi; ++ii) for (j = levelPtr[ii]; j < levelPtr[ii + 1]; ++j) f(levelSet[j])`,
e.g. lbc_csc_dag.cpp:106-115. -/
def overLevels {σ : Type} (levelPtr levelSet : List Nat) (lo hi : Nat) (f : Nat → σ → Res σ)
    (s : σ) : Res σ :=
  forRange lo hi (fun ii s => do
    let a ← rd levelPtr ii
    let b ← rd levelPtr (ii + 1)
    forRange a b (fun j s => do
      let x ← rd levelSet j
      f x s) s) s

/-- The loop over the single level before the window, lbc_csc_dag.cpp:121-126; `dfs` is
`partition2Level[l]`, so `lbLevel = dfs - 1` and the loop is empty for `dfs = 0`. -/
def overLower {σ : Type} (levelPtr levelSet : List Nat) (dfs : Nat) (f : Nat → σ → Res σ)
    (s : σ) : Res σ := do
  let a ← rd levelPtr (dfs - 1)
  let b ← rd levelPtr dfs
  forRange a b (fun j s => do
    let x ← rd levelSet j
    f x s) s

/-- `node2Level[node] = i`, lbc_csc_dag.cpp:344-349. -/
def nodeLevels (levelNo : Nat) (levelPtr levelSet : List Nat) (n : Nat) : Res (List Nat) :=
  forRange 0 levelNo (fun i s => do
    let a ← rd levelPtr i
    let b ← rd levelPtr (i + 1)
    forRange a b (fun j s => do
      let x ← rd levelSet j
      wr s x i) s) (List.replicate n 0)

/-- Counting the entries of the column of `x`, lbc_csc_dag.cpp:110-113. -/
def countCol (Lp Li : List Nat) (x : Nat) (deg : List Int) : Res (List Int) := do
  let p ← rd Lp x
  let q ← rd Lp (x + 1)
  forRange p q (fun r deg => do
    let cn ← rd Li r
    let d ← rd deg cn
    wr deg cn (d + 1)) deg

/-- `nodesAtCurLevel` (an array of `n` elements) and `inDegree`, lbc_csc_dag.cpp:98, 104-115. -/
def windowInit (n : Nat) (Lp Li levelPtr levelSet : List Nat) (lo hi : Nat) :
    Res (List Nat × List Int) :=
  overLevels levelPtr levelSet lo hi (fun x s =>
    if n ≤ s.1.length then ub else do
      let deg ← countCol Lp Li x s.2
      ok (s.1 ++ [x], deg)) ([], List.replicate n 0)

/-- The window `partition2Level[l] .. partition2Level[l + 1]`, lbc_csc_dag.cpp:100-102.  The levels
are used as indices of `levelPtr`, so a negative one is undefined. -/
def bounds (bound : List Int) (l : Nat) : Res (Nat × Nat) := do
  let d ← rd bound l
  let u ← rd bound (l + 1)
  if d < 0 ∨ u < 0 then ub else ok (d.toNat, u.toNat)

section
variable {K : Type} [Add K] [LT K] [DecidableLT K]

/-- The parameters of a call and everything the code does not determine: `sched` is the
interleaving of the component computation of window `l` (it may depend on what is in
`node2partition` before), `lost` the effect of the unsynchronised
additions to `outCost` by several threads, `sort` the behaviour of `std::sort`. -/
structure Params (K : Type) where
  debug : Bool
  innerParts : Int
  binPack : Bool
  big : K
  sort : List (K × List Nat) → List (K × List Nat)
  sched : Nat → List Int → List Nat
  lost : Nat → List K → List K

/-- The loop after the component computation, lbc_csc_dag.cpp:79-86: `outCost` and `max_cc`. -/
def ccCosts (nodes : List Nat) (lab : List Int) (nodeCost outCost : List K) :
    Res (List K × Int) :=
  forEach nodes (fun u s => do
    let c ← rd lab u
    let o ← rdZ s.1 c
    let w ← rd nodeCost u
    let out ← wrZ s.1 c (o + w)
    ok (out, max s.2 (c + 1))) (outCost, -1)

/-- lbc_csc_dag.cpp:152-174: the W-partitions made of the components, `outinnerParts` and
`newOutCost`.  `curLeveledParCost` is never changed in the parallel version, so the division matters
only for `innerParts = 0`.  `mergedLeveledParListByL[l]` is empty before. -/
def pack (P : Params K) (binPack : Bool) (lists : List (List Nat)) (outCost newOutCost : List K)
    (sizes : List Nat) (l : Nat) : Res (Nat × List K × List (List Nat)) := do
  if P.innerParts = 0 then ub else
  let size ← rd sizes l
  if binPack = true ∧ lists.length > size then
    worstFit P.big P.sort lists outCost (List.replicate size []) newOutCost size
  else ok (lists.length, newOutCost, lists)

/-- The private arrays of a thread, lbc_csc_dag.cpp:260-270: `visited`, `node2partition`, `outCost`,
`newOutCost`. -/
structure Priv (K : Type) where
  visited : List Bool
  lab : List Int
  outCost : List K
  newOutCost : List K

/-- The level set and the windows. -/
structure Wins where
  levelPtr : List Nat
  levelSet : List Nat
  node2Level : List Nat
  height : Nat
  bound : List Int
  sizes : List Nat

/-- `process_l_partition`, lbc_csc_dag.cpp:91-189, with `parallel_cc`, 32-89: the private arrays,
`outinnerPartsList[l]` and `mergedLeveledParListByL[l]`. -/
def process (P : Params K) (n : Nat) (Lp Li : List Nat) (V : Wins) (nodeCost : List K)
    (large : Bool) (l : Nat) (pv : Priv K) : Res (Priv K × Nat × List (List Nat)) := do
  let w ← bounds V.bound l
  let nd ← windowInit n Lp Li V.levelPtr V.levelSet w.1 w.2
  let lab ← CC.parallelCC Lp Li w.1 w.2 V.node2Level nd.1 pv.lab (P.sched l pv.lab)
  let oc ← ccCosts nd.1 lab nodeCost pv.outCost
  let outCost := if large then P.lost l oc.1 else oc.1
  let visited ← overLower V.levelPtr V.levelSet w.1 (fun x v => wr v x true) pv.visited
  let visited ← overLevels V.levelPtr V.levelSet w.2 V.height (fun x v => wr v x true) visited
  let s ← bfs P.debug n Lp Li lab V.levelPtr V.levelSet w.1
    ⟨[], visited, nd.2, List.replicate oc.2.toNat []⟩
  let visited ← overLevels V.levelPtr V.levelSet w.2 V.height (fun x v => wr v x false) s.visited
  let r ← pack P P.binPack s.parts outCost pv.newOutCost V.sizes l
  ok (⟨visited, lab, outCost, r.2.1⟩, r.1, r.2.2)

/-- `outinnerPartsList` and `mergedLeveledParListByL`. -/
structure Shared where
  out : List Nat
  merged : List (List (List Nat))
deriving DecidableEq, Repr

/-- One thread processes the windows `ws` one after the other with its own arrays,
lbc_csc_dag.cpp:231-262 (large windows) and 265-292 (small windows). -/
def runThread (P : Params K) (n : Nat) (Lp Li : List Nat) (V : Wins) (nodeCost : List K)
    (zero : K) (lab0 : List Int) (large : Bool) (ws : List Nat) (sh : Shared) : Res Shared := do
  let r ← forEach ws (fun l (s : Priv K × Shared) => do
    let o ← process P n Lp Li V nodeCost large l s.1
    let out ← wr s.2.out l o.2.1
    let merged ← wr s.2.merged l o.2.2
    ok (o.1, ⟨out, merged⟩))
    (⟨List.replicate n false, lab0, List.replicate n zero, List.replicate n zero⟩, sh)
  ok r.2

/-- The number of nodes of a window, lbc_csc_dag.cpp:207-217. -/
def windowCount (V : Wins) (l : Nat) : Res Nat := do
  let w ← bounds V.bound l
  overLevels V.levelPtr V.levelSet w.1 w.2 (fun _ c => ok (c + 1)) 0

/-- `largePartitions` and `smallPartitions`, lbc_csc_dag.cpp:205-224. -/
def classify (V : Wins) (cnt : Nat) : Res (List Nat × List Nat) :=
  forRange 0 cnt (fun l s => do
    let c ← windowCount V l
    ok (if c > 250000 then (s.1 ++ [l], s.2) else (s.1, s.2 ++ [l]))) ([], [])

/-- `curNumOfPart`, `finaLevelPtr`, `finalPartPtr`, `finalNodePtr`. -/
structure Emit where
  cur : Nat
  levelPtr : List Nat
  partPtr : List Nat
  nodes : List Nat
deriving DecidableEq, Repr

/-- One part of the final schedule, lbc_csc_dag.cpp:301-316; `part` is
`mergedLeveledParListByL[l][i]`. -/
def emitPart (nodeCost : List K) (part : List Nat) (e : Emit) : Res Emit := do
  let base ← rd e.partPtr e.cur
  let r ← forEach part (fun x (s : Nat × List Nat) => do
    let _ ← rd nodeCost x
    let nodes ← wr s.2 (base + s.1) x
    ok (s.1 + 1, nodes)) (0, e.nodes)
  let partPtr ← wr e.partPtr (e.cur + 1) (base + r.1)
  ok ⟨e.cur + 1, e.levelPtr, partPtr, r.2⟩

/-- The parts of a window, lbc_csc_dag.cpp:297-317. -/
def emitWindow (nodeCost : List K) (l outParts : Nat) (merged : List (List Nat)) (e : Emit) :
    Res Emit := do
  let a ← rd e.levelPtr l
  let levelPtr ← wr e.levelPtr (l + 1) (a + outParts)
  forRange 0 outParts (fun i e => do
    let part ← rd merged i
    emitPart nodeCost part e) { e with levelPtr := levelPtr }

/-- `make_partitions_parallel`, lbc_csc_dag.cpp:191-321.  The loop over the large windows is an
`omp for` outside of a parallel region, so one thread does it in order.  `assign` gives, for the list
of small windows, the windows that every thread of the parallel region gets. -/
def makePartitions (P : Params K) (n : Nat) (Lp Li : List Nat) (V : Wins) (cnt : Nat)
    (nodeCost : List K) (zero : K) (lab0 : List Int) (assign : List Nat → List (List Nat))
    (e : Emit) : Res Emit := do
  let c ← classify V cnt
  let sh ← runThread P n Lp Li V nodeCost zero lab0 true c.1
    ⟨List.replicate cnt 0, List.replicate cnt []⟩
  let sh ← forEach (assign c.2) (runThread P n Lp Li V nodeCost zero lab0 false) sh
  forRange 0 cnt (fun l e => do
    let outParts ← rd sh.out l
    let merged ← rd sh.merged l
    emitWindow nodeCost l outParts merged e) e

end

/-- The verification of the result, lbc_csc_dag.cpp:375-390; with `debug` the assertions are
checked. -/
def verifySet (debug : Bool) (n cnt : Nat) (e : Emit) : Res Unit := do
  let seen ← forRange 0 cnt (fun i s => do
    let a ← rd e.levelPtr i
    let b ← rd e.levelPtr (i + 1)
    forRange a b (fun k s => do
      let a ← rd e.partPtr k
      let b ← rd e.partPtr (k + 1)
      forRange a b (fun j s => do
        let x ← rd e.nodes j
        let v ← rd s x
        if debug = true ∧ v = true then exn else wr s x true) s) s) (List.replicate n false)
  forRange 0 n (fun i _ => do
    let v ← rd seen i
    if debug = true ∧ v = false then exn else ok ()) ()

/-- `finaLevelPtr`, `finalPartPtr`, `finalNodePtr` as allocated in lbc_csc_dag.cpp:335-338. -/
def Emit.start (n : Nat) : Emit :=
  ⟨0, List.replicate (n + 1) 0, List.replicate n 0, List.replicate n 0⟩

/-- The level set, `node2Level` and the windows, lbc_csc_dag.cpp:341-368 and 432-461.  The loop of
the height partitioning has at most as many rounds as there are levels (C35), so `n` is enough
fuel. -/
def windows {K : Type} (P : Params K) (n : Nat) (Lp Li : List Nat) (minDist divRate : Int) :
    Res (Nat × Wins) := do
  let o ← LevelSet.buildLevelSet n Lp Li
  let node2Level ← nodeLevels o.ret.toNat o.levelPtr o.levelSet n
  let h ← heightPartition n P.debug o.ret o.levelPtr P.innerParts minDist divRate
  ok (h.1, ⟨o.levelPtr, o.levelSet, node2Level, o.ret.toNat, h.2.1, h.2.2⟩)

/-- `get_coarse_Level_set_DAG_CSC03_parallel`, lbc_csc_dag.cpp:323-399: `finaLevelNo`,
`finaLevelPtr`, `finalPartPtr`, `finalNodePtr`.  The returned number is `0 / lClusterCnt`. -/
def coarsenParallel {K : Type} [Add K] [LT K] [DecidableLT K] (P : Params K) (n : Nat)
    (Lp Li : List Nat) (minDist divRate : Int) (nodeCost : List K) (zero : K) (lab0 : List Int)
    (assign : List Nat → List (List Nat)) : Res Sched := do
  let w ← windows P n Lp Li minDist divRate
  let e ← makePartitions P n Lp Li w.2 w.1 nodeCost zero lab0 assign (Emit.start n)
  let _ ← verifySet P.debug n w.1 e
  if w.1 = 0 then ub else ok ⟨w.1, e.levelPtr, e.partPtr, e.nodes⟩

end Verif.Lbc
