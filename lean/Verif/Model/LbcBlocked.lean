import Verif.Model.LbcTree
import Verif.Spec.BlockCsc

/-!
# Model: the blocked LBC coarsening

`getCoarseLevelSet_DAG_BCSC02` (src/lbc_blocked.cpp 15-294) with `build_levelSet_BCSC`
(utils/sparse_inspector.cpp 125-181), `dfs_BCSC_CC` (src/lbc_utils.cpp 76-119) and `modified_BFS_BCSC`
(utils/sparse_utilities.cpp 556-588).  `height_partitioning`, `make_unique`, `worst_fit_bin_pack` and
the loops that are equal word for word to those of the other LBC functions are those of
Verif/Model/LbcTree.lean, Lbc.lean and LbcSeq.lean.  The arrays `lC`, `isChanged`, `slackGroups`,
`slackedLevelSet` and `partNo` are not used by the code.  Costs are elements of an arbitrary type; the
costs of the windows and parts have no effect and are left out (the division by `innerParts` is not).
-/

namespace Verif.Blocked
open Res Lbc

/-- `Li_ptr[curCol]`, `supWdt` and `Li_ptr[nxtCol]` of block `s`, e.g. sparse_inspector.cpp:143-146.  A
negative width is taken as undefined. -/
def blockCol (M : BlockCsc) (s : Nat) : Res (Nat × Nat × Nat) := do
  let c ← rd M.first s
  let d ← rd M.first (s + 1)
  let a ← rd M.ptr c
  let b ← rd M.ptr d
  if d < c then ub else ok (a, d - c, b)

/-- `for (r = lo; r < hi; ++r) f(col2blk[lR[r]])`. -/
def overRows {σ : Type} (M : BlockCsc) (lo hi : Nat) (f : Nat → σ → Res σ) (s : σ) : Res σ :=
  forRange lo hi (fun r s => do
    let i ← rd M.rows r
    let t ← rd M.blk i
    f t s) s

/-- The in-degrees, sparse_inspector.cpp:141-150 and lbc_blocked.cpp:68-77: the loop starts with the
last row of the diagonal block. -/
def inDegrees (M : BlockCsc) : Res (List Int) :=
  forRange 0 M.n (fun s deg => do
    let t ← blockCol M s
    if t.1 + t.2.1 = 0 then ub else
    overRows M (t.1 + t.2.1 - 1) t.2.2 (fun v deg => do
      let d ← rd deg v
      wr deg v (d + 1)) deg) (List.replicate M.n 0)

/-! ### `build_levelSet_BCSC` -/

/-- sparse_inspector.cpp:165-166: `while (inDegree[begin] == 1) begin++;`.  Nothing stops the loop at the
end of the array.  `slack` is what is in the memory behind the array; reading behind it is undefined. -/
def advanceBegin (slack : List Int) (inDegree : List Int) (beg : Nat) : Res Nat :=
  loopF (inDegree.length + slack.length + 1) (fun b => do
    let d ← rd (inDegree ++ slack) b
    if d = 1 then ok (.next (b + 1)) else ok (.brk b)) beg

/-- sparse_inspector.cpp:169-178. -/
def removeEdges (M : BlockCsc) (levelSet : List Nat) (lo hi : Nat) (inDegree : List Int) :
    Res (List Int) :=
  forRange lo hi (fun l deg => do
    let cc ← rd levelSet l
    let t ← blockCol M cc
    overRows M (t.1 + t.2.1) t.2.2 (fun v deg => do
      let d ← rd deg v
      wr deg v (d - 1)) deg) inDegree

/-- One iteration of `while (begin <= end)`, sparse_inspector.cpp:151-179.  The scan and the loop that
moves `end` are those of `build_levelSet_CSC`.  `slack k` is the memory behind `inDegree` in round `k`
(the loops of the function write to other arrays, which may be there).  With `debug` the assertion is
checked. -/
def round (debug : Bool) (M : BlockCsc) (slack : Nat → List Int) (s : LevelSet.St) :
    Res (Ctl LevelSet.St LevelSet.St) :=
  if (s.beg : Int) ≤ s.end_ then do
    let s ← forRange s.beg (s.end_ + 1).toNat LevelSet.scanStep s
    let s := { s with curLevel := s.curLevel + 1 }
    if debug = true ∧ ¬ s.curLevel ≤ M.n then exn
    else
      let levelPtr ← wr s.levelPtr s.curLevel s.cnt
      let beg ← advanceBegin (slack (s.curLevel - 1)) s.inDegree s.beg
      let end_ ← LevelSet.retreatEnd M.n s.inDegree beg s.end_
      let lo ← rd levelPtr (s.curLevel - 1)
      let hi ← rd levelPtr s.curLevel
      let inDegree ← removeEdges M s.levelSet lo hi s.inDegree
      ok (.next { s with levelPtr := levelPtr, beg := beg, end_ := end_, inDegree := inDegree })
  else ok (.brk s)

/-- `build_levelSet_BCSC`, sparse_inspector.cpp:125-181: the number of levels, `levelPtr`, `levelSet`.
The loop ends at the latest when `levelPtr` is full, so `n + 2` rounds of fuel suffice. -/
def buildLevelSet (debug : Bool) (M : BlockCsc) (slack : Nat → List Int) :
    Res (Nat × List Nat × List Nat) := do
  let inDegree ← inDegrees M
  let s ← loopF (M.n + 2) (round debug M slack)
    { inDegree := inDegree, visited := List.replicate M.n false
      levelSet := List.replicate M.n 0, nodeToLevel := List.replicate M.n 0
      levelPtr := List.replicate (M.n + 1) 0, cnt := 0, curLevel := 0, beg := 0
      end_ := (M.n : Int) - 1 }
  ok (s.curLevel, s.levelPtr, s.levelSet)

/-! ### `dfs_BCSC_CC` -/

/-- The loop over the rows, lbc_utils.cpp:98-109: stops at the first row whose block has no mark. -/
def dfsScan (M : BlockCsc) (marked : List Int) (lo hi : Nat) (clash : List Nat) :
    Res (Ctl (List Nat) (Nat × Nat × List Nat)) :=
  forRangeB lo hi (fun p clash => do
    let i ← rd M.rows p
    let t ← rd M.blk i
    let _ ← rd M.first (t + 1)
    let _ ← rd M.first t
    let m ← rd marked t
    let clash := if m = -1 then clash ++ [t] else clash
    if m ≠ 0 then ok (.next clash) else ok (.brk (p, i, clash))) clash

/-- lbc_utils.cpp:83-116, the body of `while (head >= 0)`.  The stack has columns, the output blocks. -/
def dfsStep (M : BlockCsc) (s : Dfs) : Res Dfs :=
  if s.size = 0 then ub else do
  let j ← rd s.xi (s.size - 1)
  let v ← rd M.blk j
  let m ← rd s.marked v
  let (marked, ps) ← (if m = 0 then do
      let marked ← wr s.marked v 1
      let p ← rd M.ptr j
      let ps ← wr s.ps (s.size - 1) p
      ok (marked, ps)
    else ok (s.marked, s.ps) : Res (List Int × List Nat))
  let m ← rd marked v
  let clash := if m = -1 then s.clash ++ [v] else s.clash
  let nxt ← rd M.first (v + 1)
  let _ ← rd M.first v
  let p ← rd ps (s.size - 1)
  let p2 ← rd M.ptr nxt
  let r ← dfsScan M marked p p2 clash
  match r with
  | .brk (p, i, clash) => do
    let ps ← wr ps (s.size - 1) p
    let xi ← wr s.xi s.size i
    ok ⟨s.size + 1, s.top, xi, ps, marked, clash⟩
  | .next clash =>
    if s.top = 0 then ub else do
    let xi ← wr s.xi (s.top - 1) v
    ok ⟨s.size - 1, s.top - 1, xi, ps, marked, clash⟩

/-- `dfs_BCSC_CC`, lbc_utils.cpp:76-119 (`top = n` in the call); fuel as in `Lbc.dfsCC`. -/
def dfsCC (M : BlockCsc) (j : Nat) (marked : List Int) (xi ps : List Nat) : Res Dfs := do
  let c ← rd M.first j
  let xi ← wr xi 0 c
  whileF (2 * M.n) (fun s => ok (decide (s.size ≠ 0))) (dfsStep M) ⟨1, M.n, xi, ps, marked, []⟩

/-! ### `modified_BFS_BCSC` -/

/-- sparse_utilities.cpp:569-584, the body of `while (!queue.empty())`. -/
def bfsPop (M : BlockCsc) (lab : List Int) (s : Bfs) : Res Bfs :=
  match s.queue with
  | [] => ub
  | u :: q => do
    let visited ← wr s.visited u true
    let l ← rd lab u
    let part ← rdZ s.parts l
    let parts ← wrZ s.parts l (part ++ [u])
    let t ← blockCol M u
    overRows M (t.1 + t.2.1) t.2.2 bfsEdge ⟨q, visited, s.deg, parts⟩

/-- sparse_utilities.cpp:564-585, one leaf. -/
def bfsLeaf (debug : Bool) (M : BlockCsc) (lab : List Int) (u : Nat) (s : Bfs) : Res Bfs := do
  let l ← rd lab u
  if debug = true ∧ l < 0 then exn else
  whileF (M.n + 1) (fun s => ok (!s.queue.isEmpty)) (bfsPop M lab)
    { s with queue := s.queue ++ [u] }

/-- `modified_BFS_BCSC`, sparse_utilities.cpp:556-588. -/
def bfs (debug : Bool) (M : BlockCsc) (lab : List Int) (levelPtr levelSet : List Nat) (lev : Nat)
    (s : Bfs) : Res Bfs := do
  let a ← rd levelPtr lev
  let b ← rd levelPtr (lev + 1)
  forRange a b (fun ii s => do
    let u ← rd levelSet ii
    bfsLeaf debug M lab u s) s

/-! ### The components of a window -/

section
variable {K : Type} [Add K]

/-- `node2partition`, `isMarked`, `outCost`, `cc`, the halves of `xi`, and `isUniq`.  Unlike in
`Lbc.Comps`, `cc` may get negative. -/
structure Comps (K : Type) where
  lab : List Int
  marked : List Int
  outCost : List K
  cc : Int
  xi : List Nat
  ps : List Nat
  uniq : List Bool

/-- lbc_blocked.cpp:127-135: the labels of the clashing components *after the first one* become `min`. -/
def relabel (n : Nat) (min : Nat) (clash : List Nat) (lab : List Int) : Res (List Int) :=
  forEach clash.tail (fun x lab => do
    let tn ← rd lab x
    forRange 0 n (fun i lab => do
      let v ← rd lab i
      if v = tn then wr lab i min else ok lab) lab) lab

/-- One leaf after the search, lbc_blocked.cpp:122-164. -/
def leafRest (n : Nat) (node2Level : List Nat) (dfsLevel : Nat) (nodeCost : List K) (s : Comps K)
    (d : Dfs) : Res (Comps K) := do
  let u ← makeUnique s.lab d.clash s.uniq
  if u.1.length ≠ 0 then do
    let lab ← relabel n u.2.1 u.1 s.lab
    let r ← setComp node2Level dfsLevel u.2.1 n d.top nodeCost d.xi (lab, d.marked, s.outCost)
    ok ⟨r.1, r.2.1, r.2.2, s.cc - ((u.1.length : Int) - 1), d.xi, d.ps, u.2.2⟩
  else
    if s.cc < 0 then ub else do
    let r ← setComp node2Level dfsLevel s.cc.toNat n d.top nodeCost d.xi (s.lab, d.marked, s.outCost)
    ok ⟨r.1, r.2.1, r.2.2, s.cc + 1, d.xi, d.ps, u.2.2⟩

/-- One leaf, lbc_blocked.cpp:114-166. -/
def leafComp (M : BlockCsc) (node2Level : List Nat) (dfsLevel : Nat) (nodeCost : List K)
    (leaf : Nat) (s : Comps K) : Res (Comps K) := do
  let m ← rd s.marked leaf
  if m = 0 then do
    let d ← dfsCC M leaf s.marked s.xi s.ps
    leafRest M.n node2Level dfsLevel nodeCost s d
  else ok s

/-- The components of a window, lbc_blocked.cpp:109-166. -/
def windowComps (M : BlockCsc) (levelPtr levelSet node2Level : List Nat) (dfsLevel : Nat)
    (nodeCost : List K) (s : Comps K) : Res (Comps K) := do
  let a ← rd levelPtr dfsLevel
  let b ← rd levelPtr (dfsLevel + 1)
  forRange a b (fun k s => do
    let leaf ← rd levelSet k
    leafComp M node2Level dfsLevel nodeCost leaf s) s

/-! ### One window -/

variable [LT K] [DecidableLT K]

/-- The W-partitions of a window, lbc_blocked.cpp:204-228.  `resize` of a negative number throws. -/
def pack (P : Params K) (lists : List (List Nat)) (outCost newOutCost : List K) (sizes : List Nat)
    (l : Nat) : Res (Nat × List K × List (List Nat)) :=
  if P.innerParts = 0 then ub else
  if P.innerParts < 0 then exn else
  if lists.length > P.innerParts.toNat then do
    let size ← rd sizes l
    let r ← worstFit P.big P.sort lists outCost (List.replicate P.innerParts.toNat []) newOutCost size
    if P.debug = true ∧ ¬ r.1 ≤ P.innerParts.toNat then exn else ok r
  else ok (lists.length, newOutCost, lists)

/-- lbc_blocked.cpp:90-260, the body of the loop over the windows. -/
def process (P : Params K) (M : BlockCsc) (V : Wins) (nodeCost : List K) (l : Nat) (s : SeqSt K) :
    Res (SeqSt K) := do
  let w ← bounds V.bound l
  let marked ← overLower V.levelPtr V.levelSet w.1 (fun x m => wr m x (1 : Int)) s.marked
  let marked ← overLevels V.levelPtr V.levelSet w.2 V.height (fun x m => wr m x (1 : Int)) marked
  let c ← windowComps M V.levelPtr V.levelSet V.node2Level w.1 nodeCost
    ⟨s.lab, marked, s.outCost, 0, s.xi, s.ps, List.replicate M.n false⟩
  let marked ← overLower V.levelPtr V.levelSet w.1 (fun x m => wr m x (0 : Int)) c.marked
  let mv ← overLevels V.levelPtr V.levelSet w.2 V.height (fun x (mv : List Int × List Bool) => do
    let m ← wr mv.1 x (0 : Int)
    let v ← wr mv.2 x true
    ok (m, v)) (marked, s.visited)
  let b ← bfs P.debug M c.lab V.levelPtr V.levelSet w.1
    ⟨[], mv.2, s.deg, List.replicate c.cc.toNat []⟩
  let visited ← overLevels V.levelPtr V.levelSet w.2 V.height (fun x v => wr v x false) b.visited
  let r ← pack P b.parts c.outCost s.newOutCost V.sizes l
  let e ← emitWindowSeq nodeCost l r.1 r.2.2 s.emit c.lab
  ok ⟨mv.1, visited, e.2, c.outCost, r.2.1, b.deg, c.xi, c.ps, e.1⟩

end

/-- The levels and the windows, lbc_blocked.cpp:57-67 and 78-88. -/
def windows {K : Type} (P : Params K) (M : BlockCsc) (slack : Nat → List Int) (minDist divRate : Int) :
    Res (Nat × Wins) := do
  let o ← buildLevelSet P.debug M slack
  let ntl ← nodeLevels o.1 o.2.1 o.2.2 M.n
  let h ← LbcTree.heightPartition P.debug o.1 o.2.1 P.innerParts minDist divRate
  ok (h.1, ⟨o.2.1, o.2.2, ntl, o.1, h.2.1, h.2.2⟩)

/-- `getCoarseLevelSet_DAG_BCSC02`, lbc_blocked.cpp:15-294.  `xi0`, `ps0` are the contents of the
uninitialised `xi`. -/
def coarsen {K : Type} [Add K] [LT K] [DecidableLT K] (P : Params K) (M : BlockCsc)
    (slack : Nat → List Int) (minDist divRate : Int) (nodeCost : List K) (zero : K)
    (xi0 ps0 : List Nat) : Res Sched := do
  let w ← windows P M slack minDist divRate
  let deg ← inDegrees M
  let s ← forRange 0 w.1 (process P M w.2 nodeCost)
    ⟨List.replicate M.n 0, List.replicate M.n false, List.replicate M.n (-1), List.replicate M.n zero,
      List.replicate M.n zero, deg, xi0, ps0, Emit.start M.n⟩
  let _ ← verifySet P.debug M.n w.1 s.emit
  ok ⟨w.1, s.emit.levelPtr, s.emit.partPtr, s.emit.nodes⟩

end Verif.Blocked
