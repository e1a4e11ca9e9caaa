import Verif.Model.LbcSeq
import Verif.Model.MultiLevels

/-!
# Model: the LBC coarsening of lbc_csc.cpp

`get_coarse_levelSet_DAG_CSC` (src/lbc_csc.cpp 15-296).  The functions it calls (`dfs_CSC_CC`,
`make_unique`, `modified_BFS_CSC`, `worst_fit_bin_pack`, `height_partitioning_DAG_trng`) and the loops
that are equal word for word to those of `get_coarse_Level_set_DAG_CSC03` are those of
Verif/Model/Lbc.lean and Verif/Model/LbcSeq.lean; the levels are those of Verif/Model/MultiLevels.lean.
The verification under `#ifdef CHECK` is not compiled and left out; so are `partNo` (never written),
`averageCC` and the costs of windows and parts, which have no effect (the divisions by `innerParts`
and by the number of windows are kept).
-/

namespace Verif.Lbc
open Res

/-- lbc_csc.cpp:172-176, the marks of the level below the window are cleared: unlike in the loop that
sets them, `lb + 1` is the end also for the first window, so that there level 0 is cleared. -/
def resetLower {σ : Type} (levelPtr levelSet : List Nat) (dfsLevel : Nat) (f : Nat → σ → Res σ)
    (s : σ) : Res σ := do
  let a ← rd levelPtr (dfsLevel - 1)
  let b ← rd levelPtr (dfsLevel - 1 + 1)
  forRange a b (fun j s => do
    let x ← rd levelSet j
    f x s) s

/-- The levels and the windows, lbc_csc.cpp:49-90.  `node2Level` is not initialised; here it starts
with zeros.  The rounds of the height partition are at most the levels, hence at most `n`. -/
def windowsCsc {K : Type} (P : Params K) (n : Nat) (Lp Li : List Nat) (minDist divRate : Int) :
    Res (Nat × Wins) := do
  let o ← MLevel.build n Lp Li 1
  let ntl ← nodeLevels o.1 o.2.1 o.2.2 n
  let h ← heightPartition n P.debug o.1 o.2.1 P.innerParts minDist divRate
  ok (h.1, ⟨o.2.1, o.2.2, ntl, o.1, h.2.1, h.2.2⟩)

section
variable {K : Type} [Add K] [LT K] [DecidableLT K]

/-- lbc_csc.cpp:93-256, the body of the loop over the windows. -/
def processCsc (P : Params K) (n : Nat) (Lp Li : List Nat) (V : Wins)
    (nodeCost : List K) (l : Nat) (s : SeqSt K) : Res (SeqSt K) := do
  let w ← bounds V.bound l
  let marked ← overLower V.levelPtr V.levelSet w.1 (fun x m => wr m x (1 : Int)) s.marked
  let marked ← overLevels V.levelPtr V.levelSet w.2 V.height (fun x m => wr m x (1 : Int)) marked
  let c ← windowComps n Lp Li V.levelPtr V.levelSet V.node2Level w.1 nodeCost
    ⟨s.lab, marked, s.outCost, 0, s.xi, s.ps, List.replicate n false⟩
  let marked ← resetLower V.levelPtr V.levelSet w.1 (fun x m => wr m x (0 : Int)) c.marked
  let mv ← overLevels V.levelPtr V.levelSet w.2 V.height (fun x (mv : List Int × List Bool) => do
    let m ← wr mv.1 x (0 : Int)
    let v ← wr mv.2 x true
    ok (m, v)) (marked, s.visited)
  let b ← bfs P.debug n Lp Li c.lab V.levelPtr V.levelSet w.1
    ⟨[], mv.2, s.deg, List.replicate c.cc []⟩
  let visited ← overLevels V.levelPtr V.levelSet w.2 V.height (fun x v => wr v x false) b.visited
  let r ← pack P P.binPack b.parts c.outCost s.newOutCost V.sizes l
  let e ← emitWindowSeq nodeCost l r.1 r.2.2 s.emit c.lab
  ok ⟨mv.1, visited, e.2, c.outCost, r.2.1, b.deg, c.xi, c.ps, e.1⟩

/-- `get_coarse_levelSet_DAG_CSC`, lbc_csc.cpp:15-296.  `xi0`, `ps0` are the contents of the
uninitialised `xi`.  The returned number is `averageCC / lClusterCnt`. -/
def coarsenCsc (P : Params K) (n : Nat) (Lp Li : List Nat)
    (minDist divRate : Int) (nodeCost : List K) (zero : K) (xi0 ps0 : List Nat) : Res Sched := do
  let w ← windowsCsc P n Lp Li minDist divRate
  let deg ← inDegrees n Lp Li
  let s ← forRange 0 w.1 (processCsc P n Lp Li w.2 nodeCost)
    ⟨List.replicate n 0, List.replicate n false, List.replicate n (-1), List.replicate n zero,
      List.replicate n zero, deg, xi0, ps0, Emit.start n⟩
  if w.1 = 0 then ub else ok ⟨w.1, s.emit.levelPtr, s.emit.partPtr, s.emit.nodes⟩

end

end Verif.Lbc
