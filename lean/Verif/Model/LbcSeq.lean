import Verif.Model.Lbc

/-!
# Model: sequential LBC coarsening of a DAG

`get_coarse_Level_set_DAG_CSC03` (src/lbc_csc_dag.cpp 401-685) with `dfs_CSC_CC` and `make_unique`
(src/lbc_utils.cpp 14-73).  As in Verif/Model/Lbc.lean, costs are elements of an arbitrary type; the
costs of the windows and parts, `averageCC` and the timing have no effect and are left out (the
division by `innerParts` is not).
-/

namespace Verif.Lbc
open Res

/-! ### `dfs_CSC_CC` -/

/-- `head + 1`, `top`, `xi[0..n)`, `pstack = xi[n..2n)`, `marked`, `clashedNodes`.  The two
halves of `xi` are separate arrays: an access outside of one of them is undefined here. -/
structure Dfs where
  size : Nat
  top : Nat
  xi : List Nat
  ps : List Nat
  marked : List Int
  clash : List Nat
deriving DecidableEq, Repr

/-- The loop over the neighbours, lbc_utils.cpp:54-65: stops at the first node without a mark. -/
def dfsScan (Gi : List Nat) (marked : List Int) (lo hi : Nat) (clash : List Nat) :
    Res (Ctl (List Nat) (Nat × Nat × List Nat)) :=
  forRangeB lo hi (fun p clash => do
    let i ← rd Gi p
    let m ← rd marked i
    let clash := if m = -1 then clash ++ [i] else clash
    if m ≠ 0 then ok (.next clash) else ok (.brk (p, i, clash))) clash

/-- lbc_utils.cpp:43-70, the body of `while (head >= 0)`; `pinv` is `NULL` in all calls. -/
def dfsStep (Gp Gi : List Nat) (s : Dfs) : Res Dfs :=
  if s.size = 0 then ub else do
  let j ← rd s.xi (s.size - 1)
  let m ← rd s.marked j
  let (marked, ps) ← (if m = 0 then do
      let marked ← wr s.marked j 1
      let p ← rd Gp j
      let ps ← wr s.ps (s.size - 1) p
      ok (marked, ps)
    else ok (s.marked, s.ps) : Res (List Int × List Nat))
  let m ← rd marked j
  let clash := if m = -1 then s.clash ++ [j] else s.clash
  let p2 ← rd Gp (j + 1)
  let p ← rd ps (s.size - 1)
  let r ← dfsScan Gi marked p p2 clash
  match r with
  | .brk (p, i, clash) => do
    let ps ← wr ps (s.size - 1) p
    let xi ← wr s.xi s.size i
    ok ⟨s.size + 1, s.top, xi, ps, marked, clash⟩
  | .next clash =>
    if s.top = 0 then ub else do
    let xi ← wr s.xi (s.top - 1) j
    ok ⟨s.size - 1, s.top - 1, xi, ps, marked, clash⟩

/-- `dfs_CSC_CC`, lbc_utils.cpp:36-73 (`top = n` in all calls).  Every node is pushed and popped at
most once, so `2 * n` rounds of fuel suffice (proved). -/
def dfsCC (n : Nat) (Gp Gi : List Nat) (j : Nat) (marked : List Int) (xi ps : List Nat) :
    Res Dfs := do
  let xi ← wr xi 0 j
  whileF (2 * n) (fun s => ok (decide (s.size ≠ 0))) (dfsStep Gp Gi) ⟨1, n, xi, ps, marked, []⟩

/-! ### `make_unique` -/

/-- `INT32_MAX`. -/
def intMax : Nat := 2147483647

/-- The first loop of `make_unique`, lbc_utils.cpp:17-27: the list without repeated labels, the
smallest label, and `ws`. -/
def uniqueStep (lab : List Int) (x : Nat) (s : List Nat × Nat × List Bool) :
    Res (List Nat × Nat × List Bool) := do
  let t ← rd lab x
  let w ← rdZ s.2.2 t
  if w = false then do
    let ws ← wrZ s.2.2 t true
    ok (s.1 ++ [x], if s.2.1 > t then t.toNat else s.2.1, ws)
  else ok s

/-- `make_unique`, lbc_utils.cpp:14-34. -/
def makeUnique (lab : List Int) (list : List Nat) (ws : List Bool) :
    Res (List Nat × Nat × List Bool) := do
  let s ← forEach list (uniqueStep lab) ([], intMax, ws)
  let ws ← forEach s.1 (fun x ws => do
    let t ← rd lab x
    wrZ ws t false) s.2.2
  ok (s.1, s.2.1, ws)

/-! ### The components of a window -/

section
variable {K : Type} [Add K]

/-- `node2partition`, `isMarked`, `outCost`, `cc`, the halves of `xi`, and `isUniq`. -/
structure Comps (K : Type) where
  lab : List Int
  marked : List Int
  outCost : List K
  cc : Nat
  xi : List Nat
  ps : List Nat
  uniq : List Bool

/-- The labels `tn` of the clashing components become `min`, lbc_csc_dag.cpp:506-517. -/
def relabel (n : Nat) (min : Nat) (clash : List Nat) (lab : List Int) : Res (List Int) :=
  forEach clash (fun x lab => do
    let tn ← rd lab x
    if tn ≠ (min : Int) then
      forRange 0 n (fun i lab => do
        let v ← rd lab i
        if v = tn then wr lab i min else ok lab) lab
    else ok lab) lab

/-- The nodes found by the search get the label `c`, lbc_csc_dag.cpp:520-531 and 533-542. -/
def setComp (node2Level : List Nat) (dfsLevel c n top : Nat) (nodeCost : List K) (xi : List Nat)
    (s : List Int × List Int × List K) : Res (List Int × List Int × List K) :=
  forRange top n (fun i s => do
    let x ← rd xi i
    let lab ← wr s.1 x (c : Int)
    let o ← rd s.2.2 c
    let w ← rd nodeCost x
    let out ← wr s.2.2 c (o + w)
    let lv ← rd node2Level x
    let marked ← (if lv ≠ dfsLevel then wr s.2.1 x (-1) else ok s.2.1)
    ok (lab, marked, out)) s

/-- One leaf, lbc_csc_dag.cpp:493-546. -/
def leafComp (n : Nat) (Lp Li node2Level : List Nat) (dfsLevel : Nat) (nodeCost : List K)
    (leaf : Nat) (s : Comps K) : Res (Comps K) := do
  let m ← rd s.marked leaf
  if m = 0 then do
    let d ← dfsCC n Lp Li leaf s.marked s.xi s.ps
    let u ← makeUnique s.lab d.clash s.uniq
    if u.1.length ≠ 0 then do
      let lab ← relabel n u.2.1 u.1 s.lab
      let r ← setComp node2Level dfsLevel u.2.1 n d.top nodeCost d.xi (lab, d.marked, s.outCost)
      ok ⟨r.1, r.2.1, r.2.2, s.cc, d.xi, d.ps, u.2.2⟩
    else do
      let r ← setComp node2Level dfsLevel s.cc n d.top nodeCost d.xi (s.lab, d.marked, s.outCost)
      ok ⟨r.1, r.2.1, r.2.2, s.cc + 1, d.xi, d.ps, u.2.2⟩
  else ok s

/-- The components of a window, lbc_csc_dag.cpp:488-549. -/
def windowComps (n : Nat) (Lp Li levelPtr levelSet node2Level : List Nat) (dfsLevel : Nat)
    (nodeCost : List K) (s : Comps K) : Res (Comps K) := do
  let a ← rd levelPtr dfsLevel
  let b ← rd levelPtr (dfsLevel + 1)
  forRange a b (fun k s => do
    let leaf ← rd levelSet k
    leafComp n Lp Li node2Level dfsLevel nodeCost leaf s) s

/-! ### One window -/

/-- `isMarked`, `visited`, `node2partition`, `outCost`, `newOutCost`, `inDegree`, `xi`, and the
arrays of the result. -/
structure SeqSt (K : Type) where
  marked : List Int
  visited : List Bool
  lab : List Int
  outCost : List K
  newOutCost : List K
  deg : List Int
  xi : List Nat
  ps : List Nat
  emit : Emit

/-- One part of the final schedule, lbc_csc_dag.cpp:617-637.  The writes of `node2partition` are
done in a second loop over the same nodes. -/
def emitPartSeq (nodeCost : List K) (part : List Nat) (s : Emit × List Int) :
    Res (Emit × List Int) := do
  let e ← emitPart nodeCost part s.1
  let lab ← forEach part (fun x lab => wr lab x (s.1.cur : Int)) s.2
  ok (e, lab)

/-- The parts of a window, lbc_csc_dag.cpp:615-637. -/
def emitWindowSeq (nodeCost : List K) (l outParts : Nat) (merged : List (List Nat)) (e : Emit)
    (lab : List Int) : Res (Emit × List Int) := do
  let a ← rd e.levelPtr l
  let levelPtr ← wr e.levelPtr (l + 1) (a + outParts)
  forRange 0 outParts (fun i s => do
    let part ← rd merged i
    emitPartSeq nodeCost part s) ({ e with levelPtr := levelPtr }, lab)

/-- lbc_csc_dag.cpp:466-650, the body of the loop over the windows. -/
def processSeq [LT K] [DecidableLT K] (P : Params K) (n : Nat) (Lp Li : List Nat) (V : Wins)
    (nodeCost : List K) (l : Nat) (s : SeqSt K) : Res (SeqSt K) := do
  let w ← bounds V.bound l
  let marked ← overLower V.levelPtr V.levelSet w.1 (fun x m => wr m x (1 : Int)) s.marked
  let marked ← overLevels V.levelPtr V.levelSet w.2 V.height (fun x m => wr m x (1 : Int)) marked
  let c ← windowComps n Lp Li V.levelPtr V.levelSet V.node2Level w.1 nodeCost
    ⟨s.lab, marked, s.outCost, 0, s.xi, s.ps, List.replicate n false⟩
  let marked ← overLower V.levelPtr V.levelSet w.1 (fun x m => wr m x (0 : Int)) c.marked
  let mv ← overLevels V.levelPtr V.levelSet w.2 V.height (fun x (mv : List Int × List Bool) => do
    let m ← wr mv.1 x (0 : Int)
    let v ← wr mv.2 x true
    ok (m, v)) (marked, s.visited)
  let b ← bfs P.debug n Lp Li c.lab V.levelPtr V.levelSet w.1
    ⟨[], mv.2, s.deg, List.replicate c.cc []⟩
  let visited ← overLevels V.levelPtr V.levelSet w.2 V.height (fun x v => wr v x false) b.visited
  let r ← pack P true b.parts c.outCost s.newOutCost V.sizes l
  let e ← emitWindowSeq nodeCost l r.1 r.2.2 s.emit c.lab
  ok ⟨mv.1, visited, e.2, c.outCost, r.2.1, b.deg, c.xi, c.ps, e.1⟩

end

/-- `inDegree`, lbc_csc_dag.cpp:433, 453-458. -/
def inDegrees (n : Nat) (Lp Li : List Nat) : Res (List Int) :=
  forRange 0 n (fun s deg => countCol Lp Li s deg) (List.replicate n 0)

/-- `get_coarse_Level_set_DAG_CSC03`, lbc_csc_dag.cpp:401-685.  `xi0`, `ps0` are the contents of
the uninitialised `xi`.  The returned number is `averageCC / lClusterCnt`. -/
def coarsenSeq {K : Type} [Add K] [LT K] [DecidableLT K] (P : Params K) (n : Nat) (Lp Li : List Nat)
    (minDist divRate : Int) (nodeCost : List K) (zero : K) (xi0 ps0 : List Nat) : Res Sched := do
  let w ← windows P n Lp Li minDist divRate
  let deg ← inDegrees n Lp Li
  let s ← forRange 0 w.1 (processSeq P n Lp Li w.2 nodeCost)
    ⟨List.replicate n 0, List.replicate n false, List.replicate n (-1), List.replicate n zero,
      List.replicate n zero, deg, xi0, ps0, Emit.start n⟩
  let _ ← verifySet P.debug n w.1 s.emit
  if w.1 = 0 then ub else ok ⟨w.1, s.emit.levelPtr, s.emit.partPtr, s.emit.nodes⟩

end Verif.Lbc
