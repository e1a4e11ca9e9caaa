import Verif.Model.LevelSet
import Verif.Model.Utils
import Verif.Model.SmallUtil
import Verif.Spec.Dagp

/-!
# Model of the schedules made from a partition by dagP

`utils/external/DAGPInterface/includes/dagp_utils.h` and the class `SpTrSv_LL_DAGP` of
`example/SpTRSV_runtime.h` (lines 1286-1345).  dagP itself (`loadFromCSC`, `dagP_partition_from_dgraph`) is an
external library: it is a parameter.  Output to the terminal is left out, and so is
`convert_partition_to_p_graph`, which does nothing else.  `get_h_level_set_V2` (250-304) is not modelled: it calls
`build_levelSet_CSC_V2`, which does not exist in the repository.
-/

namespace Verif.Dagp
open Res

/-- dagp_utils.h 22-25: `maxParts + 1`, the largest part number plus one.  Part numbers are not negative (a negative
one would be an index out of bounds below). -/
def countParts (nVrtx : Nat) (part : List Nat) : Res Nat :=
  forRange 1 (nVrtx + 1) (fun i m => do
    let p ← rd part i
    ok (if m < p + 1 then p + 1 else m)) 0

/-- `adj[a][b] += w`, dagp_utils.h 34. -/
def addAt {W : Type} [Add W] (adj : List (List W)) (a b : Nat) (w : W) : Res (List (List W)) := do
  let row ← rd adj a
  let v ← rd row b
  let row ← wr row b (v + w)
  wr adj a row

/-- `convert_to_pgraph(G, part)`, dagp_utils.h 20-52.  `nz v` is the test `v != 0` and `dbg` switches on the assertion
of `dense_to_csc`. -/
def convertToPgraph {W : Type} [Zero W] [Add W] (dbg : Bool) (nz : W → Bool) (G : DGraph W) (part : List Nat) :
    Res (Sp W) := do
  let k ← countParts G.nVrtx part
  let adj ← forRange 1 (G.nVrtx + 1) (fun i adj => do
    let lo ← rd G.outStart i
    let hi ← rd G.outEnd i
    forRange lo (hi + 1).toNat (fun j adj => do
      let a ← rd part i
      let o ← rd G.out j
      let b ← rd part o
      if a ≠ b then do
        let w ← rd G.ecOut j
        addAt adj a b w
      else ok adj) adj) (List.replicate k (List.replicate k 0))
  Util.denseToCsc dbg nz k k adj

/-- Local variables of `build_levelSet_CSC_pgraph`, dagp_utils.h 160-165. -/
structure PSt where
  inDegree : List Int
  visited : List Bool
  levelSet : List Nat
  levelPtr : List Nat
  cnt : Nat
  curLevel : Nat
  beg : Nat
  end_ : Int
deriving DecidableEq, Repr

/-- dagp_utils.h 166-173: count the incoming edges, without the diagonal. -/
def countOff (n : Nat) (Lp Li : List Nat) : Res (List Int) :=
  forRange 0 n (fun i deg => do
    let a ← rd Lp i
    let b ← rd Lp (i + 1)
    forRange a b (fun j deg => do
      let cn ← rd Li j
      if cn ≠ i then do
        let d ← rd deg cn
        wr deg cn (d + 1)
      else ok deg) deg) (List.replicate n 0)

/-- dagp_utils.h 179-185: one iteration of the scan. -/
def scanStep (i : Nat) (s : PSt) : Res PSt := do
  let d ← rd s.inDegree i
  if d = 0 then do
    let vis ← rd s.visited i
    if vis then ok s
    else do
      let visited ← wr s.visited i true
      let levelSet ← wr s.levelSet s.cnt i
      ok { s with visited := visited, levelSet := levelSet, cnt := s.cnt + 1 }
  else ok s

/-- dagp_utils.h 193-197. -/
def advanceBegin (n : Nat) (inDegree : List Int) (beg : Nat) : Res Nat :=
  loopF (n + 1) (fun b => do
    let d ← rd inDegree b
    if d = 0 then
      if b + 1 ≥ n then ok (.brk (b + 1)) else ok (.next (b + 1))
    else ok (.brk b)) beg

/-- dagp_utils.h 198-199; the read comes before the comparison. -/
def retreatEnd (n : Nat) (inDegree : List Int) (beg : Nat) (end_ : Int) : Res Int :=
  loopF (n + 1) (fun e => do
    let d ← rdZ inDegree e
    if d = 0 ∧ (beg : Int) ≤ e then ok (.next (e - 1)) else ok (.brk e)) end_

/-- dagp_utils.h 201-207: remove the edges that leave the nodes of the level just found. -/
def removeEdges (Lp Li : List Nat) (levelSet : List Nat) (lo hi : Nat) (inDegree : List Int) : Res (List Int) :=
  forRange lo hi (fun l deg => do
    let cc ← rd levelSet l
    let a ← rd Lp cc
    let b ← rd Lp (cc + 1)
    forRange a b (fun j deg => do
      let v ← rd Li j
      if v ≠ cc then do
        let d ← rd deg v
        wr deg v (d - 1)
      else ok deg) deg) inDegree

/-- One iteration of `while (begin <= end)`, dagp_utils.h 178-209; `brk` leaves the function. -/
def round (n : Nat) (Lp Li : List Nat) (s : PSt) : Res (Ctl PSt (Int × PSt)) :=
  if (s.beg : Int) ≤ s.end_ then do
    let s ← forRange s.beg (s.end_ + 1).toNat scanStep s
    let s := { s with curLevel := s.curLevel + 1 }
    if s.curLevel > n then ok (.brk (-1, s))
    else do
      let levelPtr ← wr s.levelPtr s.curLevel s.cnt
      let beg ← advanceBegin n s.inDegree s.beg
      let end_ ← retreatEnd n s.inDegree beg s.end_
      let lo ← rd levelPtr (s.curLevel - 1)
      let hi ← rd levelPtr s.curLevel
      let inDegree ← removeEdges Lp Li s.levelSet lo hi s.inDegree
      ok (.next { s with levelPtr := levelPtr, beg := beg, end_ := end_, inDegree := inDegree })
  else ok (.brk ((s.curLevel : Int), s))

/-- `build_levelSet_CSC_pgraph(n, Lp, Li, levelPtr, levelSet)`, dagp_utils.h 158-213: the return value and the two
arrays. -/
def buildLevelSet (n : Nat) (Lp Li : List Nat) : Res (Int × List Nat × List Nat) := do
  let deg ← countOff n Lp Li
  let r ← loopF (n + 2) (round n Lp Li)
    { inDegree := deg, visited := List.replicate n false, levelSet := List.replicate n 0
      levelPtr := List.replicate (n + 1) 0, cnt := 0, curLevel := 0, beg := 0, end_ := (n : Int) - 1 }
  ok (r.1, r.2.levelPtr, r.2.levelSet)

/-- dagp_utils.h 223-227: the vertices of each part; vertex `i` of dagP is row `i - 1`. -/
def collectParts (nv nParts : Nat) (parts : List Nat) : Res (List (List Nat)) :=
  forRange 1 (nv + 1) (fun i ps => do
    let c ← rd parts i
    let l ← rd ps c
    wr ps c (l ++ [i - 1])) (List.replicate nParts [])

/-- dagp_utils.h 232-238: write the part listed at position `i` of the level set.  The state is
`(c_part, c_vert, h_par_ptr, h_partition)`. -/
def writePart (levelSet : List Nat) (ps : List (List Nat)) (i : Nat) (s : Nat × Nat × List Nat × List Nat) :
    Res (Nat × Nat × List Nat × List Nat) := do
  let c ← rd levelSet i
  let old ← rd s.2.2.1 s.1
  let before ← rd s.2.2.1 (s.1 - 1)
  let l ← rd ps c
  let pp ← wr s.2.2.1 s.1 (old + (before + l.length))
  let t ← forRange 0 l.length (fun k (t : Nat × List Nat) => do
    let v ← rd l k
    let h ← wr t.2 t.1 v
    ok (t.1 + 1, h)) (s.2.1, s.2.2.2)
  ok (s.1 + 1, t.1, pp, t.2)

/-- What `get_h_level_set` hands back. -/
structure HOut where
  levels : Int
  levelPtr : List Nat
  partPtr : List Nat
  nodes : List Nat
deriving DecidableEq, Repr

/-- `get_h_level_set`, dagp_utils.h 215-247, for a graph with `n` nodes.  `dbg` switches on the assertion of
line 243. -/
def getHLevelSet (dbg : Bool) (nv n : Nat) (Lp Li : List Nat) (nParts : Nat) (parts : List Nat) : Res HOut := do
  let r ← buildLevelSet n Lp Li
  let ps ← collectParts nv nParts parts
  let t ← forRange 0 r.1.toNat (fun j (t : List Nat × Nat × Nat × List Nat × List Nat) => do
    let hi ← rd r.2.1 (j + 1)
    let lp ← wr t.1 (j + 1) hi
    let lo ← rd r.2.1 j
    let s ← forRange lo hi (writePart r.2.2 ps) t.2
    ok (lp, s))
    (List.replicate (r.1 + 1).toNat 0, 1, 0, List.replicate (nParts + 1) 0, List.replicate nv 0)
  if dbg ∧ t.2.2.1 ≠ nv then exn
  else ok ⟨r.1, t.1, t.2.2.2.1, t.2.2.2.2⟩

/-- dagP: from the number of vertices, of entries, the pointers, the indices and the number of parts to the graph
that `loadFromCSC` makes and the parts that `dagP_partition_from_dgraph` writes (dagp_utils.h 62-105). -/
abbrev Lib (W : Type) := Nat → Nat → List Nat → List Nat → Nat → DGraph W × List Nat

/-- SpTRSV_runtime.h 1309-1312: the arrays are copied into vectors (that are not used); reading behind their ends is
undefined. -/
def copied (o : HOut) (numParts n : Nat) : Res HOut :=
  if (o.levelPtr.length : Int) < o.levels + 1 ∨ o.partPtr.length < numParts + 1 ∨ o.nodes.length < n then ub else ok o

/-- `SpTrSv_LL_DAGP::build_set`, SpTRSV_runtime.h 1299-1334.  Timing and statistics are left out. -/
def buildSet {V W : Type} [Zero V] [Zero W] [Add W] (dbg : Bool) (nz : W → Bool) (lib : Lib W) (L : Sp V) (nnz : Nat)
    (numParts : Nat) : Res HOut := do
  let one ← SmallU.oneBased L nnz false
  let (G, parts) := lib L.cols nnz one.p one.i numParts
  let pg ← convertToPgraph dbg nz G parts
  let o ← getHLevelSet dbg L.cols pg.cols pg.p pg.i numParts parts
  copied o numParts L.cols

end Verif.Dagp
