import Verif.Res
import Verif.Spec.Graph

/-!
# Model of `build_levelSet_CSC`

`src/hdagg/hdagg.cpp` lines 16-69.  The two copies in `utils/sparse_inspector.cpp`
(lines 15-60 and 958-1010) are the same code without `node_to_level`.
-/

namespace Verif.LevelSet
open Res

/-- Local variables of `build_levelSet_CSC` (hdagg.cpp:16-23). `inDegree` is an `int`
array and is modelled by integers; `end` is an `int` that starts at `n-1` and may be `-1`. -/
structure St where
  inDegree : List Int
  visited : List Bool
  levelSet : List Nat
  nodeToLevel : List Nat
  levelPtr : List Nat
  cnt : Nat
  curLevel : Nat
  beg : Nat
  end_ : Int
deriving DecidableEq, Repr

/-- hdagg.cpp:24-28: `for (i = 0; i < Lp[n]; ++i) inDegree[Li[i]]++`. -/
def countInDegree (n : Nat) (Lp Li : List Nat) (inDegree : List Int) : Res (List Int) := do
  let nnz ← rd Lp n
  forRange 0 nnz (fun j deg => do
    let v ← rd Li j
    let d ← rd deg v
    wr deg v (d + 1)) inDegree

/-- hdagg.cpp:34-40: one iteration of the scan `for (i = begin; i <= end; ++i)`. -/
def scanStep (i : Nat) (s : St) : Res St := do
  let d ← rd s.inDegree i
  if d = 1 then
    let vis ← rd s.visited i
    if vis then pure s
    else
      let visited ← wr s.visited i true
      let levelSet ← wr s.levelSet s.cnt i
      let nodeToLevel ← wr s.nodeToLevel i s.curLevel
      pure { s with visited := visited, levelSet := levelSet, nodeToLevel := nodeToLevel,
                    cnt := s.cnt + 1 }
  else pure s

/-- hdagg.cpp:47-52: `while (inDegree[begin] == 1) { begin++; if (begin >= n) break; }`. -/
def advanceBegin (n : Nat) (inDegree : List Int) (beg : Nat) : Res Nat :=
  loopF (n + 1) (fun b => do
    let d ← rd inDegree b
    if d = 1 then
      if b + 1 ≥ n then pure (.brk (b + 1)) else pure (.next (b + 1))
    else pure (.brk b)) beg

/-- hdagg.cpp:53-54: `while (inDegree[end] == 1 && begin <= end) end--;`.
The read of `inDegree[end]` comes before the comparison. -/
def retreatEnd (n : Nat) (inDegree : List Int) (beg : Nat) (end_ : Int) : Res Int :=
  loopF (n + 1) (fun e => do
    let d ← rdZ inDegree e
    if d = 1 ∧ (beg : Int) ≤ e then pure (.next (e - 1)) else pure (.brk e)) end_

/-- hdagg.cpp:56-64: remove the edges leaving the nodes of the level just found. -/
def removeEdges (Lp Li : List Nat) (levelSet : List Nat) (lo hi : Nat) (inDegree : List Int) :
    Res (List Int) :=
  forRange lo hi (fun l deg => do
    let cc ← rd levelSet l
    let a ← rd Lp cc
    let b ← rd Lp (cc + 1)
    forRange a b (fun j deg => do
      let v ← rd Li j
      if v ≠ cc then
        let d ← rd deg v
        wr deg v (d - 1)
      else pure deg) deg) inDegree

/-- One iteration of the outer `while (begin <= end)` loop, hdagg.cpp:30-66.
`brk` is `return`; `next` continues with the loop test. -/
def round (n : Nat) (Lp Li : List Nat) (s : St) : Res (Ctl St (Int × St)) :=
  if (s.beg : Int) ≤ s.end_ then do
    let s ← forRange s.beg (s.end_ + 1).toNat scanStep s
    let s := { s with curLevel := s.curLevel + 1 }
    if s.curLevel ≥ n then pure (.brk (-1, s))
    else
      let levelPtr ← wr s.levelPtr s.curLevel s.cnt
      let beg ← advanceBegin n s.inDegree s.beg
      let end_ ← retreatEnd n s.inDegree beg s.end_
      let lo ← rd levelPtr (s.curLevel - 1)
      let hi ← rd levelPtr s.curLevel
      let inDegree ← removeEdges Lp Li s.levelSet lo hi s.inDegree
      pure (.next { s with levelPtr := levelPtr, beg := beg, end_ := end_,
                           inDegree := inDegree })
  else pure (.brk ((s.curLevel : Int), s))

/-- What `build_levelSet_CSC` leaves behind: its return value and the three output arrays. -/
structure Out where
  ret : Int
  levelPtr : List Nat
  levelSet : List Nat
  nodeToLevel : List Nat
deriving DecidableEq, Repr

/-- `build_levelSet_CSC(n, Lp, Li, levelPtr, levelSet, node_to_level)`, hdagg.cpp:16-69.
The output arrays are allocated (and zeroed) by the callers: `levelPtr` has `n+1`
entries, `levelSet` and `node_to_level` have `n` (hdagg.cpp:625,654-655;
sparse_inspector.cpp:19-20,1018-1019).  The loop returns at the latest when
`cur_level` reaches `n`, so `n + 1` iterations of fuel suffice (proved). -/
def buildLevelSet (n : Nat) (Lp Li : List Nat) : Res Out := do
  let inDegree ← countInDegree n Lp Li (List.replicate n 0)
  let s0 : St :=
    { inDegree := inDegree, visited := List.replicate n false
      levelSet := List.replicate n 0, nodeToLevel := List.replicate n 0
      levelPtr := List.replicate (n + 1) 0, cnt := 0, curLevel := 0, beg := 0
      end_ := (n : Int) - 1 }
  let r ← loopF (n + 2) (round n Lp Li) s0
  pure { ret := r.1, levelPtr := r.2.levelPtr, levelSet := r.2.levelSet
         nodeToLevel := r.2.nodeToLevel }

end Verif.LevelSet
