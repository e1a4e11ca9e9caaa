import Verif.Model.Hdagg

/-!
# Model: `GLC_V2` (src/hdagg/hdagg.cpp:807-1089)

The window loop is the one of `HDAGG` (the statements of lines 883-997 are those of 661-786), with a
copy `node2partition_accepted` of the labels of the last accepted window; the schedule of a
window is built directly from this copy (999-1077).
-/

namespace Verif.Hdagg
open Res CC

/-- The state of `while (!done_flag)`: that of `HDAGG` and `node2partition_accepted`. -/
structure GlcWin where
  base : WinSt
  acc : List Int
deriving DecidableEq, Repr

/-- The state of the outer loop: that of `HDAGG` and the schedule so far. -/
structure GlcSt where
  base : OutSt
  sched : Sched
deriving DecidableEq, Repr

section
variable {K : Type} [Zero K] [Add K] [Sub K] [LT K] [DecidableLT K] [DecidableEq K]

/-- One iteration of the inner loop (hdagg.cpp:899-994).  The labels are copied when the window is
accepted (line 985) and in the first iteration (lines 981, 990). -/
def glcStep (debug : Bool) (d : Inp K) (accept : Nat → Nat → Bool) (cc : Orac) (lb wi : Nat)
    (s : GlcWin) : Res GlcWin := do
  let b ← winStep debug d accept cc lb wi s.base
  let acc := if accept lb b.iter then b.lab
             else if b.iter = 1 then b.lab else s.acc
  ok ⟨b, acc⟩

/-- The coarse level of a window (hdagg.cpp:999-1077); with `debug` the assertions of lines 1031
and 1041 are checked. -/
def glcLevel (debug binPack : Bool) (d : Inp K) (lb ub : Nat) (acc : List Int) (chunk : List Nat)
    (s : Sched) : Res Sched := do
  let a ← rd d.levelPtr lb
  let c ← rd d.levelPtr ub
  let w ← labelCount d.n acc
  let partPtr ← partPtrOf d.n w
  let nodes ← readSlice d.levelSet a c
  let bad ← forEach nodes (fun u bad => do
    let l ← rd acc u
    ok (bad || l == -1)) false
  if debug ∧ bad then exn else
  let nodePtr ← nodePtrOf acc nodes w
  if binPack then
    let merged ← mergeParts debug d.cores chunk partPtr
    appendLevel s merged nodePtr
  else
    appendLevel s partPtr nodePtr

/-- One window (hdagg.cpp:885-1077).  `node2partition_accepted` starts with `n` zeros. -/
def glcOut (debug binPack : Bool) (d : Inp K) (accept : Nat → Nat → Bool) (cc : Orac) (s : GlcSt) :
    Res GlcSt := do
  if debug ∧ ¬ (min (s.base.lvl + 1) d.nlevels ≤ d.nlevels ∧ s.base.lvl < d.nlevels) then exn else
  let w ← whileF (d.nlevels + 2) (fun w => ok (!w.base.done))
    (glcStep debug d accept cc s.base.lvl (s.base.wm.length - 1))
    ⟨winStart d s.base.lvl s.base.chunks, List.replicate d.n 0⟩
  let wm := s.base.wm ++ [w.base.cand]
  let lb ← rdZ wm ((wm.length : Int) - 2)
  let chunk ← rdZ w.base.chunks ((wm.length : Int) - 2)
  let sched ← glcLevel debug binPack d lb w.base.cand w.acc chunk s.sched
  ok ⟨⟨wm, w.base.chunks, w.base.cand⟩, sched⟩

/-- `GLC_V2` with `parallelLevelset = false`, hdagg.cpp:807-1089: the watermarks and the schedule.
The argument `postOrder` is not used. -/
def glc (debug : Bool) (rdiv : K → Nat → K) (accept : Nat → Nat → Bool) (cc : Orac) (a : Args K) :
    Res (List Nat × Sched) := do
  let o ← LevelSet.buildLevelSet a.n a.p a.ix
  if o.ret < 0 then exn else
  let nl := o.ret.toNat
  let d : Inp K := ⟨a.n, a.p, a.ix, a.nodeCost, a.cores, rdiv, o.levelPtr, o.levelSet,
    o.nodeToLevel, nl⟩
  let s ← whileF nl (fun s => ok (decide (s.base.lvl < nl))) (glcOut debug a.binPack d accept cc)
    ⟨⟨[0], List.replicate nl [], 0⟩, ⟨0, [0], [0], []⟩⟩
  ok (s.base.wm, { s.sched with levels := s.base.wm.length - 1 })

end

/-! ### `build_coarsened_level_parallel` -/

/-- The coarsening factor chosen by `lbc_config`, lbc_csc_dag.cpp:16-29 (division by zero for
`n = 0`). -/
def lbcFactor (n nnz : Nat) : Res Nat :=
  if n = 0 then ub
  else ok (if nnz / n < 10 then 0 else if nnz / n < 100 then 6 else 9)

/-- The watermarks `0, f, 2f, ..., nl` (hdagg.cpp:2560-2567); `nl` may be `-1`. -/
def coarseMarks (f : Nat) (nl : Int) : Nat → Nat → List Nat → Res (List Nat)
  | 0, _, _ => nofuel
  | fuel + 1, i, wm =>
    if (i : Int) < nl then
      let wm := wm ++ [i]
      let i := i + f
      if nl ≤ (i : Int) then ok (wm ++ [nl.toNat]) else coarseMarks f nl fuel i wm
    else ok wm

/-- `build_coarsened_level_parallel` with the coarsening factor `f`, hdagg.cpp:2548-2580.  For
`f = 0` the coarse levels are the levels, each a single part; `coarse_level_no = -1` (level-set
failure), for which every loop over the levels is empty, is represented by `0`. -/
def coarsenedWith (f : Nat) (debug : Bool) (n : Nat) (p ix : List Nat) (cores : Nat) (cc : Orac) :
    Res Sched := do
  let o ← LevelSet.buildLevelSet n p ix
  if 0 < f then
    let wm ← coarseMarks f o.ret (n + 1) 0 []
    computeSchedule debug ⟨cores, n, p, ix, o.levelPtr, o.levelSet, o.nodeToLevel, false, false⟩ wm
      [[0]] cc
  else
    ok ⟨o.ret.toNat, List.range (o.ret + 1).toNat, o.levelPtr, o.levelSet⟩

/-- `build_coarsened_level_parallel`, hdagg.cpp:2538-2582. -/
def coarsened (debug : Bool) (n : Nat) (p ix : List Nat) (cores : Nat) (cc : Orac) : Res Sched := do
  let nnz ← rd p n
  let f ← lbcFactor n nnz
  coarsenedWith f debug n p ix cores cc

end Verif.Hdagg
