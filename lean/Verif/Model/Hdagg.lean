import Verif.Model.LevelSet
import Verif.Model.CC
import Verif.Model.PostOrder
import Verif.Spec.Sched
import Mathlib.Data.List.Sort

/-!
# Model: `HDAGG` and its parts

`computeCC` (src/hdagg/hdagg.cpp:486-605), the packing loop (700-745), `HDAGG` (608-805) and
`computeSchedule` (332-482).

Costs are elements of a type `K` with exact addition and subtraction; the division
`total_cost / cores` is an arbitrary function `rdiv` (so it may round).  The load-balance test
`curr_DKL < 0.003` (line 770), a floating-point computation with logarithms, is an arbitrary answer
`accept`; only its memory reads are modelled.  The interleavings of the concurrent label
computations are arbitrary inputs, see Verif/Model/CC.lean.  All other `omp for` loops write to
distinct locations or use atomic/reduction additions, which are exact here, so they are modelled
as sequential loops.
-/

namespace Verif.Hdagg
open Res CC

/-- `l[lo], ..., l[hi-1]`, bounds-checked. -/
def readSlice (l : List Nat) (lo hi : Nat) : Res (List Nat) :=
  forRange lo hi (fun k acc => do
    let v ← rd l k
    ok (acc ++ [v])) []

section
variable {K : Type} [Zero K] [Add K]

/-- Results of `computeCC`. -/
structure CCOut (K : Type) where
  lab : List Int
  partCnt : Nat
  partCost : List K
  total : K
deriving DecidableEq, Repr

/-- `computeCC` for a single level (hdagg.cpp:507-517). -/
def ccSingle (n a c : Nat) (levelSet : List Nat) (lab : List Int) (nodeCost : List K) :
    Res (CCOut K) :=
  forRange a c (fun k s => do
    let node ← rd levelSet k
    let lab ← wr s.lab node ((k - a : Nat) : Int)
    let w ← rd nodeCost node
    let partCost ← wr s.partCost (k - a) w
    ok { s with lab := lab, partCost := partCost, total := s.total + w })
    ⟨lab, c - a, List.replicate n 0, 0⟩

/-- hdagg.cpp:578-584: which labels occur; `-1` is no label. -/
def partExist (n : Nat) (lab : List Int) : Res (List Bool) :=
  forEach lab (fun l e => if l = -1 then ok e else wrZ e l true) (List.replicate n false)

/-- hdagg.cpp:588-593: consecutive numbers for the labels that occur. -/
def partMap (n : Nat) (exist : List Bool) : Res (List Nat × Nat) :=
  forRange 0 n (fun i s => do
    let e ← rd exist i
    if e then do
      let m ← wr s.1 i s.2
      ok (m, s.2 + 1)
    else ok s) (List.replicate n 0, 0)

/-- hdagg.cpp:596-602: cost of each component and total cost. -/
def partCosts (lab : List Int) (map : List Nat) (nodeCost : List K) (nodes : List Nat)
    (partCost : List K) : Res (List K × K) :=
  forEach nodes (fun u s => do
    let l ← rd lab u
    let q ← rdZ map l
    let c ← rd s.1 q
    let w ← rd nodeCost u
    let partCost ← wr s.1 q (c + w)
    ok (partCost, s.2 + w)) (partCost, 0)

/-- `computeCC` for several levels (hdagg.cpp:518-604); the first `m` nodes have a label.  With
`debug` the `assert` of line 595 is checked. -/
def ccMulti (debug : Bool) (lb ub n : Nat) (p ix lvl : List Nat) (nodes : List Nat) (m : Nat) (lab : List Int)
    (nodeCost : List K) (sch : List Nat) : Res (CCOut K) := do
  let lab ← incrementalCC p ix lb ub lvl nodes m lab sch
  let exist ← partExist n lab
  let (map, cnt) ← partMap n exist
  if debug ∧ nodes = [] then exn else
  let (partCost, total) ← partCosts lab map nodeCost nodes (List.replicate n 0)
  ok ⟨lab, cnt, partCost, total⟩

/-- `computeCC`, hdagg.cpp:486-605.  The vector `partition_cost` of `n` zeros is created by the
caller (line 684). -/
def computeCC (debug : Bool) (lb cut ub n : Nat) (p ix levelPtr levelSet lvl : List Nat) (lab : List Int)
    (nodeCost : List K) (sch : List Nat) : Res (CCOut K) := do
  let a ← rd levelPtr lb
  let b ← rd levelPtr cut
  let c ← rd levelPtr ub
  if ub = lb + 1 then ccSingle n a c levelSet lab nodeCost
  else do
    let nodes ← readSlice levelSet a c
    ccMulti debug lb ub n p ix lvl nodes (b - a) lab nodeCost sch

end

section
variable {K : Type} [Zero K] [Add K] [Sub K] [LT K] [DecidableLT K] [DecidableEq K]

/-- Variables of the packing loop. -/
structure PackSt (K : Type) where
  part : Nat
  tid : Nat
  chunk : List Nat
  cost : List K
  perCore : K
  costTo : K
deriving DecidableEq, Repr

/-- One iteration of `for (part = 0; part < part_cnt; )` (hdagg.cpp:714-739).  With `debug` the
`assert` of line 718 is checked. -/
def packStep (debug : Bool) (rdiv : K → Nat → K) (cores partCnt : Nat) (partCost : List K)
    (total : K) (s : PackSt K) : Res (Ctl (PackSt K) (PackSt K)) := do
  if s.part < partCnt then
    let c ← rdZ s.cost ((s.tid : Int) - 1)
    if c < s.perCore then
      let w ← rd partCost s.part
      let cost ← wrZ s.cost ((s.tid : Int) - 1) (c + w)
      let chunk ← wr s.chunk s.tid (s.part + 1)
      if debug ∧ (cores : Int) = (s.tid : Int) - 1 then exn else
      ok (.next { s with cost := cost, part := s.part + 1, chunk := chunk })
    else
      let costTo := s.costTo + c
      let perCore := rdiv (total - costTo) (cores - s.tid)
      let tid := s.tid + 1
      if perCore = 0 then
        ok (.brk { s with costTo := costTo, perCore := perCore, tid := tid })
      else if tid = cores then
        let chunk ← wr s.chunk cores partCnt
        let cost ← wrZ s.cost ((cores : Int) - 1) (total - costTo)
        ok (.brk { s with costTo := costTo, perCore := perCore, tid := tid, chunk := chunk,
                          cost := cost })
      else ok (.next { s with costTo := costTo, perCore := perCore, tid := tid })
  else ok (.brk s)

/-- The packing of the components (hdagg.cpp:700-745): new `chunk_array` and `cost`. -/
def pack (debug : Bool) (rdiv : K → Nat → K) (cores partCnt : Nat) (partCost : List K) (total : K)
    (chunk : List Nat) : Res (List Nat × List K) := do
  let cost : List K := List.replicate cores 0
  let s ←
    if partCnt < cores then do
      let (chunk, cost) ← forRange 0 partCnt (fun q s => do
        let chunk ← wr s.1 (q + 1) (q + 1)
        let w ← rd partCost q
        let cost ← wr s.2 q w
        ok (chunk, cost)) (chunk, cost)
      ok (⟨partCnt, partCnt, chunk, cost, 0, 0⟩ : PackSt K)
    else
      loopF (partCnt + cores + 2) (packStep debug rdiv cores partCnt partCost total)
        ⟨0, 1, chunk, cost, rdiv total cores, 0⟩
  let chunk ← forRange s.tid cores (fun i chunk => wr chunk (i + 1) partCnt) s.chunk
  ok (chunk, s.cost)

/-- Interleavings for the calls of the label computation: one per window and label array. -/
abbrev Orac := Nat → Nat → List Int → List Nat

/-- Variables of the inner loop `while (!done_flag)` (hdagg.cpp:666-681). -/
structure WinSt where
  cut : Nat
  prevUb : Nat
  cand : Nat
  ub : Nat
  done : Bool
  lab : List Int
  chunk : List Nat
  iter : Nat
  eff : Nat
  chunks : List (List Nat)
deriving DecidableEq, Repr

/-- Inputs that do not change during `HDAGG`. -/
structure Inp (K : Type) where
  n : Nat
  p : List Nat
  ix : List Nat
  nodeCost : List K
  cores : Nat
  rdiv : K → Nat → K
  levelPtr : List Nat
  levelSet : List Nat
  lvl : List Nat
  nlevels : Nat

/-- One iteration of the inner loop (hdagg.cpp:682-786); `wi` is `WM.size() - 1`. -/
def winStep (debug : Bool) (d : Inp K) (accept : Nat → Nat → Bool) (cc : Orac) (lb wi : Nat)
    (s : WinSt) : Res WinSt := do
  let iter := s.iter + 1
  let chunks ← wr s.chunks wi s.chunk
  let x ← rd d.levelPtr s.ub
  let y ← rdZ d.levelPtr ((s.ub : Int) - 1)
  let eff := if s.ub = lb + 1 ∧ x - y < d.cores then x - y
             else if x - y > s.eff then d.cores else s.eff
  let o ← computeCC debug lb s.cut s.ub d.n d.p d.ix d.levelPtr d.levelSet d.lvl s.lab d.nodeCost
            (cc lb s.ub s.lab)
  let (chunk, cost) ← pack debug d.rdiv d.cores o.partCnt o.partCost o.total s.chunk
  let _ ← forRange 0 eff (fun i (_ : Unit) => do
    let _ ← rd cost i
    ok ()) ()
  if accept lb iter then
    let ub := min (s.ub + 1) d.nlevels
    if s.prevUb = ub then
      let chunks ← if iter = 1 then wr chunks wi chunk else ok chunks
      ok { s with iter := iter, eff := eff, lab := o.lab, chunk := chunk, cut := s.ub,
                  cand := s.ub, ub := ub, done := true, prevUb := ub, chunks := chunks }
    else
      ok { s with iter := iter, eff := eff, lab := o.lab, chunk := chunk, cut := s.ub,
                  cand := s.ub, ub := ub, prevUb := ub, chunks := chunks }
  else
    let chunks ← if iter = 1 then wr chunks wi chunk else ok chunks
    ok { s with iter := iter, eff := eff, lab := o.lab, chunk := chunk, cut := s.ub,
                done := true, chunks := chunks }

/-- The state at the start of a window (hdagg.cpp:666-680). -/
def winStart (d : Inp K) (lb : Nat) (chunks : List (List Nat)) : WinSt where
  cut := lb
  prevUb := 0
  cand := lb + 1
  ub := min (lb + 1) d.nlevels
  done := false
  lab := List.replicate d.n (-1)
  chunk := List.replicate (d.cores + 1) 0
  iter := 0
  eff := d.cores
  chunks := chunks

/-- Variables of the outer loop: the watermarks `WM`, `chunk_sizes`, `lvl`. -/
structure OutSt where
  wm : List Nat
  chunks : List (List Nat)
  lvl : Nat
deriving DecidableEq, Repr

/-- One window (hdagg.cpp:666-789); with `debug` the `assert` of line 671 is checked. -/
def outStep (debug : Bool) (d : Inp K) (accept : Nat → Nat → Bool) (cc : Orac) (s : OutSt) :
    Res OutSt := do
  if debug ∧ ¬ (min (s.lvl + 1) d.nlevels ≤ d.nlevels ∧ s.lvl < d.nlevels) then exn else
  let w ← whileF (d.nlevels + 2) (fun w => ok (!w.done))
    (winStep debug d accept cc s.lvl (s.wm.length - 1)) (winStart d s.lvl s.chunks)
  ok { wm := s.wm ++ [w.cand], chunks := w.chunks, lvl := w.cand }

/-- All windows (hdagg.cpp:661-790). -/
def windows (debug : Bool) (d : Inp K) (accept : Nat → Nat → Bool) (cc : Orac) : Res OutSt :=
  whileF d.nlevels (fun s => ok (decide (s.lvl < d.nlevels))) (outStep debug d accept cc)
    { wm := [0], chunks := List.replicate d.nlevels [], lvl := 0 }

end

/-! ### `computeSchedule` -/

/-- Counting of the nodes per label and prefix sums (hdagg.cpp:399-408). -/
def labelCount (n : Nat) (lab : List Int) : Res (List Nat) := do
  let w ← forEach lab (fun l w => if l = -1 then ok w else do
    let c ← rdZ w (l + 1)
    wrZ w (l + 1) (c + 1)) (List.replicate (n + 1) 0)
  forRange 1 n (fun i w => do
    let a ← rd w (i + 1)
    let b ← rd w i
    wr w (i + 1) (a + b)) w

/-- `part_ptr` (hdagg.cpp:410-418). -/
def partPtrOf (n : Nat) (w : List Nat) : Res (List Nat) :=
  forRange 0 n (fun i acc => do
    let a ← rd w (i + 1)
    let b ← rd w i
    if a ≠ b then ok (acc ++ [a]) else ok acc) [0]

/-- `node_ptr` (hdagg.cpp:419-423). -/
def nodePtrOf (lab : List Int) (nodes : List Nat) (w : List Nat) : Res (List Nat) := do
  let s ← forEach nodes (fun u s => do
    let l ← rd lab u
    let pos ← rdZ s.1 l
    let out ← wr s.2 pos u
    let w ← wrZ s.1 l (pos + 1)
    ok (w, out)) (w, List.replicate nodes.length 0)
  ok s.2

/-- `part_ptr_merged` (hdagg.cpp:428-436). -/
def mergeParts (debug : Bool) (threads : Nat) (chunk partPtr : List Nat) : Res (List Nat) := do
  let b ← back chunk
  if debug ∧ b ≠ partPtr.length - 1 then exn else
  forRange 0 threads (fun i m => do
    let t ← rd chunk (i + 1)
    let v ← rd partPtr (min t (partPtr.length - 1))
    wr m (i + 1) v) (List.replicate (threads + 1) 0)

/-- `std::sort(node_ptr + lo, node_ptr + hi)`. -/
def sortRange (l : List Nat) (lo hi : Nat) : Res (List Nat) :=
  if lo ≤ hi ∧ hi ≤ l.length then
    ok (l.take lo ++ (((l.drop lo).take (hi - lo)).insertionSort (· ≤ ·)) ++ l.drop hi)
  else ub

/-- The order inside a merged part by node number (hdagg.cpp:460-465). -/
def sortParts (merged nodePtr : List Nat) : Res (List Nat) :=
  forRange 0 (merged.length - 1) (fun i l => do
    let lo ← rd merged i
    let hi ← rd merged (i + 1)
    sortRange l lo hi) nodePtr

/-- `post_orderInv` (hdagg.cpp:373-375). -/
def postInv (n : Nat) (post : List Nat) : Res (List Nat) :=
  forRange 0 post.length (fun i inv => do
    let v ← rd post i
    wr inv v i) (List.replicate n 0)

/-- The order inside a merged part by post order (hdagg.cpp:447-459).  The scratch array
`node_ptr_order` has `n` entries; only the bound is kept from it. -/
def sortPartsPost (n : Nat) (post inv merged nodePtr : List Nat) : Res (List Nat) :=
  forRange 0 (merged.length - 1) (fun i l => do
    let lo ← rd merged i
    let hi ← rd merged (i + 1)
    let keys ← forRange lo hi (fun j keys => do
      let u ← rd l j
      let k ← rd inv u
      if keys.length < n then ok (keys ++ [k]) else ub) []
    let keys := keys.insertionSort (· ≤ ·)
    forRange lo hi (fun j l => do
      let k ← rd keys (j - lo)
      let u ← rd post k
      wr l j u) l) nodePtr

/-- Appends the parts of a coarse level to the schedule (hdagg.cpp:438-445, 470-477, 480). -/
def appendLevel (s : Sched) (bounds nodePtr : List Nat) : Res Sched := do
  let t ← back s.levelPtr
  let last ← back s.partPtr
  ok { s with levelPtr := s.levelPtr ++ [t + bounds.length - 1],
              partPtr := s.partPtr ++ bounds.tail.map (· + last),
              nodes := s.nodes ++ nodePtr }

/-- Parameters of `computeSchedule`. -/
structure SchedInp where
  threads : Nat
  n : Nat
  p : List Nat
  ix : List Nat
  levelPtr : List Nat
  levelSet : List Nat
  lvl : List Nat
  binPack : Bool
  postOrder : Bool

/-- The nodes of a window in level order (hdagg.cpp:379-389); the buffer has `n` entries. -/
def windowNodes (d : SchedInp) (lb ub : Nat) : Res (List Nat) :=
  forRange lb ub (fun l acc => do
    let a ← rd d.levelPtr l
    let b ← rd d.levelPtr (l + 1)
    forRange a b (fun j acc => do
      let x ← rd d.levelSet j
      if acc.length < d.n then ok (acc ++ [x]) else Res.ub) acc) []

/-- One window (hdagg.cpp:377-481). -/
def schedWindow (debug : Bool) (d : SchedInp) (post inv : List Nat) (chunks : List (List Nat))
    (cc : Orac) (wm : List Nat) (k : Nat) (s : Sched) : Res Sched := do
  let lb ← rd wm k
  let ub ← rd wm (k + 1)
  let nodes ← windowNodes d lb ub
  let lab0 := List.replicate d.n (-1)
  let lab ← parallelCC d.p d.ix lb ub d.lvl nodes lab0 (cc lb ub lab0)
  let w ← labelCount d.n lab
  let partPtr ← partPtrOf d.n w
  let nodePtr ← nodePtrOf lab nodes w
  if d.binPack then
    let chunk ← rd chunks k
    let merged ← mergeParts debug d.threads chunk partPtr
    let nodePtr ← if d.postOrder then sortPartsPost d.n post inv merged nodePtr
                  else sortParts merged nodePtr
    appendLevel s merged nodePtr
  else
    appendLevel s partPtr nodePtr

/-- `computeSchedule`, hdagg.cpp:332-482.  For an empty `WM` the bound `WM.size() - 1` of the loop
is huge and `WM[0]` is read out of bounds. -/
def computeSchedule (debug : Bool) (d : SchedInp) (wm : List Nat) (chunks : List (List Nat))
    (cc : Orac) : Res Sched := do
  let (post, inv) ←
    if d.postOrder then do
      let post ← PostOrder.computePostOrder false d.n d.p d.ix
      let inv ← postInv d.n post
      ok (post, inv)
    else ok (List.replicate d.n 0, List.replicate d.n 0)
  if wm = [] then ub else
  forRange 0 (wm.length - 1) (schedWindow debug d post inv chunks cc wm)
    ⟨wm.length - 1, [0], [0], []⟩

/-- Arguments of `HDAGG`. -/
structure Args (K : Type) where
  n : Nat
  p : List Nat
  ix : List Nat
  nodeCost : List K
  cores : Nat
  postOrder : Bool
  binPack : Bool

/-- `HDAGG` with `parallelLevelset = false`, hdagg.cpp:608-805: the watermarks and the schedule.
`debug` is a build without `NDEBUG`.  A failed level-set computation (`-1`) makes
`std::vector(nlevels)` throw (line 663). -/
def hdagg {K : Type} [Zero K] [Add K] [Sub K] [LT K] [DecidableLT K] [DecidableEq K]
    (debug : Bool) (rdiv : K → Nat → K) (accept : Nat → Nat → Bool) (cc cc' : Orac) (a : Args K) :
    Res (List Nat × Sched) := do
  let o ← LevelSet.buildLevelSet a.n a.p a.ix
  if o.ret < 0 then exn else
  let nl := o.ret.toNat
  let w ← windows debug ⟨a.n, a.p, a.ix, a.nodeCost, a.cores, rdiv, o.levelPtr, o.levelSet,
    o.nodeToLevel, nl⟩ accept cc
  let s ← computeSchedule debug ⟨a.cores, a.n, a.p, a.ix, o.levelPtr, o.levelSet, o.nodeToLevel,
    a.binPack, a.postOrder⟩ w.wm w.chunks cc'
  ok (w.wm, s)

end Verif.Hdagg
