import Verif.Model.LbcSeq
import Verif.Model.TreeUtil
import Verif.Model.PostSplit

/-!
# Model: LBC coarsening of a forest

`get_coarse_levelSet_tree` (src/lbc_tree.cpp 10-429) with `height_partitioning` (src/lbc_utils.cpp
263-345, called without `sw`).  As in Verif/Model/Lbc.lean, costs are elements of an arbitrary type.
The costs of the windows (`curLeveledParCost`, an `int` to which doubles are added), the threshold
made of them, `ccc`, `overallCost`, `treeParts` and the costs of the parts have no effect and are left
out; the array accesses of these computations are not.
-/

namespace Verif.LbcTree
open Res Lbc

/-! ### `height_partitioning` -/

/-- One round of the inner loop, lbc_utils.cpp:322-327; the state is `levelCut`, and `levelNo` and
`originalHeight` are both `L`. -/
def cutStep (L : Nat) (accu : List Int) (parts : Int) (cut : Nat) : Res (Ctl Nat Nat) := do
  let a ← rdZ accu ((L : Int) - cut - 1)
  if a ≤ parts ∧ cut < L then
    if (L : Int) - (cut + 1) - 1 < 0 ∨ (L : Int) - (cut + 1) - 1 ≥ L then ok (.brk (cut + 1))
    else ok (.next (cut + 1))
  else ok (.brk cut)

/-- `partition2Level`, `innerPartsSize`, `lClusterCnt` and `innerPartsTmp`. -/
structure HSt where
  bound : List Int
  sizes : List Nat
  cnt : Nat
  parts : Int
deriving DecidableEq, Repr

/-- One round of the outer loop, lbc_utils.cpp:321-338. -/
def roundStep (L : Nat) (accu : List Int) (minDist divRate : Int) (s : HSt) : Res HSt := do
  let cut ← loopF (L + 1) (cutStep L accu s.parts) 0
  let tmp := (L : Int) - cut - minDist
  let b ← rd s.bound s.cnt
  let r ← (if tmp > b ∧ tmp < L then do
      let bound ← wr s.bound (s.cnt + 1) tmp
      ok (bound, s.cnt + 1)
    else ok (s.bound, s.cnt) : Res (List Int × Nat))
  ok ⟨r.1, s.sizes ++ [s.parts.toNat], r.2, s.parts.tdiv divRate⟩

/-- `height_partitioning` with `sw = false`, lbc_utils.cpp:263-345: `lClusterCnt`,
`partition2Level`, `innerPartsSize`.  `levelNo` and `originalHeight` are both `L` in the call
(lbc_tree.cpp:158-164), `partition2Level` has `L + 1` elements there.  The number of parts gets
smaller in every round, so `innerParts` rounds of fuel suffice (proved). -/
def heightPartition (debug : Bool) (L : Nat) (levelPtr : List Nat) (innerParts minDist divRate : Int) :
    Res (Nat × List Int × List Nat) := do
  let divRate := if divRate ≤ 1 then 10 else divRate
  let bound := List.replicate (L + 1) (0 : Int)
  if L ≤ 2 then do
    let bound ← wr bound 0 0
    let bound ← wr bound 1 (L : Int)
    ok (1, bound, [1])
  else do
    let accu ← levelSizes debug L levelPtr
    let bound ← wr bound 0 0
    let s ← whileF innerParts.toNat (fun s => ok (decide (s.parts > 1)))
      (roundStep L accu minDist divRate) ⟨bound, [], 0, innerParts⟩
    let bound ← wr s.bound (s.cnt + 1) ((L : Int) + 1)
    ok (s.cnt + 1, bound, s.sizes ++ [1])

/-! ### One window -/

section
variable {K : Type} [Add K]

/-- `levelCost`, lbc_tree.cpp:129-136; an array of `L` elements.  With `debug` the assertion is
checked. -/
def levelCosts (debug : Bool) (n L : Nat) (node2Level : List Nat) (nodeCost : List K) (zero : K) :
    Res (List K) :=
  forRange 0 n (fun i c => do
    let l ← rd node2Level i
    if debug = true ∧ ¬ l < L then exn else do
    let a ← rd c l
    let w ← rd nodeCost i
    wr c l (a + w)) (List.replicate L zero)

/-- The entry of a node in `tmpTree`, lbc_tree.cpp:233-246; `lo` and `hi` are `partition2Level[l]`
and `partition2Level[l + 1]`.  With `debug` the assertion is checked. -/
def windowNode (debug : Bool) (n L : Nat) (tree : List Int) (node2Level : List Nat) (nodeCost : List K)
    (lo hi x : Nat) (tmp : List Int) : Res (List Int) := do
  let p ← rd tree x
  let lp ← (if 0 ≤ p then rdZ node2Level p else ok (L + 1) : Res Nat)
  if debug = true ∧ ¬ lp ≤ n then exn else
  if lp < hi ∧ lo ≤ lp then do
    let _ ← rd nodeCost x
    wr tmp x p
  else wr tmp x (-1)

/-- `tmpTree` of a window, lbc_tree.cpp:230-248.  The bound of the last window is one more than the
number of levels (lbc_utils.cpp:339), so `levelCost` is read behind its end (line 231).  With `past`
this is allowed, the value having no effect; without it is undefined. -/
def windowTree (debug past : Bool) (n L : Nat) (tree : List Int) (V : Wins) (nodeCost levelCost : List K)
    (lo hi : Nat) : Res (List Int) :=
  forRange lo hi (fun i tmp => do
    let _ ← (if past = true then ok () else do
      let _ ← rd levelCost i
      ok () : Res Unit)
    let a ← rd V.levelPtr i
    let b ← rd V.levelPtr (i + 1)
    forRange a b (fun j tmp => do
      let x ← rd V.levelSet j
      windowNode debug n L tree V.node2Level nodeCost lo hi x tmp) tmp) (List.replicate n (-2))

/-- `childPtrSubtree`, `childNoSubtree`, `newOutCost`, and the arrays of the result. -/
structure St (K : Type) where
  childPtr : List Nat
  childNo : List Nat
  newOutCost : List K
  emit : Emit

/-- lbc_tree.cpp:225-381, the body of the loop over the windows.  The arrays `tmpTree`, `nChildTmp`,
`outNode2Par` and `outCost` are set to constants in every round (lines 221-222 and 329-331, 252,
263-266).  Of the parameters only the assertions, `sort` and `big` are used. -/
def window [LT K] [DecidableLT K] (P : Params K) (past : Bool) (n L : Nat) (tree : List Int) (V : Wins)
    (nodeCost levelCost : List K) (zero : K) (l : Nat) (s : St K) : Res (St K) := do
  let size ← rd V.sizes l
  let w ← bounds V.bound l
  let tmp ← windowTree P.debug past n L tree V nodeCost levelCost w.1 w.2
  let c ← Tree.populateChildren n tmp s.childPtr s.childNo (List.replicate n 0)
  if size = 0 then ub else do
  let r ← Split.postOrderSplit P.debug n tmp nodeCost c.1 c.2.1 (c.2.2.map Int.ofNat) size
    (List.replicate n zero) (List.replicate n 0)
  let q ← pack { P with innerParts := size } true r.1 r.2.1 s.newOutCost V.sizes l
  if P.debug = true ∧ ¬ q.1 ≤ size then exn else do
  let e ← emitWindowSeq nodeCost l q.1 q.2.2 s.emit r.2.2
  ok ⟨c.1, c.2.1, q.2.1, e.1⟩

/-! ### The inspector -/

/-- The levels and the windows, lbc_tree.cpp:45-86 and 157-164. -/
def windows (P : Params K) (n : Nat) (tree : List Int) (minDist divRate : Int) : Res (Nat × Wins) := do
  let nChild ← Tree.countChildren n tree (List.replicate n 0)
  let o ← Tree.levelSetEff P.debug n tree nChild
  let h ← heightPartition P.debug o.1 o.2.1 P.innerParts minDist divRate
  ok (h.1, ⟨o.2.1, o.2.2.1, o.2.2.2, o.1, h.2.1, h.2.2⟩)

/-- `get_coarse_levelSet_tree`, lbc_tree.cpp:10-429: `finaLevelNo`, `finaLevelPtr`, `finalPartPtr`,
`finalNodePtr`.  The branch for `originalHeight == 0` (lines 92-101) is never taken, the number of
levels being positive.  The
verification at the end is switched off (line 388). -/
def coarsenTree [LT K] [DecidableLT K] (P : Params K) (past : Bool) (n : Nat) (tree : List Int)
    (minDist divRate : Int) (nodeCost : List K) (zero : K) : Res Sched := do
  let w ← windows P n tree minDist divRate
  let _ ← Tree.subtreeCost n tree nodeCost
  let levelCost ← levelCosts P.debug n w.2.height w.2.node2Level nodeCost zero
  let s ← forRange 0 w.1 (window P past n w.2.height tree w.2 nodeCost levelCost zero)
    ⟨List.replicate (n + 1) 0, List.replicate n 0, List.replicate n zero, Emit.start n⟩
  let _ ← rd s.emit.levelPtr w.1
  ok ⟨w.1, s.emit.levelPtr, s.emit.partPtr, s.emit.nodes⟩

end

end Verif.LbcTree
