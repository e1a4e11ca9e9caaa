import Verif.Res

/-!
# Model: bin packing and height partitioning of LBC (src/lbc_utils.cpp)

Costs are elements of a type `K` with an addition and a comparison; nothing is assumed about them
here, so they may be rounded.  `std::sort` is a parameter: it is not stable, so the order of
components of equal cost is not determined.
-/

namespace Verif.Lbc
open Res

section
variable {K : Type} [Add K] [LT K] [DecidableLT K]

/-- `find_min`, lbc_utils.cpp:149-159; `big` is `INT_MAX`. -/
def findMin (big : K) (cost : List K) (size : Nat) : Res Nat := do
  let s ← forRange 0 size (fun i (s : K × Nat) => do
    let c ← rd cost i
    ok (if c < s.1 then (c, i) else s)) (big, 0)
  ok s.2

/-- The vector `partList` before sorting, lbc_utils.cpp:170-175. -/
def partList (parts : List (List Nat)) (inCost : List K) : Res (List (K × List Nat)) :=
  forRange 0 parts.length (fun i acc => do
    let c ← rd inCost i
    let l ← rd parts i
    ok (acc ++ [(c, l)])) []

/-- One component is put into a bin, lbc_utils.cpp:179-183; the state is `outCost` and
`mergedLeveledParList`. -/
def packOne (big : K) (bins : Nat) (t : K × List Nat) (s : List K × List (List Nat)) :
    Res (List K × List (List Nat)) := do
  let b ← findMin big s.1 bins
  let c ← rd s.1 b
  let cost ← wr s.1 b (c + t.1)
  let l ← rd s.2 b
  let merged ← wr s.2 b (l ++ t.2)
  ok (cost, merged)

/-- `worst_fit_bin_pack`, lbc_utils.cpp:162-186: the returned number, `outCost` and
`mergedLeveledParList`.  `costThreshold` is not used. -/
def worstFit (big : K) (sort : List (K × List Nat) → List (K × List Nat))
    (parts : List (List Nat)) (inCost : List K) (merged : List (List Nat)) (outCost : List K)
    (bins : Nat) : Res (Nat × List K × List (List Nat)) := do
  let l ← partList parts inCost
  let s ← forEach (sort l) (packOne big bins) (outCost, merged)
  ok (bins, s)

end

/-! ### `height_partitioning_DAG_trng` -/

/-- `last_level`, lbc_utils.cpp:195-204: one more than the last level that has not exactly one
node. -/
def lastLevel (levelNo : Nat) (levelPtr : List Nat) : Res Nat := do
  let r ← forRangeB 0 levelNo (fun k (_ : Unit) => do
    let hi ← rd levelPtr (levelNo - 1 - k + 1)
    let lo ← rd levelPtr (levelNo - 1 - k)
    if (hi : Int) - lo = 1 then ok (Ctl.next ()) else ok (Ctl.brk (levelNo - 1 - k + 1))) ()
  match r with
  | .next _ => ok 0
  | .brk l => ok l

/-- The sizes of the levels, lbc_utils.cpp:216-219; with `debug` the assertion is checked. -/
def levelSizes (debug : Bool) (levelNo : Nat) (levelPtr : List Nat) : Res (List Int) :=
  forRange 0 levelNo (fun i acc => do
    let hi ← rd levelPtr (i + 1)
    let lo ← rd levelPtr i
    if debug = true ∧ (hi : Int) - lo < 0 then exn else ok (acc ++ [(hi : Int) - lo])) []

/-- `size` from a level size, lbc_utils.cpp:232-237 (with half of the level size) and 244-249. -/
def partSize (threads size : Int) : Nat :=
  if size ≥ threads then threads.toNat else if size > 1 then size.toNat else 1

/-- `partition2Level`, `innerPartsSize`, `lClusterCnt` and `tmp`. -/
structure HSt where
  bound : List Int
  sizes : List Nat
  cnt : Nat
  tmp : Int
deriving DecidableEq, Repr

/-- Body of the loop of lbc_utils.cpp:241-254. -/
def heightStep (threads divRate : Int) (accu : List Int) (s : HSt) : Res HSt := do
  let a ← rdZ accu (s.tmp - 1)
  let bound ← wr s.bound (s.cnt + 1) s.tmp
  ok ⟨bound, s.sizes ++ [partSize threads a], s.cnt + 1, s.tmp + divRate⟩

/-- `height_partitioning_DAG_trng`, lbc_utils.cpp:189-260: `lClusterCnt`, `partition2Level`,
`innerPartsSize`.  `levelNo` and `originalHeight` are the same number in all calls
(lbc_csc.cpp:87, lbc_csc_dag.cpp:366, 458); `partition2Level` has `levelNo + 1` elements there.
For a negative `levelNo` the array `accuSlackGroups` cannot be allocated.  `fuel` bounds the number
of rounds of the loop. -/
def heightPartition (fuel : Nat) (debug : Bool) (levelNo : Int) (levelPtr : List Nat)
    (innerParts minDist divRate : Int) : Res (Nat × List Int × List Nat) :=
  if levelNo < 0 then exn else do
  let last ← lastLevel levelNo.toNat levelPtr
  let bound := List.replicate (levelNo.toNat + 1) (0 : Int)
  if levelNo ≤ minDist then do
    let bound ← wr bound 0 0
    let bound ← wr bound 1 levelNo
    ok (1, bound, [1])
  else do
    let accu ← levelSizes debug levelNo.toNat levelPtr
    let threads := if innerParts > 1 then innerParts else 6
    let bound ← wr bound 0 0
    let s ← (if minDist > 0 ∧ minDist < levelNo then do
        let bound ← wr bound 1 minDist
        let a ← rdZ accu (minDist - 1)
        ok ⟨bound, [partSize threads (a / 2)], 1, minDist⟩
      else ok ⟨bound, [], 0, minDist⟩ : Res HSt)
    let s ← whileF fuel (fun s => ok (decide (s.tmp < (last : Int))))
      (heightStep threads divRate accu) { s with tmp := s.tmp + divRate }
    let bound ← wr s.bound (s.cnt + 1) (levelNo + 1)
    ok (s.cnt + 1, bound, s.sizes ++ [1])

end Verif.Lbc
