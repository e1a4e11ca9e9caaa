import Verif.Model.Group
import Verif.Model.QueueLevels
import Verif.Model.Exec

/-!
# Model: grouping runs of rows (src/group.cpp, src/group_utils.cpp) and the grouped solver of the demo

The constructor of `group` (include/aggregation/group.h 45-61) sets `status`, `next`, `pre`,
`visited` and `child` to zero.  `int` values that can be `-1` are `Int`.
-/

namespace Verif.RunGroup
open Res

/-- The results of a grouping function: `ngroup`, `groupPtr`, `groupSet`, `groupInv`. -/
structure Out where
  num : Nat
  ptr : List Nat
  set : List Nat
  inv : List Nat
deriving DecidableEq, Repr

/-- The grouping without the inverse map. -/
def Out.grouping (o : Out) : Grouping := ⟨o.num, o.ptr, o.set⟩

/-- group.cpp:155-158: `child[i]` is the last but one column of row `i`, or `-1`. -/
def childCsr (n : Nat) (p ix : List Nat) : Res (List Int) :=
  forRange 0 n (fun i child => do
    let hi ← rd p (i + 1)
    let lo ← rd p i
    if (hi : Int) - lo > 1 then do
      let c ← rdZ ix ((hi : Int) - 2)
      wr child i (c : Int)
    else wr child i (-1)) (List.replicate n 0)

/-- group.cpp:160-167: `next` and `pre`. -/
def nextCsr (n : Nat) (child : List Int) : Res (List Nat × List Int) :=
  forRange 1 n (fun i s => do
    let c ← rd child i
    if c ≠ -1 ∧ (i : Int) - c = 1 then do
      let next ← wrZ s.1 c i
      let pre ← wr s.2 i c
      ok (next, pre)
    else ok s) (List.replicate n 0, List.replicate n 0)

/-- group.cpp:10-13: `child[i]` is the second row of column `i`, or `-1`. -/
def childCsc (n : Nat) (p ix : List Nat) : Res (List Int) :=
  forRange 0 n (fun i child => do
    let hi ← rd p (i + 1)
    let lo ← rd p i
    if (hi : Int) - lo > 1 then do
      let c ← rd ix (lo + 1)
      wr child i (c : Int)
    else wr child i (-1)) (List.replicate n 0)

/-- group.cpp:15-22: `next` and `pre`. -/
def nextCsc (n : Nat) (child : List Int) : Res (List Nat × List Int) :=
  forRange 0 n (fun i s => do
    let c ← rd child i
    if c ≠ -1 ∧ c - i = 1 then do
      let next ← wr s.1 i c.toNat
      let pre ← wrZ s.2 c (i : Int)
      ok (next, pre)
    else ok s) (List.replicate n 0, List.replicate n 0)

/-- Variables of the collecting loop: `visited`, the three output arrays, `pos` and `index`. -/
structure St where
  visited : List Bool
  ptr : List Nat
  set : List Nat
  inv : List Nat
  pos : Nat
  idx : Nat
deriving DecidableEq, Repr

/-- `visited[c] = true; groupSet[pos++] = c; groupInv[c] = index;` (group.cpp:176-179, 184-187; the
order of these independent writes differs between the two places). -/
def put (c : Nat) (s : St) : Res St := do
  let visited ← wr s.visited c true
  let set ← wr s.set s.pos c
  let inv ← wr s.inv c s.idx
  ok { s with visited := visited, set := set, inv := inv, pos := s.pos + 1 }

/-- group.cpp:180-189, the state and `ch`.  Every round visits a new row, so `n` rounds of fuel
suffice (proved). -/
def chase (n : Nat) (next : List Nat) (s : St × Nat) : Res (St × Nat) :=
  whileF n
    (fun s => if s.2 = 0 then ok false else do
      let v ← rd s.1.visited s.2
      ok (!v))
    (fun s => do
      let t ← put s.2 s.1
      let ch ← rd next s.2
      ok (t, ch)) s

/-- group.cpp:173-193, body of the loop over `i`. -/
def collectStep (n : Nat) (next : List Nat) (i : Nat) (s : St) : Res St := do
  let v ← rd s.visited i
  if v then ok s else do
    let ptr ← wr s.ptr s.idx s.pos
    let s ← put i { s with ptr := ptr }
    let ch ← rd next i
    let t ← chase n next (s, ch)
    ok { t.1 with idx := t.1.idx + 1 }

/-- group.cpp:169-196 and the identical 24-52: the chains of `next` become the groups.  `ptr`,
`set`, `inv` are the arrays of the caller. -/
def collect (n : Nat) (next ptr set inv : List Nat) : Res Out := do
  let s ← forRange 0 n (collectStep n next) ⟨List.replicate n false, ptr, set, inv, 0, 0⟩
  let ptr ← wr s.ptr s.idx s.pos
  ok ⟨s.idx, ptr, s.set, s.inv⟩

/-- `group::inspection_sptrsvcsr_v1`, group.cpp:154-197. -/
def sptrsvCsrV1 (n : Nat) (p ix ptr set inv : List Nat) : Res Out := do
  let child ← childCsr n p ix
  let s ← nextCsr n child
  collect n s.1 ptr set inv

/-- `group::inspection_spicocsc_v1`, group.cpp:9-53. -/
def spicoCscV1 (n : Nat) (p ix ptr set inv : List Nat) : Res Out := do
  let child ← childCsc n p ix
  let s ← nextCsc n child
  collect n s.1 ptr set inv

/-! ### `inspection_sptrsvcsr_v2` -/

/-- group.cpp:201-216: `child` (the first row whose last but one column is this one, or `-1`) and
`rCnt` (rows with one entry). -/
def childV2 (n : Nat) (p ix : List Nat) : Res (List Int × List Bool) :=
  forRange 0 n (fun i s => do
    let hi ← rd p (i + 1)
    let lo ← rd p i
    let rCnt ← (if (hi : Int) - lo = 1 then wr s.2 i true else ok s.2)
    if (hi : Int) - lo > 1 then do
      let t ← rdZ ix ((hi : Int) - 2)
      let c ← rd s.1 t
      if c = -1 then do
        let child ← wr s.1 t (i : Int)
        ok (child, rCnt)
      else ok (s.1, rCnt)
    else ok (s.1, rCnt)) (List.replicate n (-1), List.replicate n false)

/-- Variables of group.cpp:218-236: `visited`, `next`, `curIdx`, `chIdx` (`pre` is never read). -/
structure V2 where
  visited : List Bool
  next : List Nat
  cur : Nat
  ch : Int
deriving DecidableEq, Repr

/-- The condition of group.cpp:226: `(chIdx-curIdx==1 || rCnt[chIdx]) && !visited[chIdx]`. -/
def condV2 (rCnt : List Bool) (s : V2) : Res Bool := do
  let a ← (if s.ch - s.cur = 1 then ok true else rdZ rCnt s.ch)
  if a then do
    let v ← rdZ s.visited s.ch
    ok (!v)
  else ok false

/-- group.cpp:228-233. -/
def bodyV2 (child : List Int) (s : V2) : Res V2 := do
  let visited ← wrZ s.visited s.ch true
  let next ← wr s.next s.cur s.ch.toNat
  let ch ← rdZ child s.ch
  ok ⟨visited, next, s.ch.toNat, ch⟩

/-- group.cpp:218-236; the state is `visited` and `next`. -/
def nextV2 (n : Nat) (child : List Int) (rCnt : List Bool) : Res (List Bool × List Nat) :=
  forRange 0 n (fun i s => do
    let v ← rd s.1 i
    if v then ok s else do
      let visited ← wr s.1 i true
      let ch ← rd child i
      let t ← whileF (n + 1) (condV2 rCnt) (bodyV2 child) ⟨visited, s.2, i, ch⟩
      ok (t.visited, t.next)) (List.replicate n false, List.replicate n 0)

/-- `group::inspection_sptrsvcsr_v2`, group.cpp:200-266. -/
def sptrsvCsrV2 (n : Nat) (p ix ptr set inv : List Nat) : Res Out := do
  let c ← childV2 n p ix
  let s ← nextV2 n c.1 c.2
  collect n s.2 ptr set inv

/-- `group::NaiveGrouping`, group.cpp:269-281; `i % 0` is undefined. -/
def naive (n : Nat) (ptr set inv : List Nat) (blksize : Nat) : Res Out := do
  let s ← forRange 0 n (fun i (s : St) => do
    if blksize = 0 then ub else do
    let s ← (if i % blksize = 0 then do
        let ptr ← wr s.ptr s.idx s.pos
        ok { s with ptr := ptr, idx := s.idx + 1 }
      else ok s)
    let set ← wr s.set s.pos i
    let inv ← wr s.inv i (s.idx - 1)
    ok { s with set := set, inv := inv, pos := s.pos + 1 }) ⟨[], ptr, set, inv, 0, 0⟩
  let ptr ← wr s.ptr s.idx n
  ok ⟨s.idx, ptr, s.set, s.inv⟩

/-- `fs_csr_inspector_dep` for groups, group_utils.cpp:11-28; `connect` (group_utils.h:16-18)
appends to `DAG[sid]`. -/
def inspectorDep (ngroup : Nat) (gp gs inv p ix : List Nat) : Res (List (List Nat)) :=
  forRange 0 ngroup (fun i dag => do
    let lo ← rd gp i
    let hi ← rd gp (i + 1)
    forRange lo hi (fun j dag => do
      let row ← rd gs j
      let a ← rd p row
      let b ← rd p (row + 1)
      forRange a (b - 1) (fun k dag => do
        let c ← rd ix k
        let sid ← rd inv c
        if sid ≠ i then do
          let l ← rd dag sid
          wr dag sid (l ++ [i])
        else ok dag) dag) dag) (List.replicate ngroup [])

/-- `std::unique` and `erase` on every list, sptrsv_demo_utils.h:412-416. -/
def uniqueAll (dag : List (List Nat)) : List (List Nat) := dag.map Group.stdUnique

/-- `count`, the sum of the sizes, sptrsv_demo_utils.h:411-415. -/
def count (dag : List (List Nat)) : Nat := dag.foldl (fun s r => s + r.length) 0

/-- sptrsv_demo_utils.h:419-434: the arrays `gv` and `gedg` of the group graph, every group with
itself first. -/
def flatten (n ngroup : Nat) (dag : List (List Nat)) : Res (List Nat × List Nat) := do
  let s ← forRange 0 ngroup (fun c (s : List Nat × List Nat × Nat) => do
      let gv ← wr s.1 c s.2.2
      let gedg ← wr s.2.1 s.2.2 c
      let r ← rd dag c
      let q ← forRange 0 r.length (fun j (q : List Nat × Nat) => do
        let v ← rd r j
        let gedg ← wr q.1 q.2 v
        ok (gedg, q.2 + 1)) (gedg, s.2.2 + 1)
      ok (gv, q.1, q.2))
    (List.replicate (n + 1) 0, List.replicate (count dag + n) 0, 0)
  let gv ← wr s.1 ngroup s.2.2
  ok (gv, s.2.1)

/-- What `SpTrsvCSR_Grouping::build_set` leaves behind: the groups and the level set of groups. -/
structure Set where
  groups : Out
  levels : Nat
  levelPtr : List Nat
  levelSet : List Nat
deriving DecidableEq, Repr

/-- `SpTrsvCSR_Grouping::build_set`, sptrsv_demo_utils.h:392-440, without the timers. -/
def buildSet (n : Nat) (p ix : List Nat) : Res Set := do
  let o ← sptrsvCsrV1 n p ix (List.replicate (n + 1) 0) (List.replicate n 0) (List.replicate n 0)
  let dag ← inspectorDep o.num o.ptr o.set o.inv p ix
  let dag := uniqueAll dag
  let gr ← flatten n o.num dag
  let l ← QLevel.build o.num gr.1 gr.2 (List.replicate (n + 1) 0) (List.replicate n 0)
  ok ⟨o, l.1, l.2.1, l.2.2⟩

/-- `SpTrsvCSR_Grouping::fused_code`, sptrsv_demo_utils.h:442-450: the solution overwrites `x_in_`
(the final copy to `x_` is left out). -/
def fusedCode {V : Type} (A : Arith V) (p ix : List Nat) (x : List V) (s : Set)
    (sch : Nat → List Nat) (b : List V) : Res (List V) :=
  Exec.sptrsvGroupLevelset A p ix x s.levels s.levelPtr s.levelSet s.groups.ptr s.groups.set sch b

end Verif.RunGroup
