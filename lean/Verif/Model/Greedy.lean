import Verif.Model.Super
import Mathlib.Data.List.DropRight

/-!
# Model: `GreedyGrouping` (src/Group/Group.cpp:314-551, declared in include/aggregation/group.h:105-216)

The matrix is given by the arrays `p`, `ix` (`csc_ptr`, `csc_idx`).  An `unordered_set` is a list without
duplicates; the code only reads it by copying it into a vector that it sorts afterwards, so the order of the list
does not matter.
-/

namespace Verif.Greedy
open Res

/-- `GreedyGrouping::addChildesToCandidate`, Group.cpp:436-444.  `S` is `max_search_space_size`. -/
def addChildes (S : Int) (p ix : List Nat) (node : Nat) (pool : List Nat) : Res (List Nat) := do
  let a ← rd p node
  let b ← rd p (node + 1)
  forRange a b (fun k pool => do
    let r ← rd ix k
    if node < r ∧ (r : Int) ≤ S + node then ok (Super.insertSet r pool) else ok pool) pool

/-- The loops that erase the last candidates while they are not above the head, Group.cpp:366-374, 396-404,
417-425. -/
def strip (head : Nat) (cur : List Nat) : List Nat := cur.rdropWhile (fun c => decide (c ≤ head))

/-- `std::sort` in descending order. -/
def sortDesc (l : List Nat) : List Nat := l.insertionSort (· ≥ ·)

/-- The end of the branches: the last candidate is taken off and returned, `-1` (`none`) if there is none. -/
def pop (pool cur : List Nat) : Option Nat × List Nat × List Nat :=
  match cur.getLast? with
  | none => (none, pool, cur)
  | some c => (some c, pool, cur.dropLast)

/-- `GreedyGrouping::getBestCandidate`, Group.cpp:363-434: the candidate, the pool and the candidates left. -/
def best (head : Nat) (pool cur : List Nat) : Option Nat × List Nat × List Nat :=
  if cur ≠ [] then
    let cur := strip head cur
    match cur.getLast? with
    | none => (none, pool, cur)
    | some c =>
      if c = head + 1 then (some c, pool, cur.dropLast)
      else
        let pool := cur.foldl (fun pool c => Super.insertSet c pool) pool
        pop pool (strip head (sortDesc pool))
  else if pool ≠ [] then pop pool (strip head (sortDesc pool))
  else (none, pool, cur)

/-- The variables of the main loop and the members it changes. -/
structure St where
  head : Nat
  idx : Nat
  set : List Nat
  ngi : List Nat
  pool : List Nat
  cur : List Nat
deriving DecidableEq, Repr

/-- An iteration of the loop of `startGrouping`, Group.cpp:338-352. -/
def step (S : Int) (p ix : List Nat) (s : St) : Res St := do
  let pool ← addChildes S p ix s.head s.pool
  let ngi ← wr s.ngi s.head s.idx
  match best s.head pool s.cur with
  | (c, pool, cur) =>
    if c = some (s.head + 1) then ok { s with head := s.head + 1, ngi := ngi, pool := pool, cur := cur }
    else ok ⟨s.head + 1, s.idx + 1, s.set ++ [s.head + 1], ngi, [], []⟩

/-- The loop of `startGrouping`, Group.cpp:333-355: `group_set` and `node_group_idx`. -/
def groups (n : Nat) (S : Int) (p ix : List Nat) : Res (List Nat × List Nat) := do
  let s ← whileF n (fun s : St => ok (decide (s.head < n))) (step S p ix) ⟨0, 0, [0], List.replicate n 0, [], []⟩
  ok (s.set, s.ngi)

/-- The children of a group, Group.cpp:450-464; the loop over the entries is the same as in `createDepDAG`. -/
def children (p ix set ngi : List Nat) (j : Nat) : Res (List Nat) := do
  let b ← rd set j
  let e ← rd set (j + 1)
  let lo ← rd p b
  let hi ← rd p e
  let buf ← Super.childSet ix ngi lo hi e
  ok ((buf ++ [j]).insertionSort (· ≤ ·))

/-- `GreedyGrouping::finalizeGroupingProcedure`, Group.cpp:446-469: `group_children` and `group_nnz`. -/
def finalize (p ix set ngi : List Nat) : Res (List (List Nat) × Nat) :=
  forRange 0 (set.length - 1) (fun j s => do
    let c ← children p ix set ngi j
    ok (s.1 ++ [c], s.2 + c.length)) ([], 0)

/-- The members after `startGrouping`. -/
structure Out where
  set : List Nat
  ngi : List Nat
  kids : List (List Nat)
  nnz : Nat
deriving DecidableEq, Repr

/-- `GreedyGrouping::startGrouping`, Group.cpp:333-361. -/
def startGrouping (n : Nat) (S : Int) (p ix : List Nat) : Res Out := do
  let r ← groups n S p ix
  let f ← finalize p ix r.1 r.2
  ok ⟨r.1, r.2, f.1, f.2⟩

/-- `GreedyGrouping::getGroupedCSCFormat`, Group.cpp:471-481, on the arrays `gp`, `gi` of the caller. -/
def groupedCsc (kids : List (List Nat)) (gp gi : List Nat) : Res (List Nat × List Nat) := do
  let gp ← wr gp 0 0
  forRange 0 kids.length (fun j s => do
    let c ← rd kids j
    let a ← rd s.1 j
    let gp ← wr s.1 (j + 1) (c.length + a)
    let gi ← Super.copyTo c a s.2
    ok (gp, gi)) (gp, gi)

/-! ### Merging of small groups -/

/-- `GreedyGrouping::getGroupCost`, Group.cpp:488-495, with the group index `j - 1`: `none` is `INFINITY`. -/
def cost (p set : List Nat) (size : Nat) (j : Nat) : Res (Option Nat) :=
  if j = 0 ∨ size < j then ok none
  else do
    let b ← rd set (j - 1)
    let e ← rd set j
    let hi ← rd p e
    let lo ← rd p b
    ok (some (hi - lo))

/-- `a < b` for costs that may be `INFINITY`. -/
def costLt : Option Nat → Option Nat → Bool
  | some a, some b => decide (a < b)
  | some _, none => true
  | none, _ => false

/-- An iteration of the loop of `mergeSmallGroups`, Group.cpp:505-529.  The state is `group_set` and
`pre_group + 1`; `th` is the threshold rounded up to an integer. -/
def mergeStep (p : List Nat) (size : Nat) (th : Int) (cg : Nat) (s : List Nat × Nat) : Res (List Nat × Nat) := do
  let cc ← cost p s.1 size (cg + 1)
  let nc ← cost p s.1 size (cg + 2)
  let pc ← cost p s.1 size s.2
  if (match cc with | some c => decide ((c : Int) < th) | none => false) then
    (if costLt pc nc then do
      let set ← forRange s.2 (cg + 1) (fun gap set => do
        let v ← rd set (cg + 1)
        wr set gap v) s.1
      ok (set, s.2)
    else do
      let v ← rd s.1 cg
      let set ← wr s.1 (cg + 1) v
      ok (set, s.2))
  else ok (s.1, cg + 1)

/-- `GreedyGrouping::mergeSmallGroups`, Group.cpp:497-551 (the call in `startGrouping` is commented out). -/
def mergeSmall (p : List Nat) (th : Int) (set ngi : List Nat) : Res (List Nat × List Nat) :=
  let size := set.length - 1
  if size = 1 then ok (set, ngi)
  else do
    let s ← forRange 0 size (mergeStep p size th) (set, 0)
    let out ← forRange 0 size (fun i out => do
      let a ← rd s.1 i
      let b ← rd s.1 (i + 1)
      if a < b then ok (out ++ [a]) else ok out) []
    let l ← back s.1
    let set := out ++ [l]
    let ngi ← forRange 0 (set.length - 1) (fun j ngi => do
      let a ← rd set j
      let b ← rd set (j + 1)
      forRange a b (fun v ngi => wr ngi v j) ngi) ngi
    ok (set, ngi)

end Verif.Greedy
