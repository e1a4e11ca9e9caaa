import Verif.Model.Group

/-!
# Model: functions that post-process a schedule (src/hdagg/hdagg.cpp)

`getFinalScheduleDAG` (2484-2535), `computingNode2Level` (315-329), `twoDReordering` (2402-2482) and
`convertCNScheduleToSuperNode` (1091-1135).  `int` is not bounded, timers are left out, and
`std::stable_sort` is `List.insertionSort`, which is stable.
-/

namespace Verif.Final
open Res Hdagg

/-! ### `getFinalScheduleDAG` -/

/-- State of the loops: `group_ptr`, `group_set`, `node_cnt`. -/
structure Parts where
  ptr : List Nat
  set : List Nat
  cnt : Nat
deriving DecidableEq, Repr

/-- The loop over one part, hdagg.cpp:2515-2525. -/
def copyPart (s : Sched) (j1 : Nat) (t : Parts) : Res Parts := do
  let lo ← rd s.partPtr j1
  let hi ← rd s.partPtr (j1 + 1)
  let t ← forRange lo hi (fun k1 (t : Parts) => do
    let i ← rd s.nodes k1
    let set ← wr t.set t.cnt i
    ok ⟨t.ptr, set, t.cnt + 1⟩) t
  let b ← back t.ptr
  if b ≠ t.cnt then ok ⟨t.ptr ++ [t.cnt], t.set, t.cnt⟩ else ok t

/-- `getFinalScheduleDAG`, hdagg.cpp:2484-2535.  The orphaned `omp for` (2511) has no effect outside
of a parallel region.  Returns the groups and the arrays of their graph. -/
def getFinalScheduleDAG (debug : Bool) (order order' : Nat → List Nat) (n : Nat) (s : Sched)
    (p ix : List Nat) : Res (Grouping × List Nat × List Nat) := do
  let t ← forRange 0 s.levels (fun i1 t => do
    let lo ← rd s.levelPtr i1
    let hi ← rd s.levelPtr (i1 + 1)
    forRange lo hi (copyPart s) t) ⟨[0], List.replicate n 0, 0⟩
  let num := t.ptr.length - 1
  let b ← back t.ptr
  if debug = true ∧ ¬ (t.cnt = n ∧ b = n) then exn
  else do
    let r ← Group.buildGroupDAG (order num) (order' num) n num t.ptr t.set p ix
    ok (⟨num, t.ptr, t.set⟩, r.1, r.2)

/-! ### `computingNode2Level` -/

/-- `computingNode2Level`, hdagg.cpp:315-329; `init` is the vector passed by the caller, and
`resize` fills it with zeros. -/
def computingNode2Level (levelPtr levelSet : List Nat) (nlevels n : Nat) (init : List Nat) :
    Res (List Nat) :=
  forRange 0 nlevels (fun l t => do
    let lo ← rd levelPtr l
    let hi ← rd levelPtr (l + 1)
    forRange lo hi (fun j t => do
      let v ← rd levelSet j
      wr t v l) t) (init.take n ++ List.replicate (n - init.length) 0)

/-! ### `twoDReordering` -/

/-- `twoDIteration`, hdagg.h:40-44. -/
structure Iter where
  i : Nat
  k : Nat
  j : Nat
deriving DecidableEq, Repr

/-- State of the loops: `final_iter_ptr`, `cnt`, `cnc_group_ptr`, `final_tuple_ptr`, `prev_i`. -/
structure TwoD where
  iters : List Iter
  cnt : Nat
  groups : List Nat
  tuple : List Nat
  prev : Int
deriving DecidableEq, Repr

/-- `if(cnc_group_ptr.back() != cnt) cnc_group_ptr.push_back(cnt)`, hdagg.cpp:2428-2430, 2442-2444. -/
def close (t : TwoD) : Res TwoD := do
  let b ← back t.groups
  if b ≠ t.cnt then ok { t with groups := t.groups ++ [t.cnt] } else ok t

/-- One row, hdagg.cpp:2424-2441. -/
def rowStep (Lp Li nodes : List Nat) (k1 : Nat) (t : TwoD) : Res TwoD := do
  let i ← rd nodes k1
  let t ← (if (i : Int) ≠ t.prev + 1 then close t else ok t)
  let lo ← rd Lp i
  let hi ← rd Lp (i + 1)
  forRange lo hi (fun k (t : TwoD) => do
    let j ← rd Li k
    ok { t with iters := t.iters ++ [⟨i, k, j⟩], cnt := t.cnt + 1 }) { t with prev := i }

/-- One part, hdagg.cpp:2422-2446. -/
def partStep (Lp Li : List Nat) (s : Sched) (j1 : Nat) (t : TwoD) : Res TwoD := do
  let lo ← rd s.partPtr j1
  let hi ← rd s.partPtr (j1 + 1)
  let t ← forRange lo hi (rowStep Lp Li s.nodes) { t with prev := -2 }
  let t ← close t
  ok { t with tuple := t.tuple ++ [t.cnt] }

/-- `std::stable_sort(data() + lo, data() + hi, sortbysec)`, hdagg.cpp:2460-2461. -/
def sortIters (l : List Iter) (lo hi : Nat) : Res (List Iter) :=
  if lo ≤ hi ∧ hi ≤ l.length then
    ok (l.take lo ++ ((l.drop lo).take (hi - lo)).insertionSort (fun a b => a.j ≤ b.j) ++ l.drop hi)
  else ub

/-- `twoDReordering`, hdagg.cpp:2402-2474; `tuple0` is the vector `final_tuple_ptr` passed by the
caller, which is not cleared.  Returns `final_tuple_ptr` and `final_iter_ptr`. -/
def twoDReordering (Lp Li : List Nat) (s : Sched) (tuple0 : List Nat) :
    Res (List Nat × List Iter) := do
  let t ← forRange 0 s.levels (fun i1 t => do
    let lo ← rd s.levelPtr i1
    let hi ← rd s.levelPtr (i1 + 1)
    forRange lo hi (partStep Lp Li s) t) ⟨[], 0, [0], tuple0 ++ [0], 0⟩
  let l ← forRange 0 (t.groups.length - 1) (fun g l => do
    let lo ← rd t.groups g
    let hi ← rd t.groups (g + 1)
    sortIters l lo hi) t.iters
  ok (t.tuple, l)

/-! ### `convertCNScheduleToSuperNode` -/

/-- `supernode_inv`, hdagg.cpp:1100-1106; the supernodes in the order `order`. -/
def superInv (order : List Nat) (n : Nat) (sp : List Nat) : Res (List Nat) :=
  forEach order (fun super inv => do
    let lo ← rd sp super
    let hi ← rd sp (super + 1)
    forRange lo hi (fun v inv => wr inv v super) inv) (List.replicate n 0)

/-- State: `coarse_part_ptr`, `coarse_node_ptr`, `new_num_parts`, `prev_node`. -/
structure Conv where
  part : List Nat
  nodes : List Nat
  cnt : Nat
  prev : Int
deriving DecidableEq, Repr

/-- The nodes of one group, hdagg.cpp:1117-1127. -/
def convGroup (gp gs inv : List Nat) (g : Nat) (t : Conv) : Res Conv := do
  let lo ← rd gp g
  let hi ← rd gp (g + 1)
  forRange lo hi (fun k (t : Conv) => do
    let node ← rd gs k
    let a ← rd inv node
    if (a : Int) ≠ t.prev then ok { t with nodes := t.nodes ++ [a], cnt := t.cnt + 1, prev := a }
    else ok t) { t with prev := -1 }

/-- One part, hdagg.cpp:1114-1130. -/
def convPart (s : Sched) (gp gs inv : List Nat) (j1 : Nat) (t : Conv) : Res Conv := do
  let lo ← rd s.partPtr j1
  let hi ← rd s.partPtr (j1 + 1)
  let t ← forRange lo hi (fun q t => do
    let g ← rd s.nodes q
    convGroup gp gs inv g t) { t with cnt := 0 }
  let b ← rd t.part j1
  let part ← wr t.part (j1 + 1) (t.cnt + b)
  ok { t with part := part }

/-- `convertCNScheduleToSuperNode`, hdagg.cpp:1091-1135. -/
def convertCN (order : List Nat) (n : Nat) (gp gs sp : List Nat) (s : Sched) : Res Sched := do
  let inv ← superInv order n sp
  let t ← forRange 0 s.levels (fun l t => do
    let lo ← rd s.levelPtr l
    let hi ← rd s.levelPtr (l + 1)
    forRange lo hi (convPart s gp gs inv) t) ⟨s.partPtr, [], 0, 0⟩
  ok ⟨s.levels, s.levelPtr, t.part, t.nodes⟩

end Verif.Final
