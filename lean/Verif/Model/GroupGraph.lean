import Verif.Model.RunGroup

/-!
# Model: graphs of rows and groups as lists of successors (src/group_utils.cpp)

src/Group/Group_Utils.cpp is a copy of this file with other white space.  A graph is the
`std::vector<std::vector<int>>` of the code.
-/

namespace Verif.GGraph
open Res

/-- `connect`, group_utils.h:16-18. -/
def connect (v w : Nat) (dag : List (List Nat)) : Res (List (List Nat)) := do
  let l ← rd dag v
  wr dag v (l ++ [w])

/-- `fs_csr_inspector_dep` without groups, group_utils.cpp:48-59.  `dag` is the graph of the caller. -/
def rowsDep (n : Nat) (p ix : List Nat) (dag : List (List Nat)) : Res (List (List Nat)) :=
  forRange 0 n (fun i dag => do
    let a ← rd p i
    let b ← rd p (i + 1)
    forRange a (b - 1) (fun k dag => do
      let sid ← rd ix k
      if sid ≠ i then connect sid i dag else ok dag) dag) dag

/-- The groups `sid` found by iteration `i` of the loop of `fs_ic0csc_inspector_group`,
group_utils.cpp:34-45, in this order. -/
def ic0Found (gp gs inv p ix : List Nat) (i : Nat) : Res (List Nat) := do
  let lo ← rd gp i
  let hi ← rd gp (i + 1)
  forRange lo hi (fun j acc => do
    let col ← rd gs j
    let a ← rd p col
    let b ← rd p (col + 1)
    forRange (a + 1) b (fun k acc => do
      let r ← rd ix k
      let sid ← rd inv r
      if sid ≠ i then ok (acc ++ [sid]) else ok acc) acc) []

/-- The calls `connect(i, sid, DAG)` in the order in which they happen. -/
def pushes (w : List (Nat × Nat)) (dag : List (List Nat)) : Res (List (List Nat)) :=
  forEach w (fun e dag => connect e.1 e.2 dag) dag

/-- `w` is one of the orders in which the threads of the parallel loop can make their calls: the calls of every
iteration `i < ngroup` in their order, interleaved in any way with those of the others. -/
def Interleaved (ngroup : Nat) (found : Nat → List Nat) (w : List (Nat × Nat)) : Prop :=
  (∀ e ∈ w, e.1 < ngroup) ∧
  ∀ i, i < ngroup → w.filter (fun e => e.1 = i) = (found i).map (fun s => (i, s))

/-- `fs_ic0csc_inspector_group`, group_utils.cpp:30-46, run by one thread. -/
def ic0Groups (ngroup : Nat) (gp gs inv p ix : List Nat) (dag : List (List Nat)) : Res (List (List Nat)) :=
  forRange 0 ngroup (fun i dag => do
    let l ← ic0Found gp gs inv p ix i
    pushes (l.map (fun s => (i, s))) dag) dag

/-- `Group_DAG`, group_utils.cpp:61-81.  `std::sort` on integers is `insertionSort`. -/
def groupDag (dag : List (List Nat)) (gp gs inv : List Nat) (ngroup : Nat) : Res (List (List Nat)) :=
  forRange 0 ngroup (fun i out => do
    let lo ← rd gp i
    let hi ← rd gp (i + 1)
    let t ← forRange lo hi (fun j t => do
      let x ← rd gs j
      let l ← rd dag x
      forEach l (fun y t => do
        let s ← rd inv y
        if s ≠ i then ok (t ++ [s]) else ok t) t) []
    ok (out ++ [Group.stdUnique (t.insertionSort (· ≤ ·))])) []

/-- `detectDAGCircle`, group_utils.cpp:84-97: the pairs that are printed. -/
def circles (dag : List (List Nat)) : Res (List (Nat × Nat)) :=
  forRange 0 dag.length (fun i out => do
    let l ← rd dag i
    forEach l (fun t out => do
      let b ← rd dag t
      if i ∈ b then ok (out ++ [(i, t)]) else ok out) out) []

end Verif.GGraph
