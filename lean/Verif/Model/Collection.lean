import Verif.Model.RunGroup
import Verif.Model.Super
import Verif.Model.Hdagg

/-!
# Model: `CollectionGrouping` (src/Group/Group.cpp:553-730, declared in include/aggregation/group.h:218-249)

The members `group_set`, `group_set_ptr`, `node_to_group` and `grouped_DAG_num_nodes` are the fields `set`, `ptr`,
`inv` and `num` of `RunGroup.Out`.  The times and the calls of `reserve` are left out.
-/

namespace Verif.Collect
open Res RunGroup

/-- The members after the constructor, Group.cpp:554-568. -/
def fresh (n : Nat) : Out := ⟨0, List.replicate (n + 1) 0, List.replicate n 0, List.replicate n 0⟩

/-- `v[k] += d`. -/
def inc (l : List Nat) (k d : Nat) : Res (List Nat) := do
  let x ← rd l k
  wr l k (x + d)

/-- The groups of `startCNGrouping`, Group.cpp:578-595. -/
def cnGroups (n : Nat) (p ix : List Nat) : Res Out := do
  let ptr ← wr (fresh n).ptr 0 0
  forRange 0 n (fun node o => do
    let set ← wr o.set node node
    let b ← rd p (node + 1)
    let a ← rd p node
    let child ← (if 1 < b - a then do
        let c ← rd ix (a + 1)
        ok (some c)
      else ok none)
    let inv ← wr o.inv node o.num
    if child = some (node + 1) then do
      let ptr ← inc o.ptr (o.num + 1) 1
      ok ⟨o.num, ptr, set, inv⟩
    else do
      let x ← rd o.ptr o.num
      let ptr ← inc o.ptr (o.num + 1) x
      let ptr ← inc ptr (o.num + 1) 1
      ok ⟨o.num + 1, ptr, set, inv⟩) { fresh n with ptr := ptr }

/-- The compressed graph, Group.cpp:600-618 and 688-706.  The state is `grouped_DAG_nodes` and
`grouped_DAG_edges`. -/
def build (p ix : List Nat) (o : Out) (nodes edges : List Nat) : Res (List Nat × List Nat) := do
  let nodes ← wr nodes 0 0
  forRange 0 o.num (fun c s => do
    let x ← rd o.ptr c
    let b ← rd o.set x
    let y ← rd o.ptr (c + 1)
    let e ← rd o.set y
    let lo ← rd p b
    let hi ← rd p e
    let buf ← Super.childSet ix o.inv lo hi e
    let buf := Super.insertSet c buf
    let a ← rd s.1 c
    let nodes ← wr s.1 (c + 1) (a + buf.length)
    let edges ← Super.copyTo buf a s.2
    let edges ← Hdagg.sortRange edges a (a + buf.length)
    ok (nodes, edges)) (nodes, edges)

/-- `CollectionGrouping::startCNGrouping`, Group.cpp:571-625, on a new object. -/
def startCN (n : Nat) (p ix : List Nat) : Res (Out × List Nat × List Nat) := do
  let m ← rd p n
  let o ← cnGroups n p ix
  let d ← build p ix o (List.replicate (n + 1) 0) (List.replicate m 0)
  let k ← rd d.1 o.num
  ok (⟨o.num, o.ptr.take (o.num + 1), o.set, o.inv⟩, d.1.take (o.num + 1), d.2.take k)

/-- The numbers of incoming edges, Group.cpp:637-642. -/
def inputEdges (n : Nat) (p ix : List Nat) : Res (List Nat) :=
  forRange 0 n (fun node l => do
    let a ← rd p node
    let b ← rd p (node + 1)
    forRange a b (fun k l => do
      let c ← rd ix k
      inc l c 1) l) (List.replicate n 0)

/-- The variables of the loop over the nodes of `startSingleChildGrouping`. -/
structure Single where
  out : Out
  grouped : List Bool
  cnt : Nat
  head : Nat
deriving DecidableEq, Repr

/-- The condition `child != -1 && num_childs == 1 && Input_Edges[tmp_child] == 1`, Group.cpp:669: the child if it
holds. -/
def takes (inE : List Nat) (num : Nat) (child : Option Nat) : Res (Option Nat) :=
  match child with
  | some c => if num = 1 then do
        let e ← rd inE c
        ok (if e = 1 then some c else none)
      else ok none
  | none => ok none

/-- The loop `while (true)` of `startSingleChildGrouping`, Group.cpp:660-682; `fuel` bounds the number of
iterations. -/
def chain (fuel : Nat) (p ix inE : List Nat) (node : Nat) (s : Single) : Res Single :=
  loopF fuel (fun s => do
    let b ← rd p (s.head + 1)
    let a ← rd p s.head
    let child ← (if 1 < b - a then do
        let x ← rd p node
        let c ← rd ix (x + 1)
        ok (some c)
      else ok none)
    let join ← takes inE (b - a) child
    match join with
    | some c => do
      let set ← wr s.out.set s.cnt c
      let inv ← wr s.out.inv c s.out.num
      let ptr ← inc s.out.ptr (s.out.num + 1) 1
      let grouped ← wr s.grouped node true
      ok (.next ⟨⟨s.out.num, ptr, set, inv⟩, grouped, s.cnt + 1, c⟩)
    | none => do
      let x ← rd s.out.ptr s.out.num
      let ptr ← inc s.out.ptr (s.out.num + 1) x
      ok (.brk { s with out := { s.out with ptr := ptr, num := s.out.num + 1 } })) s

/-- The groups of `startSingleChildGrouping`, Group.cpp:628-683. -/
def scGroups (fuel n : Nat) (p ix : List Nat) : Res Single := do
  let inE ← inputEdges n p ix
  let ptr ← wr (fresh n).ptr 0 0
  forRange 0 n (fun node s => do
    let g ← rd s.grouped node
    if g = true then ok s
    else do
      let grouped ← wr s.grouped node true
      let inv ← wr s.out.inv node s.out.num
      let set ← wr s.out.set s.cnt node
      let ptr ← inc s.out.ptr (s.out.num + 1) 1
      chain fuel p ix inE node ⟨⟨s.out.num, ptr, set, inv⟩, grouped, s.cnt + 1, node⟩)
    ⟨{ fresh n with ptr := ptr }, List.replicate n false, 0, 0⟩

/-- `CollectionGrouping::startSingleChildGrouping`, Group.cpp:628-714, on a new object. -/
def startSC (fuel n : Nat) (p ix : List Nat) : Res (Out × List Nat × List Nat) := do
  let m ← rd p n
  let s ← scGroups fuel n p ix
  let d ← build p ix s.out (List.replicate (n + 1) 0) (List.replicate m 0)
  let k ← rd d.1 s.out.num
  ok (⟨s.out.num, s.out.ptr.take (s.out.num + 1), s.out.set, s.out.inv⟩, d.1.take (s.out.num + 1), d.2.take k)

end Verif.Collect
