import Verif.Res
import Verif.Spec.Cost

/-!
# Model: `costComputation` (src/hdagg/hdagg.cpp 2260-2399)

The costs are exact numbers (`double` in the code).  The row pointers are increasing, so that the
differences are natural numbers.  The iterations of the OpenMP loop over the nodes or groups run one
after the other in an arbitrary order: each writes its own element of `cost`.
-/

namespace Verif.Cost
open Res

/-- `cost[slot] += Lp[v + 1] - Lp[v]`. -/
def addSize (p : List Nat) (v slot : Nat) (cost : List Nat) : Res (List Nat) := do
  let hi ← rd p (v + 1)
  let lo ← rd p v
  let c ← rd cost slot
  wr cost slot (c + (hi - lo))

/-- The loop over the entries of `node` in one structure, each adding the size of a column or row in
another structure; for example hdagg.cpp:2292-2295. -/
def addDeps (p ix q : List Nat) (node slot : Nat) (cost : List Nat) : Res (List Nat) := do
  let lo ← rd p node
  let hi ← rd p (node + 1)
  forRange lo hi (fun j cost => do
    let dep ← rd ix j
    addSize q dep slot cost) cost

/-- The same loop with the early exit of the grouped case of `SpILU0_UL`, hdagg.cpp:2357-2363. -/
def addDepsBreak (p ix q : List Nat) (node slot : Nat) (cost : List Nat) : Res (List Nat) := do
  let lo ← rd p node
  let hi ← rd p (node + 1)
  let r ← forRangeB lo hi (fun j cost =>
    if j < node then ok (Ctl.brk cost)
    else do
      let dep ← rd ix j
      let cost ← addSize q dep slot cost
      ok (Ctl.next cost)) cost
  match r with
  | .next c => ok c
  | .brk c => ok c

/-- What one node adds to the cost of its slot. -/
def addNode (k : Kernel) (grouped : Bool) (cscP cscI csrP csrI : List Nat) (node slot : Nat)
    (cost : List Nat) : Res (List Nat) :=
  match k with
  | .spTrSvLL => addSize csrP node slot cost
  | .spTrSvRL => addSize cscP node slot cost
  | .spICh0LL => addDeps csrP csrI cscP node slot cost
  | .spICh0RL => addDeps cscP cscI cscP node slot cost
  | .spICh0UL => addDeps csrP csrI csrP node slot cost
  | .spILU0UL =>
    if grouped then addDepsBreak csrP csrI csrP node slot cost
    else addDeps csrP csrI csrP node slot cost
  | .general => addDeps csrP csrI csrP node slot cost

/-- `costComputation`, hdagg.cpp:2260-2399; `cost0` is the vector passed in. -/
def costComputation (order : List Nat) (nodes : Nat) (cscP cscI csrP csrI : List Nat) (k : Kernel)
    (gp gs : List Nat) (grouped : Bool) (cost0 : List Nat) : Res (List Nat) :=
  let cost := if cost0.isEmpty then cost0 else List.replicate nodes 0
  forEach order (fun t cost =>
    if grouped then do
      let lo ← rd gp t
      let hi ← rd gp (t + 1)
      forRange lo hi (fun j cost => do
        let node ← rd gs j
        addNode k true cscP cscI csrP csrI node t cost) cost
    else addNode k false cscP cscI csrP csrI t t cost) cost

end Verif.Cost
