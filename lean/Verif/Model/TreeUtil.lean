import Verif.Res

/-!
# Model: utilities for forests

`populate_children`, `get_node_depth`, `get_tree_height_bruteforce`, `get_tree_height`,
`compute_subtree_cost`, `get_tree_height_efficient` (utils/sparse_utilities.cpp 619-737) and
`build_level_set_tree_efficient`, `build_level_set_tree` (utils/sparse_inspector.cpp 459-554).

A forest is the array of the parents, a negative number for "no parent".  Counters that only grow are
natural numbers.
-/

namespace Verif.Tree
open Res

/-! ### Children -/

/-- `if (eTree[k] >= 0) nChild[eTree[k]]++`, sparse_utilities.cpp:624-627. -/
def countStep (tree : List Int) (k : Nat) (cnt : List Nat) : Res (List Nat) := do
  let p ← rd tree k
  if 0 ≤ p then do
    let c ← rdZ cnt p
    wrZ cnt p (c + 1)
  else ok cnt

/-- The number of children of every node, sparse_utilities.cpp:624-627 and lbc_tree.cpp:60-65. -/
def countChildren (n : Nat) (tree : List Int) (cnt : List Nat) : Res (List Nat) :=
  forRange 0 n (countStep tree) cnt

/-- `childPtr`, sparse_utilities.cpp:628-631. -/
def childPtrs (n : Nat) (cnt ptr : List Nat) : Res (List Nat) := do
  let ptr ← wr ptr 0 0
  forRange 1 (n + 1) (fun k ptr => do
    let a ← rd ptr (k - 1)
    let c ← rd cnt (k - 1)
    wr ptr k (a + c)) ptr

/-- `childNo[childPtr[p] + childCnt[p]] = l; childCnt[p]++`, sparse_utilities.cpp:633-636; the state
is `childNo` and `childCnt`. -/
def placeChild (tree : List Int) (ptr : List Nat) (l : Nat) (s : List Nat × List Nat) :
    Res (List Nat × List Nat) := do
  let p ← rd tree l
  if 0 ≤ p then do
    let a ← rdZ ptr p
    let c ← rdZ s.2 p
    let no ← wr s.1 (a + c) l
    let cnt ← wrZ s.2 p (c + 1)
    ok (no, cnt)
  else ok s

/-- `populate_children`, sparse_utilities.cpp:621-639: `childPtr`, `childNo`, `nChild`.  The
arrays come from the caller; only `nChild` is assumed to be zero. -/
def populateChildren (n : Nat) (tree : List Int) (ptr no cnt : List Nat) :
    Res (List Nat × List Nat × List Nat) := do
  let cnt ← countChildren n tree cnt
  let ptr ← childPtrs n cnt ptr
  let r ← forRange 0 n (placeChild tree ptr) (no, List.replicate n 0)
  ok (ptr, r.1, cnt)

/-! ### Heights -/

/-- `level++` or `level += weight[node]`; without weights every node counts 1. -/
def weightOf (weight : Option (List Int)) (v : Nat) : Res Int :=
  match weight with
  | none => ok 1
  | some w => rd w v

/-- `level = 0; if (weight != NULL) level += weight[node]`, sparse_utilities.cpp:644-646. -/
def startWeight (weight : Option (List Int)) (v : Nat) : Res Int :=
  match weight with
  | none => ok 0
  | some w => rd w v

/-- `get_node_depth`, sparse_utilities.cpp:643-655.  A forest has no cycles, so `n` rounds of fuel
suffice (proved). -/
def nodeDepth (n : Nat) (tree : List Int) (weight : Option (List Int)) (node : Nat) : Res Int := do
  let l0 ← startWeight weight node
  let s ← whileF n (fun (s : Nat × Int) => do
      let p ← rd tree s.1
      ok (decide (0 ≤ p)))
    (fun s => do
      let p ← rd tree s.1
      let w ← weightOf weight p.toNat
      ok (p.toNat, s.2 + w)) (node, l0)
  ok s.2

/-- `get_tree_height_bruteforce`, sparse_utilities.cpp:658-666. -/
def heightBrute (n : Nat) (tree : List Int) (weight : Option (List Int)) : Res Int :=
  forRange 0 n (fun i m => do
    let d ← nodeDepth n tree weight i
    ok (if d > m then d else m)) 0

/-- `get_tree_height`, sparse_utilities.cpp:669-679. -/
def heightLeaves (n : Nat) (tree : List Int) (nChild : List Nat) (weight : Option (List Int)) :
    Res Int :=
  forRange 0 n (fun i m => do
    let c ← rd nChild i
    if c = 0 then do
      let d ← nodeDepth n tree weight i
      ok (if d > m then d else m)
    else ok m) 0

/-- One round of the climb of `get_tree_height_efficient`, sparse_utilities.cpp:719-729; the state is
`node`, `level`, `touch`. -/
def climbW (tree : List Int) (weight : Option (List Int)) (s : Nat × Int × List Int) :
    Res (Ctl (Nat × Int × List Int) (Int × List Int)) := do
  let p ← rd tree s.1
  if 0 ≤ p then do
    let w ← weightOf weight p.toNat
    let level := s.2.1 + w
    let t ← rd s.2.2 p.toNat
    if level < t then ok (.brk (level, s.2.2))
    else do
      let touch ← wr s.2.2 p.toNat level
      ok (.next (p.toNat, level, touch))
  else ok (.brk (s.2.1, s.2.2))

/-- `get_tree_height_efficient`, sparse_utilities.cpp:712-737. -/
def heightEff (n : Nat) (tree : List Int) (nChild : List Nat) (weight : Option (List Int)) :
    Res Int := do
  let r ← forRange 0 n (fun i (s : Int × List Int) => do
    let c ← rd nChild i
    if c = 0 then do
      let r ← loopF (n + 1) (climbW tree weight) (i, 0, s.2)
      ok (if r.1 > s.1 then r.1 else s.1, r.2)
    else ok s) (0, List.replicate n 0)
  ok r.1

/-! ### Costs of subtrees -/

/-- `if (par > 0) subTreeCost[par] += subTreeCost[i]`, sparse_utilities.cpp:687-692. -/
def costStep {K : Type} [Add K] (tree : List Int) (i : Nat) (c : List K) : Res (List K) := do
  let p ← rd tree i
  if 0 < p then do
    let a ← rdZ c p
    let b ← rd c i
    wrZ c p (a + b)
  else ok c

/-- `compute_subtree_cost`, sparse_utilities.cpp:682-694. -/
def subtreeCost {K : Type} [Add K] (n : Nat) (tree : List Int) (weight : List K) : Res (List K) := do
  let c ← forRange 0 n (fun i c => do
    let w ← rd weight i
    ok (c ++ [w])) []
  forRange 0 n (costStep tree) c

/-! ### Level sets -/

/-- One round of the climb, sparse_inspector.cpp:471-478; the state is `node`, `level`,
`node2level`. -/
def climb (tree : List Int) (s : Nat × Nat × List Nat) :
    Res (Ctl (Nat × Nat × List Nat) (Nat × List Nat)) := do
  let p ← rd tree s.1
  if 0 ≤ p then do
    let t ← rd s.2.2 p.toNat
    if s.2.1 + 1 < t then ok (.brk (s.2.1 + 1, s.2.2))
    else do
      let n2l ← wr s.2.2 p.toNat (s.2.1 + 1)
      ok (.next (p.toNat, s.2.1 + 1, n2l))
  else ok (.brk (s.2.1, s.2.2))

/-- `levelPtr`, `levelSet`, `node2level`, `maxLen`. -/
structure Lev where
  ptr : List Nat
  set : List Nat
  n2l : List Nat
  maxLen : Nat
deriving DecidableEq, Repr

/-- The body of the loop over the leaves, sparse_inspector.cpp:465-482. -/
def leafStep (n : Nat) (tree : List Int) (nChild : List Nat) (i : Nat) (s : Lev) : Res Lev := do
  let c ← rd nChild i
  if c = 0 then do
    let a ← rd s.ptr 1
    let set ← wr s.set a i
    let ptr ← wr s.ptr 1 (a + 1)
    let r ← loopF (n + 1) (climb tree) (i, 0, s.n2l)
    ok ⟨ptr, set, r.2, if r.1 > s.maxLen then r.1 else s.maxLen⟩
  else ok s

/-- The number of nodes of every level, sparse_inspector.cpp:464, 484-486; an array of `n`
elements. -/
def countLevels (n : Nat) (n2l : List Nat) : Res (List Nat) :=
  forRange 0 n (fun j cnt => do
    let l ← rd n2l j
    let c ← rd cnt l
    wr cnt l (c + 1)) (List.replicate n 0)

/-- sparse_inspector.cpp:488-491; the state is `levelPtr` and `level_cnt`. -/
def levelPtrStep (k : Nat) (s : List Nat × List Nat) : Res (List Nat × List Nat) := do
  let a ← rd s.1 (k - 1)
  let c ← rd s.2 (k - 1)
  let ptr ← wr s.1 k (a + c)
  let cnt ← wr s.2 (k - 1) 0
  ok (ptr, cnt)

/-- sparse_inspector.cpp:493-498; the state is `levelSet` and `level_cnt`. -/
def placeNode (ptr n2l : List Nat) (l : Nat) (s : List Nat × List Nat) : Res (List Nat × List Nat) := do
  let lev ← rd n2l l
  if lev = 0 then ok s else do
  let a ← rd ptr lev
  let c ← rd s.2 lev
  let set ← wr s.1 (a + c) l
  let cnt ← wr s.2 lev (c + 1)
  ok (set, cnt)

/-- `build_level_set_tree_efficient`, sparse_inspector.cpp:459-501: `num_levels`, `levelPtr`,
`levelSet`, `node2level`; the arrays are zero before the call, as in lbc_tree.cpp:43-45.  With
`debug` the assertion is checked (without, its operands are not read). -/
def levelSetEff (debug : Bool) (n : Nat) (tree : List Int) (nChild : List Nat) :
    Res (Nat × List Nat × List Nat × List Nat) := do
  let s ← forRange 0 n (leafStep n tree nChild)
    ⟨List.replicate (n + 1) 0, List.replicate n 0, List.replicate n 0, 0⟩
  let levels := s.maxLen + 1
  let cnt ← countLevels n s.n2l
  let _ ← (if debug then do
      let c ← rd cnt 0
      let p ← rd s.ptr 1
      if c = p then ok () else exn
    else ok () : Res Unit)
  let r ← forRange 2 (levels + 1) levelPtrStep (s.ptr, cnt)
  let cnt ← wr r.2 1 0
  let q ← forRange 0 n (placeNode r.1 s.n2l) (s.set, cnt)
  ok (levels, r.1, q.1, s.n2l)

end Verif.Tree
