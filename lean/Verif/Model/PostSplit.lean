import Verif.Res

/-!
# Model: `post_order_spliting`

utils/sparse_utilities.cpp 933-1065: splits the forest of a window into its trees.  `inTree[v]` is the
parent, -1 for a root and -2 for a node outside of the window.  The cost of a part is an element of an
arbitrary type.  `Threshold` is not used, but the division is done.
-/

namespace Verif.Split
open Res

variable {K : Type} [Add K]

/-- `visited`, `mark`, `nChild`, `stack` (front first), `parList`, `curPart`, `outCost`. -/
structure Pos (K : Type) where
  visited : List Bool
  mark : List Bool
  nChild : List Int
  stack : List Nat
  parts : List (List Nat)
  cur : Nat
  outCost : List K

/-- `parList[curPart].push_back(k); outCost[curPart] += inCost[k]; visited[k] = true`,
sparse_utilities.cpp:967-969 and 1000-1002. -/
def addNode (inCost : List K) (k : Nat) (s : Pos K) : Res (Pos K) := do
  let part ← rd s.parts s.cur
  let parts ← wr s.parts s.cur (part ++ [k])
  let o ← rd s.outCost s.cur
  let c ← rd inCost k
  let outCost ← wr s.outCost s.cur (o + c)
  let visited ← wr s.visited k true
  ok { s with parts := parts, outCost := outCost, visited := visited }

/-- `nChild[p]--`, sparse_utilities.cpp:972, 1003. -/
def decChild (p : Nat) (s : Pos K) : Res (Pos K) := do
  let c ← rd s.nChild p
  let nChild ← wr s.nChild p (c - 1)
  ok { s with nChild := nChild }

/-- The front `k` of the stack has no children left, sparse_utilities.cpp:965-980; `brk` is the
`break`. -/
def popNode (tree : List Int) (inCost : List K) (k : Nat) (s : Pos K) :
    Res (Ctl (Pos K) (Pos K)) := do
  let s ← addNode inCost k { s with stack := s.stack.tail }
  let p ← rd tree k
  if 0 ≤ p then do
    let s ← decChild p.toNat s
    let v ← rd s.visited p.toNat
    if v = true then ok (.next s) else do
      let m ← rd s.mark p.toNat
      let stack := if m = true then s.stack else p.toNat :: s.stack
      let mark ← wr s.mark p.toNat true
      ok (.next { s with stack := stack, mark := mark })
  else ok (.brk s)

/-- `while (tmpk != stack.back()) { mark[tmpk] = true; tmpk = inTree[tmpk]; }`,
sparse_utilities.cpp:993-996.  With -1 the next round writes out of bounds. -/
def markStep (tree : List Int) (b : Nat) (s : Nat × List Bool) :
    Res (Ctl (Nat × List Bool) (Nat × List Bool)) :=
  if s.1 = b then ok (.brk s) else do
  let mark ← wr s.2 s.1 true
  let p ← rd tree s.1
  if p < 0 then ub else ok (.next (p.toNat, mark))

/-- sparse_utilities.cpp:991-998.  A chain of parents has at most `n` nodes. -/
def markUp (n : Nat) (tree : List Int) (stack : List Nat) (k : Nat) (mark : List Bool) :
    Res (List Bool) := do
  let r ← (match stack.getLast? with
    | none => ok (k, mark)
    | some b => loopF (n + 1) (markStep tree b) (k, mark))
  wr r.2 r.1 true

/-- One child of `k`, sparse_utilities.cpp:985-1007. -/
def expandChild (n : Nat) (tree : List Int) (inCost : List K) (childNo : List Nat) (k i : Nat)
    (s : Pos K) : Res (Pos K) := do
  let c ← rd childNo i
  let v ← rd s.visited c
  if v = true then ok s else do
    let nc ← rd s.nChild c
    if nc = 0 then do
      let vk ← rd s.visited k
      let mark ← (if vk = true then ok s.mark else markUp n tree s.stack k s.mark)
      let s ← addNode inCost c { s with mark := mark }
      let p ← rd tree c
      if p < 0 then ub else decChild p.toNat s
    else ok { s with stack := c :: s.stack }

/-- The body of `while (stack.size() != 0)`, sparse_utilities.cpp:962-1025. -/
def splitStep (n : Nat) (tree : List Int) (inCost : List K) (childPtr childNo : List Nat) (s : Pos K) :
    Res (Ctl (Pos K) (Pos K)) :=
  match s.stack with
  | [] => ok (.brk s)
  | k :: _ => do
    let nc ← rd s.nChild k
    if nc = 0 then popNode tree inCost k s else do
      let lo ← rd childPtr k
      let hi ← rd childPtr (k + 1)
      let s ← forRange lo hi (expandChild n tree inCost childNo k) s
      ok (.next s)

/-- The body of the loop over the nodes, sparse_utilities.cpp:957-1032.  Every round visits a node or
makes the stack longer, so `2 * n` rounds are enough (proved). -/
def splitNode (n : Nat) (tree : List Int) (inCost : List K) (childPtr childNo : List Nat) (u : Nat)
    (s : Pos K) : Res (Pos K) := do
  let p ← rd tree u
  if p = -2 then ok s else do
    let v ← rd s.visited u
    if v = true then ok s else do
      let s ← loopF (2 * n + 1) (splitStep n tree inCost childPtr childNo)
        { s with stack := s.stack ++ [u] }
      ok { s with parts := s.parts ++ [[]], cur := s.cur + 1 }

/-- `outNode2Par`, sparse_utilities.cpp:1036-1041. -/
def labelParts (debug : Bool) (n : Nat) (parts : List (List Nat)) (cur : Nat) (lab : List Int) :
    Res (List Int) :=
  forRange 0 cur (fun i lab => do
    let part ← rd parts i
    forEach part (fun x lab =>
      if debug = true ∧ ¬ x < n then exn else wr lab x (i : Int)) lab) lab

/-- `post_order_spliting`, sparse_utilities.cpp:933-1065: `parList` (empty before the call),
`outCost`, `outNode2Par`. -/
def postOrderSplit (debug : Bool) (n : Nat) (tree : List Int) (inCost : List K)
    (childPtr childNo : List Nat) (nChild : List Int) (partitionNum : Nat) (outCost : List K)
    (lab : List Int) : Res (List (List Nat) × List K × List Int) :=
  if partitionNum = 0 then ub else do
  let s ← forRange 0 n (splitNode n tree inCost childPtr childNo)
    ⟨List.replicate n false, List.replicate n false, nChild, [], [[]], 0, outCost⟩
  let parts := s.parts.dropLast
  let lab ← labelParts debug n parts s.cur lab
  ok (parts, s.outCost, lab)

end Verif.Split
