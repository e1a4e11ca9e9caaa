import Verif.Model.TreeGroup
import Verif.Model.PostOrder

/-!
# Model: `chainGrouping` (src/hdagg/hdagg.cpp:1650-1783)

Simplifications: `int` is not bounded; messages on `std::cerr` have no effect.
Both loops get fuel for `n + 1` rounds: every round writes to another element of `group_set`.
-/

namespace Verif.Chain
open Res Group

/-- State of the loops: `root_id`, `group_stack` (both with the back last), `visited`,
`finish_group`, `ngroups`, `group_ptr`, `group_set`, `set_cnt`. -/
structure St where
  roots : List Nat
  stack : List Nat
  visited : List Bool
  fin : Bool
  ngroups : Nat
  ptr : List Nat
  set : List Nat
  cnt : Nat
deriving DecidableEq, Repr

/-- The successors of `head`, hdagg.cpp:1696-1717. -/
def branch (debug : Bool) (p ix deg : List Nat) (head : Nat) (s : St) : Res St := do
  let hi ← rd p (head + 1)
  let lo ← rd p head
  if hi = lo + 2 then do
    let child ← rd ix (lo + 1)
    let d ← rd deg child
    if d = 1 then do
      let v ← rd s.visited child
      if debug = true ∧ v = true then exn
      else ok { s with stack := s.stack ++ [child] }
    else if 1 < d then do
      let v ← rd s.visited child
      if v = true then ok { s with fin := true }
      else ok { s with roots := s.roots ++ [child], fin := true }
    else ok s
  else do
    let roots ← forRange (lo + 1) hi (fun i roots => do
      let child ← rd ix i
      let v ← rd s.visited child
      if v = true then ok roots else ok (roots ++ [child])) s.roots
    ok { s with roots := roots, fin := true }

/-- Body of the inner loop, hdagg.cpp:1692-1722. -/
def chainStep (debug : Bool) (p ix deg : List Nat) (s : St) : Res St := do
  let head ← back s.stack
  let visited ← wr s.visited head true
  let s ← branch debug p ix deg head { s with stack := s.stack.dropLast, visited := visited }
  let set ← wr s.set s.cnt head
  if debug = true ∧ s.fin = true ∧ s.stack ≠ [] then exn
  else ok { s with set := set, cnt := s.cnt + 1 }

/-- Body of the outer loop, hdagg.cpp:1684-1723. -/
def chainRound (debug : Bool) (n : Nat) (p ix deg : List Nat) (s : St) : Res St := do
  let head ← back s.roots
  let visited ← wr s.visited head true
  whileF (n + 1) (fun s => ok (!s.stack.isEmpty)) (chainStep debug p ix deg)
    { s with roots := s.roots.dropLast, visited := visited, stack := s.stack ++ [head],
             ptr := s.ptr ++ [s.cnt], ngroups := s.ngroups + 1, fin := false }

/-- The traversal, hdagg.cpp:1652-1727.  The in-degrees and their zeros (1655-1669) are computed by
the same loops as in `computePostOrder`. -/
def chainTraverse (debug : Bool) (n : Nat) (p ix : List Nat) : Res Grouping := do
  let _ ← rd p n
  let deg ← PostOrder.inDegree n p ix
  let roots ← PostOrder.leaves n deg
  let s ← whileF (n + 1) (fun s => ok (!s.roots.isEmpty)) (chainRound debug n p ix deg)
    ⟨roots, [], List.replicate n false, false, 0, [], List.replicate n 0, 0⟩
  let b ← back s.ptr
  ok ⟨s.ngroups, if b ≠ s.cnt then s.ptr ++ [s.cnt] else s.ptr, s.set⟩

/-- `chainGrouping`, hdagg.cpp:1650-1783; the checks and the renumbering of the groups
(1729-1780) are the loops of `treeBasedGrouping`. -/
def chainGrouping (debug : Bool) (n : Nat) (p ix : List Nat) : Res Grouping := do
  let G ← chainTraverse debug n p ix
  checkMarks debug n G.set
  let r ← renumber (List.range G.num) n G.ptr G.set
  ok ⟨G.num, r.1, r.2⟩

end Verif.Chain
