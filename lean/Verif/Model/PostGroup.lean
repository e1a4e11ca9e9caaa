import Verif.Model.PostOrder
import Verif.Model.Group

/-!
# Model: `computePostOrderAndGroup` (src/hdagg/hdagg.cpp:71-213)

Simplifications: `int` is not bounded.  The code computes the in-degrees, the nodes without predecessor and the post order
(75-122) with the same loops as `computePostOrder` (218-263).
With `debug` the assertions of a build without `NDEBUG` are checked; a failing one is the outcome `exn`.
-/

namespace Verif.PostGroup
open Res

/-- Result: `post_order`, `ngroups`, `groupPtr`, `group_DAG_ptr`, `group_DAG_set`. -/
structure Out where
  post : List Nat
  num : Nat
  ptr : List Nat
  gptr : List Nat
  gset : List Nat
deriving DecidableEq, Repr

/-- `assert(b)`. -/
def check (debug b : Bool) : Res Unit := if debug = true ∧ b = false then exn else ok ()

/-- State of the grouping loop: `ngroups`, `groupPtr`, `nodes_cnt`, `groupInv`. -/
structure St where
  num : Nat
  ptr : List Nat
  cnt : Nat
  inv : List Nat
deriving DecidableEq, Repr

/-- `DAG_set[DAG_ptr[curr] + 1]` in line 137, which is read also if column `curr` has no second entry; for the last column
this is behind the end of the vector.  With `strict` that is undefined behaviour, otherwise some value `junk`. -/
def readSecond (strict : Bool) (junk : Nat) (ix : List Nat) (j : Nat) : Res Nat :=
  if j < ix.length then rd ix j else if strict then ub else ok junk

/-- Body of the grouping loop, hdagg.cpp:130-155. -/
def groupStep (strict : Bool) (junk n : Nat) (p ix deg post : List Nat) (i : Nat) (s : St) : Res St := do
  let curr ← rd post i
  let t ← (if i + 1 < n then do
      let next ← rd post (i + 1)
      let e ← rd deg next
      let lo ← rd p curr
      let child ← readSecond strict junk ix (lo + 1)
      ok (e, next, child)
    else ok (1, 0, 0))
  let hi ← rd p (curr + 1)
  let lo ← rd p curr
  let out : Int := (hi : Int) - lo - 1
  let inv ← wr s.inv curr s.num
  if (t.1 : Int) = out ∧ t.1 = 1 ∧ t.2.2 = t.2.1 then ok ⟨s.num, s.ptr, s.cnt + 1, inv⟩
  else ok ⟨s.num + 1, s.ptr ++ [s.cnt + 1], s.cnt + 1, inv⟩

/-- The checks of a debug build, hdagg.cpp:159-172.  The assertion of line 165 reads
`(in_degree[next] == out_degree) == 1`. -/
def checkChains (debug : Bool) (p deg post : List Nat) (s : St) : Res Unit :=
  if debug = true then
    forRange 0 s.num (fun g _ => do
      let lo ← rd s.ptr g
      let hi ← rd s.ptr (g + 1)
      forRange lo (hi - 1) (fun k _ => do
        let curr ← rd post k
        let next ← rd post (k + 1)
        let b ← rd p (curr + 1)
        let a ← rd p curr
        let d ← rd deg next
        check debug (decide ((d : Int) = (b : Int) - a - 1))) ()
      forRange lo hi (fun k _ => do
        let v ← rd post k
        let j ← rd s.inv v
        check debug (decide (j = g))) ()) ()
  else ok ()

/-- The graph of the groups, hdagg.cpp:175-186: the entries of the last node of every group. -/
def groupGraph (p ix post : List Nat) (s : St) : Res (List Nat × List Nat) :=
  forRange 0 s.num (fun g (q : List Nat × List Nat) => do
    let hi ← rd s.ptr (g + 1)
    let node ← rdZ post ((hi : Int) - 1)
    let tmp ← back q.1
    let lo ← rd p node
    let hi ← rd p (node + 1)
    let r ← forRange lo hi (fun c (r : Nat × List Nat) => do
      let v ← rd ix c
      let j ← rd s.inv v
      ok (r.1 + 1, r.2 ++ [j])) (tmp, q.2)
    ok (q.1 ++ [r.1], r.2)) ([0], [])

/-- The comparison with the graph built from all nodes, hdagg.cpp:189-211. -/
def checkGraph (debug : Bool) (p ix post : List Nat) (s : St) (q : List Nat × List Nat) : Res Unit :=
  if debug = true then
    forRange 0 s.num (fun g _ => do
      let l ← Group.groupSuccs s.ptr post p ix s.inv g
      let l := Group.stdUnique l
      let lo ← rd q.1 g
      forRange 0 l.length (fun i _ => do
        let a ← rd q.2 (lo + i)
        let b ← rd l i
        check debug (decide (a = b))) ()) ()
  else ok ()

/-- `computePostOrderAndGroup`, hdagg.cpp:71-213. -/
def computePostOrderAndGroup (debug strictBack strictRead : Bool) (junk n : Nat) (p ix : List Nat) : Res Out := do
  let deg ← PostOrder.inDegree n p ix
  let lv ← PostOrder.leaves n deg
  let d ← forEach lv.reverse (PostOrder.dfs strictBack n p ix)
    { visited := List.replicate n false, stack := [], head := 0, cnt := 0, post := List.replicate n 0 }
  check debug (!d.visited.contains false)
  let s ← forRange 0 n (groupStep strictRead junk n p ix deg d.post) ⟨0, [0], 0, List.replicate n 0⟩
  let b ← back s.ptr
  check debug (decide (b = n))
  checkChains debug p deg d.post s
  let _ ← rd p n
  let q ← groupGraph p ix d.post s
  let e ← back q.1
  check debug (decide (q.2.length = e))
  check debug (decide (q.1.length = s.num + 1))
  checkGraph debug p ix d.post s q
  ok ⟨d.post, s.num, s.ptr, q.1, q.2⟩

end Verif.PostGroup
