import Verif.Spec.Group
import Verif.Model.Hdagg

/-!
# Model: the graph of groups and un-grouping of schedules (src/hdagg/hdagg.cpp)

`std::sort` is `List.insertionSort`.  The iterations of an OpenMP loop run one after the other in
an arbitrary order, given as a list: they write different array elements.
-/

namespace Verif.Group
open Res Hdagg

/-- `std::unique` followed by `erase`: of each run of equal elements only the first stays. -/
def stdUnique : List Nat → List Nat
  | [] => []
  | [a] => [a]
  | a :: b :: l => if a = b then stdUnique (b :: l) else a :: stdUnique (b :: l)

/-- Computing `group_inv`, hdagg.cpp:1241-1248; the groups in the order `order`. -/
def groupInv (n : Nat) (order gp gs : List Nat) : Res (List Nat) :=
  forEach order (fun g inv => do
    let lo ← rd gp g
    let hi ← rd gp (g + 1)
    forRange lo hi (fun i inv => do
      let node ← rd gs i
      wr inv node g) inv) (List.replicate n 0)

/-- The list `DAG[g]` before sorting, hdagg.cpp:1254-1260. -/
def groupSuccs (gp gs p ix inv : List Nat) (g : Nat) : Res (List Nat) := do
  let lo ← rd gp g
  let hi ← rd gp (g + 1)
  forRange lo hi (fun k acc => do
    let node ← rd gs k
    let lo ← rd p node
    let hi ← rd p (node + 1)
    forRange lo hi (fun c acc => do
      let v ← rd ix c
      let h ← rd inv v
      ok (acc ++ [h])) acc) []

/-- All lists `DAG[g]`, hdagg.cpp:1250-1264; the groups in the order `order`. -/
def groupLists (ngroups : Nat) (order gp gs p ix inv : List Nat) : Res (List (List Nat)) :=
  forEach order (fun g rows => do
    let r ← groupSuccs gp gs p ix inv g
    wr rows g (stdUnique (r.insertionSort (· ≤ ·)))) (List.replicate ngroups [])

/-- `nnz`, the sum of the sizes (reduction of hdagg.cpp:1252, 1263). -/
def totalLen (rows : List (List Nat)) : Nat := rows.foldl (fun s r => s + r.length) 0

/-- Copying the lists to the output arrays, hdagg.cpp:1266-1276. -/
def concatLists (ngroups : Nat) (rows : List (List Nat)) : Res (List Nat × List Nat) := do
  let s ← forRange 0 ngroups (fun t (s : List Nat × List Nat × Nat) => do
      let ptr ← wr s.1 t s.2.2
      let r ← rd rows t
      let q ← forRange 0 r.length (fun j (q : List Nat × Nat) => do
        let v ← rd r j
        let set ← wr q.1 q.2 v
        ok (set, q.2 + 1)) (s.2.1, s.2.2)
      ok (ptr, q.1, q.2))
    (List.replicate (ngroups + 1) 0, List.replicate (totalLen rows) 0, 0)
  let ptr ← wr s.1 ngroups s.2.2
  ok (ptr, s.2.1)

/-- `buildGroupDAG`, hdagg.cpp:1236-1277; `order`, `order'` are the orders of the iterations of the
two parallel loops. -/
def buildGroupDAG (order order' : List Nat) (n ngroups : Nat) (gp gs p ix : List Nat) :
    Res (List Nat × List Nat) := do
  let inv ← groupInv n order gp gs
  let rows ← groupLists ngroups order' gp gs p ix inv
  concatLists ngroups rows

/-! ### Un-grouping a schedule -/

/-- State of the unpacking loops: `unpack_part_ptr`, `unpack_node_ptr`, `node_cnt`. -/
structure Unpack where
  part : List Nat
  nodes : List Nat
  cnt : Nat
deriving DecidableEq, Repr

/-- Appending the nodes of group `g`, hdagg.cpp:1966-1970. -/
def unpackGroup (gp gs : List Nat) (g : Nat) (s : Unpack) : Res Unpack := do
  let lo ← rd gp g
  let hi ← rd gp (g + 1)
  forRange lo hi (fun k s => do
    let node ← rd gs k
    ok ⟨s.part, s.nodes ++ [node], s.cnt + 1⟩) s

/-- Unpacking all groups, hdagg.cpp:1956-1974. -/
def unpack (s : Sched) (gp gs : List Nat) : Res (List Nat × List Nat) := do
  let u ← forRange 0 s.levels (fun i1 u => do
      let lo ← rd s.levelPtr i1
      let hi ← rd s.levelPtr (i1 + 1)
      forRange lo hi (fun j1 (u : Unpack) => do
        let lo ← rd s.partPtr j1
        let hi ← rd s.partPtr (j1 + 1)
        forRange lo hi (fun k1 u => do
          let g ← rd s.nodes k1
          unpackGroup gp gs g u) ⟨u.part ++ [u.cnt], u.nodes, u.cnt⟩) u)
    ⟨[], [], 0⟩
  ok (u.part ++ [u.cnt], u.nodes)

/-- `for` loop over all parts of all coarse levels (hdagg.cpp:1985-1992, 2004-2014). -/
def overParts (s : Sched) (f : Nat → List Nat → Res (List Nat)) (nodes : List Nat) :
    Res (List Nat) :=
  forRange 0 s.levels (fun i1 l => do
    let lo ← rd s.levelPtr i1
    let hi ← rd s.levelPtr (i1 + 1)
    forRange lo hi f l) nodes

/-- Sorting a part by node number, hdagg.cpp:1987-1990. -/
def sortPart (part : List Nat) (j1 : Nat) (l : List Nat) : Res (List Nat) := do
  let lo ← rd part j1
  let hi ← rd part (j1 + 1)
  if lo ≠ hi then sortRange l lo hi else ok l

/-- Sorting a part by post order, hdagg.cpp:2005-2014.  The scratch array `node_ptr_order` has `n`
entries; only the bound is kept from it. -/
def sortPartPost (n : Nat) (post inv part : List Nat) (j1 : Nat) (l : List Nat) :
    Res (List Nat) := do
  let lo ← rd part j1
  let hi ← rd part (j1 + 1)
  let keys ← forRange lo hi (fun j keys => do
    let u ← rd l j
    let k ← rd inv u
    if keys.length < n then ok (keys ++ [k]) else ub) []
  let keys := keys.insertionSort (· ≤ ·)
  forRange lo hi (fun j l => do
    let k ← rd keys (j - lo)
    let u ← rd post k
    wr l j u) l

/-- The assertions of hdagg.cpp:1981-1982 in a debug build. -/
def ungroupAsserts (debug : Bool) (n : Nat) (s : Sched) (u : List Nat × List Nat) : Res Unit :=
  if debug then do
    let e ← rd s.levelPtr s.levels
    if e + 1 = u.1.length ∧ u.2.length = n then ok () else exn
  else ok ()

/-- `ungroupingScheduleAndApplyOrdering`, hdagg.cpp:1942-2017; `dag = none` is a null pointer,
`debug` a build without `NDEBUG`. -/
def ungroup (debug : Bool) (n : Nat) (s : Sched) (gp gs : List Nat)
    (dag : Option (List Nat × List Nat)) (sortOrder postOrder : Bool) : Res Sched :=
  if postOrder = true ∧ dag = none then exn else do
  let u ← unpack s gp gs
  if postOrder && sortOrder then exn else do
  ungroupAsserts debug n s u
  if sortOrder then do
    let l ← overParts s (sortPart u.1) u.2
    ok ⟨s.levels, s.levelPtr, u.1, l⟩
  else if postOrder then
    match dag with
    | none => exn
    | some (p, ix) => do
      let post ← PostOrder.computePostOrder false n p ix
      let inv ← postInv n post
      let l ← overParts s (sortPartPost n post inv u.1) u.2
      ok ⟨s.levels, s.levelPtr, u.1, l⟩
  else ok ⟨s.levels, s.levelPtr, u.1, u.2⟩

end Verif.Group
