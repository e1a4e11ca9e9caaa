import Verif.Spec.Group
import Verif.Model.Sparse

/-!
# Model: tree-based grouping (src/hdagg/hdagg.cpp 1349-1648, 1785-1940)

Simplifications: `int` is not bounded.  The product of a floating-point constant with `n`, rounded
to an `int`, is a parameter.  The iterations of the OpenMP loop that names the groups run one
after the other in an arbitrary order, given as a list: they write different array elements.
Messages on `std::cerr` have no effect.
-/

namespace Verif.Group
open Res

/-- `size_restriction`, hdagg.cpp:1353-1361, 1504-1512, 1788-1796; `q` is the rounded product of `n`
with `0.001`, `0.002` or `0.0001`. -/
def sizeLimit (limited : Bool) (q n : Nat) : Nat :=
  if limited then (if q = 0 then 1 else q) else n

/-- The inverse graph, hdagg.cpp:1368-1374 (1519-1525, 1804-1810).  `std::copy` writes past the end
of the arrays of the new matrix if the vectors are longer than `n+1` and `DAG_ptr[n]`. -/
def inverseDag (n : Nat) (p ix : List Nat) : Res (Sp Nat) := do
  let edges ← rd p n
  if p.length ≤ Sp.newPtrLen n ∧ ix.length ≤ edges then
    Sp.cscToCsr ⟨n, n, p, ix ++ List.replicate (edges - ix.length) 0, List.replicate edges 0⟩
      edges false
  else ub

/-- State of the traversals: `root_id`, `group_stack` (front first), `visited`, `finish_group` (only
read in `treeBasedGroupingBFS`), `ngroups`, `group_ptr`, `group_set`, `set_cnt`, `last_size`. -/
structure Trav where
  roots : List Nat
  stack : List Nat
  visited : List Bool
  fin : Bool
  ngroups : Nat
  ptr : List Nat
  set : List Nat
  cnt : Nat
  last : Nat
deriving DecidableEq, Repr

/-- The nodes with one entry in their column, hdagg.cpp:1376-1381 (1527-1532, 1814-1819). -/
def sinks (n : Nat) (p : List Nat) : Res (List Nat) :=
  forRange 0 n (fun i acc => do
    let lo ← rd p i
    let hi ← rd p (i + 1)
    if hi = lo + 1 then ok (acc ++ [i]) else ok acc) []

/-- One entry of the row of the inverse graph, hdagg.cpp:1412-1422 (1563-1573, 1855-1866). -/
def visitChild (p : List Nat) (child : Nat) (s : Trav) : Res Trav := do
  let seen ← rd s.visited child
  if seen then ok s else do
    let visited ← wr s.visited child true
    let lo ← rd p child
    let hi ← rd p (child + 1)
    if lo + 2 < hi then ok { s with visited := visited, roots := s.roots ++ [child], fin := true }
    else if lo + 2 = hi then ok { s with visited := visited, stack := s.stack ++ [child] }
    else ok { s with visited := visited }

/-- The loop over all entries but the last, hdagg.cpp:1411-1423 (1562-1574, 1854-1867). -/
def visitChildren (p : List Nat) (B : Sp Nat) (head : Nat) (s : Trav) : Res Trav := do
  let lo ← rd B.p head
  let hi ← rd B.p (head + 1)
  forRange lo (hi - 1) (fun j s => do
    let child ← rd B.i j
    visitChild p child s) s

/-- `group_stack.front(); group_stack.pop_front()`. -/
def popFront (l : List Nat) : Res (Nat × List Nat) :=
  match l with
  | [] => ub
  | a :: l => ok (a, l)

/-- Body of the inner loop of `treeBasedGrouping`, hdagg.cpp:1409-1430 (1560-1581). -/
def treeStep (limit : Nat) (p : List Nat) (B : Sp Nat) (s : Trav) : Res Trav := do
  let h ← popFront s.stack
  let s ← visitChildren p B h.1 { s with stack := h.2 }
  let set ← wr s.set s.cnt h.1
  if s.cnt + 1 - s.last = limit then
    ok { s with set := set, cnt := s.cnt + 1, ptr := s.ptr ++ [s.cnt + 1],
                ngroups := s.ngroups + 1, last := s.cnt + 1 }
  else ok { s with set := set, cnt := s.cnt + 1 }

/-- Body of the outer loop of `treeBasedGrouping`, hdagg.cpp:1399-1431 (1550-1582). -/
def treeRound (limit n : Nat) (p : List Nat) (B : Sp Nat) (s : Trav) : Res Trav := do
  let head ← back s.roots
  let visited ← wr s.visited head true
  let b ← back s.ptr
  let s : Trav := { s with roots := s.roots.dropLast, visited := visited, stack := s.stack ++ [head] }
  let s : Trav := if b ≠ s.cnt then { s with ptr := s.ptr ++ [s.cnt], ngroups := s.ngroups + 1 } else s
  whileF n (fun s => ok (!s.stack.isEmpty)) (treeStep limit p B) { s with last := s.cnt }

/-- The debug assertion that all nodes are listed, hdagg.cpp:1445-1454 (1596-1605, 1886-1895). -/
def checkMarks (debug : Bool) (n : Nat) (gs : List Nat) : Res Unit :=
  if debug then do
    let marks ← forEach gs (fun v m => wr m v true) (List.replicate n false)
    if marks.all id then ok () else exn
  else ok ()

/-- The smallest node of a group, hdagg.cpp:1464-1470 (1614-1620, 1904-1910). -/
def minNode (n : Nat) (gs : List Nat) (lo hi : Nat) : Res Nat :=
  forRange lo hi (fun i id => do
    let node ← rd gs i
    ok (if node < id then node else id)) n

/-- Naming the groups, hdagg.cpp:1455-1476 (1606-1626, 1896-1916): `group_id`, `group_size`; the
groups in the order `order`. -/
def nameGroups (order : List Nat) (n : Nat) (gp gs : List Nat) : Res (List Nat × List Nat) :=
  forEach order (fun g (s : List Nat × List Nat) => do
    let lo ← rd gp g
    let hi ← rd gp (g + 1)
    let id ← minNode n gs lo hi
    let size ← wr s.2 (id + 1) (hi - lo)
    let gid ← forRange lo hi (fun i gid => do
      let node ← rd gs i
      wr gid node id) s.1
    ok (gid, size)) (List.replicate n 0, List.replicate (n + 1) 0)

/-- Prefix sums, hdagg.cpp:1479-1481 (1629-1631, 1919-1921). -/
def sumSizes (n : Nat) (size : List Nat) : Res (List Nat) :=
  forRange 1 n (fun i s => do
    let a ← rd s (i + 1)
    let b ← rd s i
    wr s (i + 1) (a + b)) size

/-- The new group pointer, hdagg.cpp:1483-1489 (1633-1639, 1923-1929). -/
def newGroupPtr (n : Nat) (size : List Nat) : Res (List Nat) :=
  forRange 0 n (fun i acc => do
    let b ← rd size (i + 1)
    let a ← rd size i
    if b ≠ a then ok (acc ++ [b]) else ok acc) [0]

/-- Counting sort of the nodes, hdagg.cpp:1491-1496 (1641-1646, 1931-1936). -/
def placeNodes (n : Nat) (gs gid size : List Nat) : Res (List Nat) := do
  let s ← forRange 0 n (fun i (s : List Nat × List Nat) => do
    let node ← rd gs i
    let id ← rd gid node
    let q ← rd s.1 id
    let size ← wr s.1 id (q + 1)
    let out ← wr s.2 q node
    ok (size, out)) (size, List.replicate n 0)
  ok s.2

/-- Renumbering the groups by their smallest nodes, hdagg.cpp:1455-1496 (1606-1646, 1896-1936). -/
def renumber (order : List Nat) (n : Nat) (gp gs : List Nat) : Res (List Nat × List Nat) := do
  let s ← nameGroups order n gp gs
  let size ← sumSizes n s.2
  let ptr ← newGroupPtr n size
  let set ← placeNodes n gs s.1 size
  ok (ptr, set)

/-- The traversal of `treeBasedGrouping`, hdagg.cpp:1375-1443 (1526-1594):
`ngroups`, `group_ptr`, `group_set`. -/
def treeTraverse (limit n : Nat) (p : List Nat) (B : Sp Nat) : Res Grouping := do
  let roots ← sinks n p
  let s ← whileF n (fun s => ok (!s.roots.isEmpty)) (treeRound limit n p B)
    ⟨roots, [], List.replicate n false, false, 1, [0], List.replicate n 0, 0, 0⟩
  let b ← back s.ptr
  let ptr := if b ≠ s.cnt then s.ptr ++ [s.cnt] else s.ptr
  if ptr.length ≠ s.ngroups + 1 then
    if ptr.length ≠ s.ngroups then exn
    else ok ⟨s.ngroups - 1, ptr, s.set⟩
  else ok ⟨s.ngroups, ptr, s.set⟩

/-- `treeBasedGrouping`, hdagg.cpp:1349-1498 (and `treeBasedGrouping_Aggressive`, 1500-1648, which
differs in the constant of the size limit and in naming the groups one after the other).  `order`
chooses the order of the parallel loop for each number of groups. -/
def treeBasedGrouping (debug limited : Bool) (q : Nat) (order : Nat → List Nat) (n : Nat)
    (p ix : List Nat) : Res Grouping := do
  let B ← inverseDag n p ix
  let G ← treeTraverse (sizeLimit limited q n) n p B
  checkMarks debug n G.set
  let r ← renumber (order G.num) n G.ptr G.set
  ok ⟨G.num, r.1, r.2⟩

/-! ### `treeBasedGroupingBFS` -/

/-- Body of the inner loop, hdagg.cpp:1849-1875. -/
def bfsStep (limit : Nat) (p : List Nat) (B : Sp Nat) (s : Trav) : Res Trav := do
  let h ← popFront s.stack
  let set ← wr s.set s.cnt h.1
  let s ← visitChildren p B h.1 { s with stack := h.2, fin := false, set := set, cnt := s.cnt + 1 }
  if s.fin = true ∨ s.cnt - s.last = limit then
    ok { s with stack := [], roots := s.roots ++ s.stack }
  else ok s

/-- Body of the outer loop, hdagg.cpp:1838-1876. -/
def bfsRound (limit n : Nat) (p : List Nat) (B : Sp Nat) (s : Trav) : Res Trav := do
  let h ← popFront s.roots
  let visited ← wr s.visited h.1 true
  whileF n (fun s => ok (!s.stack.isEmpty)) (bfsStep limit p B)
    { s with roots := h.2, visited := visited, stack := s.stack ++ [h.1], ptr := s.ptr ++ [s.cnt],
             ngroups := s.ngroups + 1, last := s.cnt }

/-- The traversal, hdagg.cpp:1813-1879. -/
def bfsTraverse (limit n : Nat) (p : List Nat) (B : Sp Nat) : Res Grouping := do
  let roots ← sinks n p
  let s ← whileF n (fun s => ok (!s.roots.isEmpty)) (bfsRound limit n p B)
    ⟨roots, [], List.replicate n false, false, 0, [], List.replicate n 0, 0, 0⟩
  let b ← back s.ptr
  ok ⟨s.ngroups, if b ≠ s.cnt then s.ptr ++ [s.cnt] else s.ptr, s.set⟩

/-- `treeBasedGroupingBFS`, hdagg.cpp:1785-1940; the groups are named one after the other. -/
def treeBasedGroupingBFS (debug limited : Bool) (q n : Nat) (p ix : List Nat) : Res Grouping := do
  let B ← inverseDag n p ix
  let G ← bfsTraverse (sizeLimit limited q n) n p B
  checkMarks debug n G.set
  let r ← renumber (List.range G.num) n G.ptr G.set
  ok ⟨G.num, r.1, r.2⟩

end Verif.Group
