import Verif.Res

/-!
# Model: `partialSparsification` (src/hdagg/hdagg.cpp 2019-2257)

Simplifications: `int` is not bounded.  The threads of the clique detection only share the array
`node_to_clique`; each computes its list of writes alone, and the writes of all threads are then
performed in an arbitrary order (every interleaving of the threads is one of these orders).  The
iterations of the OpenMP loop that marks edges run one after the other in an arbitrary order, given
as a list: iteration `i` only writes elements that belong to column `i`.  The message on `std::cout`
has no effect.
-/

namespace Verif.Sparsify
open Res

/-- The comparison of two column tails, hdagg.cpp:2067-2073. -/
def sameTail (ix : List Nat) (pf pl off diff : Nat) : Res Bool := do
  let r ← forRangeB 0 off (fun row (_ : Unit) => do
    let a ← rd ix (pf + row + diff)
    let b ← rd ix (pl + row)
    if a ≠ b then ok (Ctl.brk false) else ok (Ctl.next ())) ()
  match r with
  | .next _ => ok true
  | .brk b => ok b

/-- Condition and body of the loop that widens a clique, hdagg.cpp:2055-2083; the state is `width`
and `last`, and the loop is left with `width`. -/
def growStep (debug : Bool) (n : Nat) (p ix : List Nat) (first : Nat) (s : Nat × Nat) :
    Res (Ctl (Nat × Nat) Nat) :=
  if s.2 < n ∧ s.1 < n then do
    let diff := s.2 - first
    let pl1 ← rd p (s.2 + 1)
    let pl ← rd p s.2
    let pf1 ← rd p (first + 1)
    let pf ← rd p first
    if (pf1 : Int) - pf - diff ≠ (pl1 : Int) - pl then ok (.brk s.1)
    else if debug = true ∧ ¬ pl < pl1 then exn
    else do
      let same ← sameTail ix pf pl (pl1 - pl) diff
      if same then ok (.next (s.1 + 1, s.2 + 1)) else ok (.brk s.1)
  else ok (.brk s.1)

/-- Body of the loop over the columns of one thread, hdagg.cpp:2051-2089; the state is `col` and
`clique_ptr_per_thread`. -/
def cliqueStep (debug : Bool) (n : Nat) (p ix : List Nat) (s : Nat × List Nat) :
    Res (Nat × List Nat) := do
  let width ← loopF (n + 1) (growStep debug n p ix s.1) (1, s.1 + 1)
  if debug then
    if n < s.1 + width then exn
    else do
      let b ← rd p (s.1 + 1)
      let a ← rd p s.1
      if (b : Int) - a - width < 0 then exn
      else ok (s.1 + width, s.2 ++ [s.1 + width])
  else ok (s.1 + width, s.2 ++ [s.1 + width])

/-- `start_col`, hdagg.cpp:2043. -/
def startCol (n bins tid : Nat) : Nat := n / bins * tid

/-- `end_col`, hdagg.cpp:2044-2048 (`tid == bins - 1` as `tid + 1 = bins`). -/
def endCol (n bins tid : Nat) : Nat := if tid + 1 = bins then n else n / bins * (tid + 1)

/-- The cliques found by one thread, hdagg.cpp:2043-2089. -/
def threadCliques (debug : Bool) (n : Nat) (p ix : List Nat) (bins tid : Nat) : Res (List Nat) := do
  let s ← whileF (endCol n bins tid - startCol n bins tid)
    (fun (s : Nat × List Nat) => ok (decide (s.1 < endCol n bins tid)))
    (cliqueStep debug n p ix) (startCol n bins tid, [startCol n bins tid])
  ok s.2

/-- The assignments of one thread to `node_to_clique`, hdagg.cpp:2091-2097, as pairs of an index and
a value. -/
def cliqueWrites (start : Nat) (cp : List Nat) : Res (List (Nat × Nat)) :=
  forRange 0 (cp.length - 1) (fun i acc => do
    let a ← rd cp i
    let b ← rd cp (i + 1)
    forRange a b (fun j acc => ok (acc ++ [(j, i + start)])) acc) []

/-- The writes of the threads `tids`, hdagg.cpp:2031-2098. -/
def allWrites (debug : Bool) (n : Nat) (p ix : List Nat) (bins : Nat) (tids : List Nat) :
    Res (List (Nat × Nat)) :=
  forEach tids (fun tid acc => do
    let cp ← threadCliques debug n p ix bins tid
    let ws ← cliqueWrites (startCol n bins tid) cp
    ok (acc ++ ws)) []

/-- The writes performed on `node_to_clique`, hdagg.cpp:2030, 2095. -/
def applyWrites (n : Nat) (ws : List (Nat × Nat)) : Res (List Nat) :=
  forEach ws (fun w nc => wr nc w.1 w.2) (List.replicate n 0)

/-- `clique_ptr`, hdagg.cpp:2027-2029, 2100-2110; the state is `back`, `node_cnt` and `clique_ptr`. -/
def cliquePtr (debug : Bool) (n : Nat) (nc : List Nat) : Res (List Nat) := do
  let s ← forEach nc (fun i (s : Nat × Nat × List Nat) =>
    ok (i, s.2.1 + 1, if i ≠ s.1 then s.2.2 ++ [s.2.1] else s.2.2)) (0, 0, [0])
  let cp := s.2.2 ++ [s.2.1]
  if debug then do
    let b ← back cp
    if b = n then ok cp else exn
  else ok cp

/-- `DAG_ptr_no_clique`, `DAG_set_no_clique` and `edge_cnt`. -/
structure Edges where
  ptr : List Nat
  set : List Nat
  cnt : Nat
deriving DecidableEq, Repr

/-- Replacing cliques by chains, hdagg.cpp:2150-2170. -/
def noClique (n : Nat) (p ix : List Nat) (cp : List Nat) : Res Edges := do
  let s ← forRange 0 (cp.length - 1) (fun i (s : Edges) => do
    let a ← rd cp i
    let b ← rd cp (i + 1)
    let s ← forRange a (b - 1) (fun j (s : Edges) => do
      let ptr ← wr s.ptr j s.cnt
      ok ⟨ptr, s.set ++ [j, j + 1], s.cnt + 2⟩) s
    let ptr ← wrZ s.ptr ((b : Int) - 1) s.cnt
    let lo ← rd p (b - 1)
    let hi ← rd p b
    forRange lo hi (fun j (s : Edges) => do
      let v ← rd ix j
      ok ⟨s.ptr, s.set ++ [v], s.cnt + 1⟩) ⟨ptr, s.set, s.cnt⟩) ⟨List.replicate (n + 1) 0, [], 0⟩
  let ptr ← wr s.ptr n s.cnt
  ok ⟨ptr, s.set, s.cnt⟩

/-- Body of the loop that merges the successors of a node and of its child, hdagg.cpp:2184-2194;
the state is `l1`, `l2` and `deleted_edge`. -/
def mergeStep (set : List Nat) (s : Nat × Nat × List Bool) : Res (Nat × Nat × List Bool) := do
  let a ← rd set s.1
  let b ← rd set s.2.1
  if a = b then do
    let del ← wr s.2.2 s.1 true
    ok (s.1 + 1, s.2.1 + 1, del)
  else if a < b then ok (s.1 + 1, s.2.1, s.2.2)
  else ok (s.1, s.2.1 + 1, s.2.2)

/-- One child of one node, hdagg.cpp:2178-2194. -/
def markChild (ptr set : List Nat) (l1 u1 k : Nat) (del : List Bool) : Res (List Bool) := do
  let pk ← rd ptr k
  let pk1 ← rd ptr (k + 1)
  let s ← whileF (u1 - l1 + (pk1 - (pk + 1)))
    (fun (s : Nat × Nat × List Bool) => ok (decide (s.1 < u1 ∧ s.2.1 < pk1)))
    (mergeStep set) (l1, pk + 1, del)
  ok s.2.2

/-- Marking the edges that are implied by two others, hdagg.cpp:2172-2196. -/
def markEdges (order ptr set : List Nat) (cnt : Nat) : Res (List Bool) :=
  forEach order (fun i del => do
    let lo ← rd ptr i
    let hi ← rd ptr (i + 1)
    forRange (lo + 1) hi (fun kp del => do
      let k ← rd set kp
      markChild ptr set (lo + 1) hi k del) del) (List.replicate cnt false)

/-- `std::vector::resize(m, 0)`. -/
def resize (l : List Nat) (m : Nat) : List Nat := l.take m ++ List.replicate (m - l.length) 0

/-- Copying the remaining edges, hdagg.cpp:2198-2210 and 2240-2254; `edge_counter` starts with 0, the
vectors with whatever the caller passed. -/
def keepEdges (n : Nat) (ptr set : List Nat) (del : List Bool) (ptr0 set0 : List Nat) :
    Res (List Nat × List Nat) := do
  let s ← forRange 0 n (fun i (s : Edges) => do
    let lo ← rd ptr i
    let hi ← rd ptr (i + 1)
    let s ← forRange lo hi (fun kp (s : Edges) => do
      let d ← rd del kp
      if d then ok s else do
        let k ← rd set kp
        ok ⟨s.ptr, s.set ++ [k], s.cnt + 1⟩) s
    let out ← wr s.ptr (i + 1) s.cnt
    ok ⟨out, s.set, s.cnt⟩) ⟨resize ptr0 (n + 1), set0, 0⟩
  ok (s.ptr, s.set)

/-- The variant with cliques, hdagg.cpp:2022-2210: `bins` and `tids` describe the threads, `sched`
the order of the writes to `node_to_clique`, `order` the order of the marking loop. -/
def withCliques (debug : Bool) (bins : Nat) (tids : List Nat)
    (sched : List (Nat × Nat) → List (Nat × Nat)) (order : List Nat) (n : Nat)
    (p ix ptr0 set0 : List Nat) : Res (List Nat × List Nat) := do
  let ws ← allWrites debug n p ix bins tids
  let nc ← applyWrites n (sched ws)
  let cp ← cliquePtr debug n nc
  let e ← noClique n p ix cp
  let del ← markEdges order e.ptr e.set e.cnt
  keepEdges n e.ptr e.set del ptr0 set0

/-- `std::lower_bound` on a sorted vector: the number of elements before the first one that is not
smaller. -/
def lowerBound (l : List Nat) (v : Nat) : Nat := (l.takeWhile (· < v)).length

/-- The vector `child`, hdagg.cpp:2216-2222; an empty column asks for a vector of length -1. -/
def childList (p ix : List Nat) (i : Nat) : Res (List Nat) := do
  let lo ← rd p i
  let hi ← rd p (i + 1)
  if hi ≤ lo then exn
  else forRange (lo + 1) hi (fun kp acc => do
    let k ← rd ix kp
    ok (acc ++ [k])) []

/-- One column of the slow variant, hdagg.cpp:2224-2235. -/
def markSlow (p ix : List Nat) (i : Nat) (del : List Bool) : Res (List Bool) := do
  let child ← childList p ix i
  let lo ← rd p i
  let hi ← rd p (i + 1)
  forRange (lo + 1) hi (fun kp del => do
    let k ← rd ix kp
    let a ← rd p k
    let b ← rd p (k + 1)
    forRange (a + 1) b (fun jp del => do
      let j ← rd ix jp
      let id := lowerBound child j
      if id < child.length then do
        let c ← rd child id
        if c ≤ j then wr del (lo + 1 + id) true else ok del
      else ok del) del) del

/-- The variant without cliques, hdagg.cpp:2211-2255. -/
def slow (order : List Nat) (n nnz : Nat) (p ix ptr0 set0 : List Nat) :
    Res (List Nat × List Nat) := do
  let del ← forEach order (markSlow p ix) (List.replicate nnz false)
  keepEdges n p ix del ptr0 set0

/-- How the function is compiled and run: with OpenMP and a team of `bins` threads, or without
OpenMP, where `bins` is 1 and the only thread takes `tid` 1 (hdagg.cpp:2034-2041). -/
inductive Build where
  | openmp (bins : Nat)
  | serial
deriving DecidableEq, Repr

def Build.bins : Build → Nat
  | .openmp b => b
  | .serial => 1

def Build.tids : Build → List Nat
  | .openmp b => List.range b
  | .serial => [1]

/-- `partialSparsification`, hdagg.cpp:2019-2257. -/
def partialSparsification (debug : Bool) (build : Build) (sched : List (Nat × Nat) → List (Nat × Nat))
    (order : List Nat) (clique : Bool) (n nnz : Nat) (p ix ptr0 set0 : List Nat) :
    Res (List Nat × List Nat) :=
  if clique then withCliques debug build.bins build.tids sched order n p ix ptr0 set0
  else slow order n nnz p ix ptr0 set0

end Verif.Sparsify
