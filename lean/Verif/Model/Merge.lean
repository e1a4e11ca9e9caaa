import Verif.Res

/-!
# Model: graphs made of other graphs (utils/sparse_utilities.cpp)

`coarsen_k_times` (1179-1214), both forms of `merge_graph` (767-861) and
`merge_DAGs_with_partial_order` (867-930).  `int` is not bounded.  The values of the new matrices are
zero or absent and left out.
-/

namespace Verif.Merge
open Res

/-- `p` of a new `CSC`: a null pointer if there are no columns (def.h:84-88, 103-107). -/
def allocP (n : Nat) : List Nat := if 0 < n then List.replicate (n + 1) 0 else []

/-! ### `coarsen_k_times` -/

/-- `Bp`, `Bi`, `cur_col`, `cur_nnz`, `faled_vals`, `is_exist` and the loop variable `j`. -/
structure Coarse where
  bp : List Nat
  bi : List Nat
  col : Nat
  cnt : Nat
  failed : List Nat
  exist_ : List Bool
  j : Nat
deriving DecidableEq, Repr

/-- One entry, sparse_utilities.cpp:1191-1199. -/
def coarseEntry (debug : Bool) (newN k tmp : Nat) (s : Coarse) : Res Coarse := do
  let e ← rd s.exist_ (tmp / k)
  if e = true then ok s else do
    let ex ← wr s.exist_ (tmp / k) true
    if debug = true ∧ ¬ tmp / k < newN then exn else do
      let bi ← wr s.bi s.cnt (tmp / k)
      ok { s with exist_ := ex, bi := bi, cnt := s.cnt + 1, failed := s.failed ++ [tmp / k] }

/-- The columns `j`, …, `j + k - 1`, sparse_utilities.cpp:1187-1209. -/
def coarseBlock (debug : Bool) (n newN k : Nat) (Ap Ai : List Nat) (s : Coarse) : Res Coarse := do
  let s ← forRange s.j (min (s.j + k) n) (fun l s => do
    let lo ← rd Ap l
    let hi ← rd Ap (l + 1)
    forRange lo hi (fun m s => do
      let tmp ← rd Ai m
      coarseEntry debug newN k tmp s) s) s
  let bp ← wr s.bp s.col s.cnt
  let ex ← forEach s.failed (fun i ex => wr ex i false) s.exist_
  ok { s with bp := bp, col := s.col + 1, exist_ := ex, failed := [], j := s.j + k }

/-- `coarsen_k_times`, sparse_utilities.cpp:1179-1214: `n`, `p`, `i` and `nnz` of the result.  Division
by zero is undefined. -/
def coarsen (debug : Bool) (n nnz : Nat) (Ap Ai : List Nat) (k : Nat) :
    Res (Nat × List Nat × List Nat × Nat) :=
  if k = 0 then ub else do
  let newN := if n % k = 0 then n / k else n / k + 1
  let bp ← wr (allocP newN) 0 0
  let s ← whileF (n + 1) (fun s => ok (decide (s.j < n))) (coarseBlock debug n newN k Ap Ai)
    ⟨bp, List.replicate nnz 0, 1, 0, [], List.replicate n false, 0⟩
  if debug = true ∧ newN ≠ s.col - 1 then exn
  else ok (newN, s.bp, s.bi, s.cnt)

/-! ### `merge_graph` -/

/-- `nGp`, `p_counter`, `nGi`, `i_counter`. -/
structure Out where
  p : List Nat
  pc : Nat
  i : List Nat
  ic : Nat
deriving DecidableEq, Repr

/-- `nGp[p_counter] = nGp[p_counter-1] + diff; p_counter++`, sparse_utilities.cpp:789-790. -/
def pushPtr (diff : Nat) (s : Out) : Res Out := do
  let a ← (if s.pc = 0 then ub else rd s.p (s.pc - 1))
  let p ← wr s.p s.pc (a + diff)
  ok { s with p := p, pc := s.pc + 1 }

/-- `nGi[i_counter] = row; i_counter++`, sparse_utilities.cpp:793-794. -/
def pushIdx (row : Nat) (s : Out) : Res Out := do
  let i ← wr s.i s.ic row
  ok { s with i := i, ic := s.ic + 1 }

/-- The entries of a column, with `off` added, sparse_utilities.cpp:791-795. -/
def copyCol (Gp Gi : List Nat) (off j : Nat) (s : Out) : Res Out := do
  let lo ← rd Gp j
  let hi ← rd Gp (j + 1)
  forRange lo hi (fun p s => do
    let r ← rd Gi p
    pushIdx (r + off) s) s

/-- The length of a column. -/
def colLen (Gp : List Nat) (j : Nat) : Res Nat := do
  let hi ← rd Gp (j + 1)
  let lo ← rd Gp j
  ok (hi - lo)

/-- Sum of `Gps[i][n]`, sparse_utilities.cpp:771-773. -/
def sumLast (n : Nat) (gs : List (List Nat × List Nat)) : Res Nat :=
  forEach gs (fun G nnz => do
    let a ← rd G.1 n
    ok (nnz + a)) 0

/-- One of the graphs but the last, sparse_utilities.cpp:784-798. -/
def mergeInner (n i : Nat) (G : List Nat × List Nat) (s : Out) : Res Out :=
  forRange 0 n (fun j s => do
    let d ← colLen G.1 j
    let s ← pushPtr (d + 1) s
    let s ← copyCol G.1 G.2 (i * n) j s
    pushIdx (j + (i + 1) * n) s) s

/-- The last graph, sparse_utilities.cpp:801-812. -/
def mergeLast (n i : Nat) (G : List Nat × List Nat) (s : Out) : Res Out :=
  forRange 0 n (fun j s => do
    let d ← colLen G.1 j
    let s ← pushPtr d s
    copyCol G.1 G.2 (i * n) j s) s

/-- The body of both forms of `merge_graph`: `alloc` allocates `nGp`.  `gs` are the pairs
`(Gps[i], Gis[i])`; `Gps[ngraphs-1]` is undefined if there are none. -/
def mergeBody (alloc : Nat → List Nat) (n : Nat) (gs : List (List Nat × List Nat)) :
    Res (List Nat × List Nat) := do
  let nnz ← sumLast n gs
  if gs.length = 0 then ub else do
  let p ← wr (alloc (gs.length * n)) 0 0
  let s ← forRange 0 (gs.length - 1) (fun i s => do
    let G ← rd gs i
    mergeInner n i G s) ⟨p, 1, List.replicate (nnz + (gs.length - 1) * n) 0, 0⟩
  let G ← rd gs (gs.length - 1)
  let s ← mergeLast n (gs.length - 1) G s
  ok (s.p, s.i)

/-- `merge_graph` with output arrays, sparse_utilities.cpp:767-813. -/
def mergeGraph : Nat → List (List Nat × List Nat) → Res (List Nat × List Nat) :=
  mergeBody (fun m => List.replicate (m + 1) 0)

/-- `merge_graph` returning a `CSC`, sparse_utilities.cpp:815-861. -/
def mergeGraphCsc : Nat → List (List Nat × List Nat) → Res (List Nat × List Nat) :=
  mergeBody allocP

/-! ### `merge_DAGs_with_partial_order` -/

/-- One of the graphs but the last with the dependences on the next one,
sparse_utilities.cpp:892-912. -/
def mergePair (n i : Nat) (G D : List Nat × List Nat) (s : Out) : Res Out :=
  forRange 0 n (fun j s => do
    let d ← colLen G.1 j
    let d' ← colLen D.1 j
    let s ← pushPtr (d + d') s
    let s ← copyCol G.1 G.2 (i * n) j s
    copyCol D.1 D.2 ((i + 1) * n) j s) s

/-- `merge_DAGs_with_partial_order`, sparse_utilities.cpp:867-930: `p`, `i` and `nnz` of the result.
`nd` is not used; `ds` are the pairs `(DGps[i], DGis[i])`. -/
def mergeDags (n : Nat) (gs ds : List (List Nat × List Nat)) : Res (List Nat × List Nat × Nat) := do
  let a ← sumLast n gs
  if gs.length = 0 then ub else do
  let b ← forRange 0 (gs.length - 1) (fun i nnz => do
    let D ← rd ds i
    let a ← rd D.1 n
    ok (nnz + a)) 0
  let nnz := a + b + (gs.length - 1) * n
  let p ← wr (allocP (n * gs.length)) 0 0
  let s ← forRange 0 (gs.length - 1) (fun i s => do
    let G ← rd gs i
    let D ← rd ds i
    mergePair n i G D s) ⟨p, 1, List.replicate nnz 0, 0⟩
  let G ← rd gs (gs.length - 1)
  let s ← mergeLast n (gs.length - 1) G s
  ok (s.p, s.i, nnz)

end Verif.Merge
