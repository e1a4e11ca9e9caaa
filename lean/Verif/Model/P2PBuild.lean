import Verif.Model.P2P
import Verif.Model.Pipeline
import Verif.Model.Final
import Verif.Model.Sparse
import Verif.Spec.SpmpMat

/-!
# Model: how the point-to-point solvers get their task graph

`Convert_LBCCSR_to_SpMP` (example/SpMP_Interface.h) and `build_set` of the classes
`SpTrSv_LL_Tree_HDAGG_BFS_P2P` and `SpTrsv_LL_SpMP` (example/SpTRSV_runtime.h).  SpMP is a
parameter: `spmp` maps the matrix handed to it to the task graph.  Not modelled: `hasZeroDiag` (only
prints), the branch for matrices with an unsymmetric pattern, the timers.
-/

namespace Verif.P2P
open Res

variable {V : Type}

/-- The loop over the entries of row `i`, SpMP_Interface.h:30-36. -/
def convertRow (recip : V → V) (i : Nat) (M : SpmpMat V) : Res (SpmpMat V) := do
  let lo ← rd M.rowptr i
  let hi ← rd M.rowptr (i + 1)
  forRange lo hi (fun j M => do
    let c ← rd M.colidx j
    if c = i then do
      let dp ← wr M.diagptr i j
      let v ← rd M.values j
      let id ← wr M.idiag i (recip v)
      let dg ← wr M.diag i v
      ok { M with diagptr := dp, idiag := id, diag := dg }
    else ok M) M

/-- `std::copy` of the first `k` elements to a new array of `k` elements. -/
def copyN {α : Type} (k : Nat) (l : List α) : Res (List α) := if k ≤ l.length then ok (l.take k) else ub

/-- `Convert_LBCCSR_to_SpMP`, SpMP_Interface.h:16-38.  `nnz` is `LBC_A->nnz`; `order` is the order of
the parallel loop, whose iterations write to different places; `dp0`, `id0`, `d0` are the new
diagonal arrays, not initialised by `alloc`; `recip v` is `1 / v`.  `A` is the CSR matrix as an
`Sp`: `A.cols` is its number of rows. -/
def convertToSpmp (recip : V → V) (order : Nat → List Nat) (dp0 : List Nat) (id0 d0 : List V) (A : Sp V)
    (nnz : Nat) : Res (SpmpMat V) := do
  let p ← copyN (A.cols + 1) A.p
  let i ← copyN nnz A.i
  let x ← copyN nnz A.x
  forEach (order A.cols) (convertRow recip) ⟨p, i, x, dp0, id0, d0⟩

/-- What `build_set` of the point-to-point classes depends on besides the input. -/
structure SpmpEnv (V : Type) where
  spmp : SpmpMat V → TaskGraph
  recip : V → V
  order : Nat → List Nat
  order' : Nat → List Nat
  order'' : Nat → List Nat
  dp0 : Nat → List Nat
  d0 : Nat → List V

/-- The matrix that SpMP gets for a graph in compressed columns, SpTRSV_runtime.h:1045-1083 (the same statements are in
hdagg.cpp:846-855): a symmetric matrix of ones in compressed rows. -/
def dagMat [Zero V] [One V] (recip : V → V) (order : Nat → List Nat) (dp0 : Nat → List Nat) (d0 : Nat → List V)
    (ptr set : List Nat) : Res (SpmpMat V) := do
  let D : Sp V := ⟨ptr.length - 1, ptr.length - 1, ptr, set, List.replicate set.length 1⟩
  let full ← Sp.makeFull D false set.length
  match full with
  | none => ub
  | some tmp => do
    let nnz ← rd tmp.p tmp.cols
    let csr ← Sp.cscToCsr tmp nnz false
    convertToSpmp recip order (dp0 csr.cols) (d0 csr.cols) (d0 csr.cols) csr nnz

/-- The task graph of a graph in compressed columns, SpTRSV_runtime.h:1045-1083: make it a symmetric
matrix of ones, convert it and call SpMP. -/
def dagTasks [Zero V] [One V] (E : SpmpEnv V) (ptr set : List Nat) : Res TaskGraph := do
  let M ← dagMat E.recip E.order'' E.dp0 E.d0 ptr set
  ok (E.spmp M)

/-- `build_set` of `SpTrSv_LL_Tree_HDAGG_BFS_P2P`, SpTRSV_runtime.h:995-1104: the groups and their task
graph. -/
def buildSetP2P {K : Type} [Zero K] [Add K] [Sub K] [LT K] [DecidableLT K] [DecidableEq K] [NatCast K]
    [Zero V] [One V] (isLfactor binPack : Bool) (e : Pipeline.Env K) (E : SpmpEnv V) (cc cc' : Hdagg.Orac)
    (cores n nnz : Nat) (cscP cscI csrP csrI : List Nat) : Res (Grouping × TaskGraph) := do
  let s ← Pipeline.treeHdagg false isLfactor true binPack e cc cc' cores n nnz cscP cscI csrP csrI
  let r ← Final.getFinalScheduleDAG false E.order E.order' n s cscP cscI
  let t ← dagTasks E r.2.1 r.2.2
  ok (r.1, t)

/-- `build_set` of `SpTrsv_LL_SpMP`, SpTRSV_runtime.h:1432-1478; `A` is the full matrix in
compressed rows given to the constructor and `nnz` its `nnz`. -/
def buildSetSpmp (E : SpmpEnv V) (A : Sp V) (nnz : Nat) : Res TaskGraph := do
  let M ← convertToSpmp E.recip E.order'' (E.dp0 A.cols) (E.d0 A.cols) (E.d0 A.cols) A nnz
  ok (E.spmp M)

end Verif.P2P
