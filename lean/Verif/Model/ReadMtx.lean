import Verif.Model.Merge
import Verif.Spec.Sparse

/-!
# Model: `read_mtx` (utils/sparse_io.cpp:16-63)

The file is what `mmio` and `fscanf` deliver: whether the banner says `symmetric`, the sizes, and the lines
(row, column, value), the indices already counted from 0 (lines 43-44).  `int` is not bounded.
-/

namespace Verif.ReadMtx
open Res

variable {V : Type}

/-- `i`, `index` and `A->p`. -/
structure Runs where
  i : Nat
  index : Nat
  p : List Nat
deriving DecidableEq, Repr

/-- One pass of the loop, sparse_io.cpp:49-56: the start of a run of equal columns is stored, and the run is
skipped. -/
def runStep (J : List Nat) (nnz : Nat) (s : Runs) : Res Runs := do
  let p ← wr s.p s.index s.i
  let cur ← rd J s.i
  let t ← whileF (nnz + 1) (fun t : Nat × Nat =>
      if t.2 < nnz then do
        let v ← rd J t.2
        ok (decide (v = cur))
      else ok false)
    (fun t => ok (t.1 + 1, t.2 + 1)) (s.i, s.i + 1)
  ok ⟨t.1 + 1, s.index + 1, p⟩

/-- From the arrays to the matrix, sparse_io.cpp:46-62. -/
def assemble (m n : Nat) (lines : List (Nat × Nat × V)) : Res (Sp V) := do
  let nnz := lines.length
  let J := lines.map fun e => e.2.1
  let s ← whileF (nnz + 1) (fun s => ok (decide (s.i < nnz))) (runStep J nnz) ⟨0, 0, Merge.allocP n⟩
  let p ← wr s.p n nnz
  ok ⟨m, n, p, lines.map fun e => e.1, lines.map fun e => e.2.2⟩

/-- `read_mtx`, sparse_io.cpp:16-63: the matrix and its `stype`, or the null pointer if the file has fewer
lines than it says. -/
def readMtx (sym : Bool) (m n nnz : Nat) (file : List (Nat × Nat × V)) : Res (Option (Sp V × Int)) :=
  if file.length < nnz then ok none else do
  let A ← assemble m n (file.take nnz)
  ok (some (A, if sym then -1 else 0))

end Verif.ReadMtx
