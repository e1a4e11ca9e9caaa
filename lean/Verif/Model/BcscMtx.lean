import Verif.Model.Bcsc
import Verif.Model.MtxRead

/-!
# Model: `BCSC_to_mtx` (utils/sparse_io.cpp:84-112)

The matrix is square, as everywhere in the model of the blocked format.
-/

namespace Verif.Bcsc
open Res Mtx

variable {V : Type}

/-- utils/sparse_io.cpp:96-110: the entries of block `i`.  A block without columns is a division by zero.
Simplification: the pointers are natural numbers, so a block with a negative width counts as one without
columns. -/
def blockText (fmt : V → Mtx.Text) (B : Blocked V) (i : Nat) (s : Mtx.Text) : Res Mtx.Text := do
  let index ← rd B.p i
  let b ← rd B.super (i + 1)
  let a ← rd B.super i
  let e ← rd B.p (i + 1)
  if b - a = 0 then ub
  else do
    let nrows := (e - index) / (b - a)
    forRange 0 (b - a) (fun j s => forRange 0 nrows (fun k s => do
      let r ← rd B.i (index + j * nrows + k)
      let v ← rd B.x (index + j * nrows + k)
      ok (s ++ entryText fmt r (a + j) v)) s) s

/-- `BCSC_to_mtx`, utils/sparse_io.cpp:84-112: the text that is written; `n` and `nnz` are fields of `A`. -/
def bcscToMtx (fmt : V → Mtx.Text) (n nnz : Nat) (B : Blocked V) : Res Mtx.Text :=
  forRange 0 B.nodes (blockText fmt B) (bannerText ++ sizeText n n nnz)

end Verif.Bcsc
