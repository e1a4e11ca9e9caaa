import Verif.Model.Metis

/-!
# Model: what the example programs do with the matrix before solving

example/lbc_demo.cpp:66-81, example/sptrsv_demo.cpp:79-97, example/SpTRSV_runtime.cpp:82-103 (and the other
programs in example/, which contain the same lines).  `make_half` and `transpose_symmetric` set `stype` and
`nnz` as modelled; a null pointer that is dereferenced is undefined.  Freeing is not modelled.
-/

namespace Verif.Prepare
open Res Sp Metis TransSym

variable {V : Type} [Zero V]

/-- The branch for METIS up to the conversion, sptrsv_demo.cpp:79-94: the matrix that is solved with, its
`stype` and `nnz`.  The argument `nnz` is `L1_csc->nnz`. -/
def reorder (nd : NodeND) (debug : Bool) (A : Sp V) (stype : Int) (nnz : Nat) : Res (Sp V × Int × Nat) := do
  let full ← makeFull A (decide (stype = 0)) nnz
  match full with
  | none => ub
  | some F => do
    let fnz ← rd F.p F.cols
    let r ← permGeneral nd debug F fnz false
    let H ← makeHalf F false true
    let hnz ← rd H.p H.cols
    let t ← transposeSymmetric H (-1) hnz false (some r.2)
    match t with
    | none => ub
    | some (T, ts) => do
      let o ← transposeSymmetric T ts hnz false none
      match o with
      | none => ub
      | some (G, gs) => ok (G, gs, hnz)

/-- Both forms of the matrix with METIS, sptrsv_demo.cpp:79-97, SpTRSV_runtime.cpp:85-94. -/
def prepareMetis (nd : NodeND) (debug : Bool) (A : Sp V) (stype : Int) (nnz : Nat) : Res (Sp V × Sp V) := do
  let g ← reorder nd debug A stype nnz
  let B ← cscToCsr g.1 g.2.2 false
  ok (g.1, B)

/-- Both forms of the matrix without METIS, SpTRSV_runtime.cpp:98-103. -/
def prepareHalf (A : Sp V) : Res (Sp V × Sp V) := do
  let H ← makeHalf A false true
  let hnz ← rd H.p H.cols
  let B ← cscToCsr H hnz false
  ok (H, B)

end Verif.Prepare
