import Verif.Model.Prepare

/-!
# Model: the matrices of the fusion programs, and METIS partitions

utils/FusionDemo.cpp:109-135 (`generate_matrices_from_mtx`) and utils/metis_interface.cpp:15-42
(`metis_partitioning`).  Freeing is not modelled; a null pointer that is dereferenced is undefined.
-/

namespace Verif.GenMtx
open Res Sp Metis TransSym Prepare

variable {V : Type} [Zero V]

/-- `generate_matrices_from_mtx`, FusionDemo.cpp:109-135: `L2_csr`, `B`, `B_csr`.  `nd = none` is a build
without METIS, where `L1_csc` stays null.  The branch `else` of line 131 is never taken. -/
def generate (nd : Option NodeND) (debug : Bool) (A : Sp V) (stype : Int) (nnz : Nat) :
    Res (Sp V × Sp V × Sp V) :=
  match nd with
  | none => ub
  | some nd => do
    let g ← reorder nd debug A stype nnz
    let L2 ← cscToCsr g.1 g.2.2 false
    let full ← makeFull g.1 (decide (g.2.1 = 0)) g.2.2
    match full with
    | none => ub
    | some B => do
      let bnz ← rd B.p B.cols
      let C ← cscToCsr B bnz false
      ok (L2, B, C)

/-- `metis_partitioning`, metis_interface.cpp:15-42: the matrix returned and `partition`.  `nnz`, `stype`
and `pat` are the fields of `A`. -/
def partitioning (nd : NodeND) (pk : PartKway) (debug : Bool) (A : Sp V) (nnz : Nat) (stype : Int) (pat : Bool)
    (k : Nat) : Res (Sp V × List Nat) :=
  if pat then do
    let r ← permSymmetric nd debug A nnz stype
    let t ← transposeSymmetric A stype nnz true r.2
    match t with
    | none => ub
    | some (T, ts) => do
      let o ← makeFull T (decide (ts = 0)) nnz
      match o with
      | none => ub
      | some F => do
        let fnz ← rd F.p F.cols
        let part ← partSymmetric pk debug F fnz k
        ok (F, part)
  else do
    let _ ← permGeneral nd debug A nnz false
    let C ← copySparse A nnz
    let part ← partGeneral pk debug C nnz false k
    ok (C, part)

end Verif.GenMtx
