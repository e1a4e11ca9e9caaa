import Verif.Model.Sparse
import Verif.Model.TransSym
import Verif.Model.Merge

/-!
# Model: the calls of METIS

utils/metis_interface.cpp.  METIS itself is not modelled: `METIS_NodeND` and `METIS_PartGraphKway` are
parameters that get the graph (number of nodes, `xadj`, `adjncy`) and return a code (`METIS_OK` is 1) and
the array they fill.  Options are the defaults; the arrays `IpermIDX`, and `weigt` where it is not passed
to METIS, are left out.  Conventions as in Verif/Model/Sparse.lean.
-/

namespace Verif.Metis
open Res Sp

variable {V : Type}

/-- `METIS_NodeND(n, xadj, adjncy)`: code and `perm`. -/
abbrev NodeND := Nat → List Nat → List Nat → Int × List Nat

/-- `METIS_PartGraphKway(n, xadj, adjncy, vwgt, nparts)`: code and `part`. -/
abbrev PartKway := Nat → List Nat → List Nat → Option (List Nat) → Nat → Int × List Nat

/-- `Ap`, `Ai`, `cnt`. -/
structure Adj where
  p : List Nat
  i : List Nat
  cnt : Nat
deriving DecidableEq, Repr

/-- One row without its diagonal entry, metis_interface.cpp:133-141, 256-265; `B` is the CSR matrix
`At`, whose compressed dimension is rows. -/
def offDiagRow (B : Sp V) (r : Nat) (s : Adj) : Res Adj := do
  let lo ← rd B.p r
  let hi ← rd B.p (r + 1)
  let t ← forRange lo hi (fun q (t : Nat × List Nat × Nat) => do
    let c ← rd B.i q
    if r = c then ok t else do
      let a ← wr t.2.1 t.2.2 c
      ok (t.1 + 1, a, t.2.2 + 1)) (0, s.i, s.cnt)
  let b ← rd s.p r
  let p ← wr s.p (r + 1) (b + t.1)
  ok ⟨p, t.2.1, t.2.2⟩

/-- The rows without their diagonal entries, metis_interface.cpp:127-142, 249-266.  `nnz` is
`At->nnz`. -/
def offDiag (B : Sp V) (n nnz : Nat) : Res Adj := do
  let p ← wr (List.replicate (n + 1) 0) 0 0
  forRange 0 n (offDiagRow B) ⟨p, List.replicate nnz 0, 0⟩

/-- `for(i < n) out[i] = src[i]` into a new array, metis_interface.cpp:107-108, 160-161, 229-230. -/
def copyOut (n : Nat) (src : List Nat) : Res (List Nat) :=
  forRange 0 n (fun i out => do
    let v ← rd src i
    wr out i v) (List.replicate n 0)

/-- `metis_perm_general`, metis_interface.cpp:119-170: the code returned and `perm`.  `nnz` and `pat`
are the fields of `A`; with `debug`, the assertion of line 159 is checked. -/
def permGeneral [Zero V] (nd : NodeND) (debug : Bool) (A : Sp V) (nnz : Nat) (pat : Bool) :
    Res (Int × List Nat) := do
  let B ← cscToCsr A nnz pat
  let g ← offDiag B A.cols nnz
  let r := nd A.cols g.p g.i
  if debug = true ∧ r.1 ≠ 1 then exn else do
    let perm ← copyOut A.cols r.2
    ok (r.1, perm)

/-- `weigt[i] = 1 + A->p[i+1] - A->p[i]`, metis_interface.cpp:276-281. -/
def weights (p : List Nat) (n : Nat) : Res (List Nat) :=
  forRange 0 n (fun i w => do
    let hi ← rd p (i + 1)
    let lo ← rd p i
    wr w i (1 + hi - lo)) (List.replicate n 0)

/-- Copying and the smallest part, metis_interface.cpp:299-309. -/
def normalise (n : Nat) (src : List Nat) : Res (List Nat) := do
  let s ← forRange 0 n (fun i (s : List Nat × Nat) => do
    let v ← rd src i
    let part ← wr s.1 i v
    let w ← rd part i
    ok (part, min s.2 w)) (List.replicate n 0, n)
  if s.2 ≠ 0 then
    forRange 0 n (fun i part => do
      let v ← rd part i
      wr part i (v - s.2)) s.1
  else ok s.1

/-- `metis_partition_general`, metis_interface.cpp:240-318: `part`.  The code returned is 0. -/
def partGeneral [Zero V] (pk : PartKway) (debug : Bool) (A : Sp V) (nnz : Nat) (pat : Bool) (k : Nat) :
    Res (List Nat) := do
  let B ← cscToCsr A nnz pat
  let g ← offDiag B A.cols nnz
  let w ← weights A.p A.cols
  let r := pk A.cols g.p g.i (some w) k
  if debug = true ∧ r.1 ≠ 1 then exn else normalise A.cols r.2

/-- `ind`, metis_interface.cpp:54-62, 179-187. -/
def countSym (A : Sp V) : Res (List Nat) :=
  forRange 0 A.cols (fun c s => do
    let lo ← rd A.p c
    let hi ← rd A.p (c + 1)
    forRange lo hi (fun q ind => do
      let r ← rd A.i q
      let v ← rd ind c
      let ind ← wr ind c (v + 1)
      if r ≠ c then do
        let v ← rd ind r
        wr ind r (v + 1)
      else ok ind) s) (List.replicate A.cols 0)

/-- `index = Afullp[k] + ind[k]; Afulli[index] = v; ind[k]++`, metis_interface.cpp:73-75, 198-200;
the state is `ind` and `Afulli`. -/
def putSym (ptr : List Nat) (k v : Nat) (s : List Nat × List Nat) : Res (List Nat × List Nat) := do
  let b ← rd ptr k
  let q ← rd s.1 k
  let i ← wr s.2 (b + q) v
  let ind ← wr s.1 k (q + 1)
  ok (ind, i)

/-- Both halves of the matrix, metis_interface.cpp:51-83, 176-208: `Afullp` and `Afulli`.  A negative
size makes `new` throw. -/
def fullSym (A : Sp V) (nnz : Nat) : Res (List Nat × List Nat) :=
  if 2 * nnz < A.cols then exn else do
  let ind ← countSym A
  let p ← wr (List.replicate (A.cols + 1) 0) 0 0
  let ptr ← forRange 0 A.cols (fun c p => do
    let a ← rd p c
    let b ← rd ind c
    wr p (c + 1) (a + b)) p
  let s ← forRange 0 A.cols (fun c s => do
    let lo ← rd A.p c
    let hi ← rd A.p (c + 1)
    forRange lo hi (fun q s => do
      let r ← rd A.i q
      if r ≠ c then do
        let s ← putSym ptr c r s
        putSym ptr r c s
      else ok s) s) (List.replicate A.cols 0, List.replicate (2 * nnz - A.cols) 0)
  ok (ptr, s.2)

/-- `metis_perm_symmetric`, metis_interface.cpp:45-116: the code returned and `perm`, `none` if `perm` is
not allocated. -/
def permSymmetric (nd : NodeND) (debug : Bool) (A : Sp V) (nnz : Nat) (stype : Int) :
    Res (Int × Option (List Nat)) :=
  if stype = 0 then ok (-1, none) else do
  let g ← fullSym A nnz
  let r := nd A.cols g.1 g.2
  if debug = true ∧ r.1 ≠ 1 then exn else do
    let perm ← copyOut A.cols r.2
    ok (r.1, some perm)

/-- `metis_partition_symmetric`, metis_interface.cpp:172-237: `part`.  The code returned is 0. -/
def partSymmetric (pk : PartKway) (debug : Bool) (A : Sp V) (nnz k : Nat) : Res (List Nat) := do
  let g ← fullSym A nnz
  let r := pk A.cols g.1 g.2 none k
  if debug = true ∧ r.1 ≠ 1 then exn else copyOut A.cols r.2

/-- The parts of the nodes of a block, metis_interface.cpp:333-339: the block of part `i` starts at node
`i`. -/
def expand (n m c : Nat) (pc : List Nat) : Res (List Nat) :=
  forRange 0 m (fun i part => do
    let v ← rd pc i
    forRange i (i + c) (fun j part => wr part j v) part) (List.replicate n 0)

/-- `metis_partition_coarsened`, metis_interface.cpp:320-345: `part`.  The matrix of the blocks has the
values 0. -/
def partCoarsened [Zero V] (pk : PartKway) (debug : Bool) (A : Sp V) (nnz : Nat) (stype : Int) (k c : Nat) :
    Res (List Nat) := do
  let t ← Merge.coarsen debug A.cols nnz A.p A.i c
  let T : Sp V := ⟨t.1, t.1, t.2.1, t.2.2.1, List.replicate nnz 0⟩
  let pc ← (if stype < 0 then partSymmetric pk debug T t.2.2.2 k
    else partGeneral pk debug T t.2.2.2 false k)
  expand A.cols t.1 c pc

end Verif.Metis
