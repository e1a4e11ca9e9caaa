import Verif.Model.Sparse
import Verif.Model.TreeUtil

/-!
# Model: small matrix utilities

utils/sparse_utilities.cpp 94-102, 117-160, 738-765 and utils/sparse_io.cpp 113-130.
-/

namespace Verif.SmallU
open Res Sp

variable {V : Type}

/-- `verify_csc_diagonal` (utils/sparse_utilities.cpp 94-102). -/
def verifyDiag (A : Sp V) : Res Bool := do
  let r ← forRangeB 0 A.cols (fun c (_ : Unit) => do
    let a ← rd A.p c
    let r ← rd A.i a
    ok (if r ≠ c then Ctl.brk false else Ctl.next ())) ()
  match r with
  | .next _ => ok true
  | .brk b => ok b

/-- State of `tridiag`: pointers, indices, values and `ind`. -/
structure Tri (V : Type) where
  p : List Nat
  i : List Nat
  x : List V
  ind : Nat

/-- `A->i[k] = r; A->x[k] = v`. -/
def Tri.put (s : Tri V) (k r : Nat) (v : V) : Res (Tri V) := do
  let i ← wr s.i k r
  let x ← wr s.x k v
  ok { s with i := i, x := x }

/-- `tridiag(n, a0, a1, a2)` (utils/sparse_utilities.cpp 117-151).  For `n = 0` the constructor is asked for `2^64 - 2`
entries and throws. -/
def tridiag [Zero V] (n : Nat) (a0 a1 a2 : V) : Res (Sp V) :=
  if n = 0 then exn else do
  let p ← wr (List.replicate (newPtrLen n) 0) 0 0
  let s ← forRange 0 n (fun i (s : Tri V) =>
    if i = 0 ∨ i + 1 = n then do
      let a ← rd s.p i
      let p ← wr s.p (i + 1) (a + 2)
      let s := { s with p := p }
      let s ← (if i = 0 then do
          let s ← s.put s.ind i a1
          s.put (s.ind + 1) (i + 1) a2
        else do
          let s ← s.put s.ind (i - 1) a0
          s.put (s.ind + 1) i a1)
      ok { s with ind := s.ind + 2 }
    else do
      let a ← rd s.p i
      let p ← wr s.p (i + 1) (a + 3)
      let s := { s with p := p }
      let s ← s.put s.ind (i - 1) a0
      let s ← s.put (s.ind + 1) i a1
      let s ← s.put (s.ind + 2) (i + 1) a2
      ok { s with ind := s.ind + 3 })
    ⟨p, List.replicate (3 * n - 2) 0, List.replicate (3 * n - 2) 0, 0⟩
  ok ⟨n, n, s.p, s.i, s.x⟩

/-- `tree_to_csc(n, tree)` (utils/sparse_utilities.cpp 154-160): a pattern of `n` columns. -/
def treeToCsc (n : Nat) (tree : List Int) : Res Csc := do
  let r ← Tree.populateChildren n tree (List.replicate (n + 1) 0) (List.replicate n 0) (List.replicate n 0)
  ok ⟨n, r.1, r.2.1⟩

/-- `sparse2dense(A, D)` (utils/sparse_utilities.cpp 739-750); `sym` is `stype == -1 || stype == 1`. -/
def sparse2dense [Zero V] (A : Sp V) (sym : Bool) (D : List V) : Res (List V) := do
  let D ← forRange 0 (A.cols * A.rows) (fun k D => wr D k 0) D
  forRange 0 A.cols (fun c D => do
    let lo ← rd A.p c
    let hi ← rd A.p (c + 1)
    forRange lo hi (fun j D => do
      let r ← rd A.i j
      let v ← rd A.x j
      let D ← wr D (c * A.rows + r) v
      if sym then wr D (r * A.cols + c) v else ok D) D) D

/-- `extract_diagonals(n, Ap, Ai)` (utils/sparse_utilities.cpp 753-765).  `ret` is the array returned by `new int[n]`,
whose elements are not initialised. -/
def extractDiag (A : Csc) (ret : List Nat) : Res (List Nat) :=
  forRange 0 A.n (fun c ret => do
    let lo ← rd A.p c
    let hi ← rd A.p (c + 1)
    let r ← forRangeB lo hi (fun j (ret : List Nat) => do
      let r ← rd A.i j
      if r = c then do
        let ret ← wr ret c j
        ok (Ctl.brk ret)
      else ok (Ctl.next ret)) ret
    match r with
    | .next ret => ok ret
    | .brk ret => ok ret) ret

/-- `convert_to_one_based(A)` (utils/sparse_io.cpp 113-130); `nnz` is `A->nnz`. -/
def oneBased [Zero V] (A : Sp V) (nnz : Nat) (pat : Bool) : Res (Sp V) := do
  let s ← forRange 0 nnz (fun j (s : List Nat × List V) => do
    let a ← rd A.i j
    let i ← wr s.1 j (a + 1)
    if pat then ok (i, s.2)
    else do
      let v ← rd s.2 j
      let x ← wr s.2 j v
      ok (i, x)) (List.replicate nnz 0, newVals pat nnz)
  let p ← forRange 0 (A.cols + 1) (fun k p => do
    let a ← rd A.p k
    wr p (k + 1) a) (List.replicate (newPtrLen (A.cols + 1)) 0)
  ok ⟨A.rows, A.cols, p, s.1, s.2⟩

end Verif.SmallU
