import Verif.Model.Sparse

/-!
# Model: `transpose_symmetric` (utils/sparse_utilities.cpp 273-474)

The four copies of each loop (permuted or not, upper or lower triangle) differ in the column they
read, in the triangle they keep and in the place they write to; these three choices are functions
here.  Entries of `Perm` are natural numbers, so the test `i < 0` of line 309 does not occur.
`nnz` is `A->nnz`, `pat` is `A->is_pattern`, `stype` is `A->stype`.
-/

namespace Verif.TransSym
open Res Sp

variable {V : Type}

/-- One step of the check of `Perm`, sparse_utilities.cpp:307-313; -1 is `none`.  The test is
`i > n`, not `i >= n`, and `Pinv` has `n` elements. -/
def pinvStep (n : Nat) (perm : List Nat) (k : Nat) (pinv : List (Option Nat)) :
    Res (Ctl (List (Option Nat)) Unit) := do
  let i ← rd perm k
  if n < i then ok (Ctl.brk ()) else do
    let q ← rd pinv i
    if q ≠ none then ok (Ctl.brk ()) else do
      let pinv ← wr pinv i (some k)
      ok (Ctl.next pinv)

/-- Lines 303-314: `brk` is the result `NULL`.  Without permutation nothing happens. -/
def buildPinv (n : Nat) : Option (List Nat) → Res (Ctl (Option (List (Option Nat))) Unit)
  | none => ok (Ctl.next none)
  | some perm => do
    let r ← forRangeB 0 n (pinvStep n perm) (List.replicate n none)
    match r with
    | .brk () => ok (Ctl.brk ())
    | .next pinv => ok (Ctl.next (some pinv))

/-- `i = Pinv[iold]`, or `i = Ai[p]` without permutation.  A value -1 would be used as an index. -/
def newRow (pinv : Option (List (Option Nat))) (iold : Nat) : Res Nat :=
  match pinv with
  | none => ok iold
  | some l => do
    let q ← rd l iold
    match q with
    | some i => ok i
    | none => ub

/-- The loops over the kept entries, lines 320-372 and 388-468: `body i j p` with the new row, the
new column and the storage position. -/
def forKept {σ : Type} (A : Sp V) (n : Nat) (perm : Option (List Nat))
    (pinv : Option (List (Option Nat))) (upper : Bool) (body : Nat → Nat → Nat → σ → Res σ) (s : σ) :
    Res σ :=
  forRange 0 n (fun j s => do
    let jold ← renRd perm j
    let lo ← rd A.p jold
    let hi ← rd A.p (jold + 1)
    forRange lo hi (fun p s => do
      let iold ← rd A.i p
      if keep (!upper) iold jold then do
        let i ← newRow pinv iold
        body i j p s
      else ok s) s) s

/-- The counter incremented, lines 330, 343, 356, 367. -/
def countKey (permute upper : Bool) (i j : Nat) : Nat :=
  if permute then (if upper then min i j else max i j) else i

/-- The column of `F` and the row index written, lines 399-407, 423-431, 447-448, 462-463. -/
def target (permute upper : Bool) (i j : Nat) : Nat × Nat :=
  if permute then
    if upper then (if i < j then (i, j) else (j, i)) else (if j < i then (i, j) else (j, i))
  else (i, j)

/-- The arrays `Wi`, `Fi` and `Fx`. -/
structure St (V : Type) where
  w : List Nat
  i : List Nat
  x : List V

/-- `fp = Wi[t]++; Fi[fp] = r; if (is_np) Fx[fp] = Ax[p];` -/
def placeSym (A : Sp V) (pat : Bool) (t r p : Nat) (s : St V) : Res (St V) := do
  let fp ← rd s.w t
  let w ← wr s.w t (fp + 1)
  let i ← wr s.i fp r
  let x ← if pat then ok s.x else rd A.x p >>= wr s.x fp
  ok ⟨w, i, x⟩

/-- `transpose_symmetric`, sparse_utilities.cpp:273-474: the result `NULL`, or the matrix and its
`stype`. -/
def transposeSymmetric [Zero V] (A : Sp V) (stype : Int) (nnz : Nat) (pat : Bool)
    (perm : Option (List Nat)) : Res (Option (Sp V × Int)) :=
  if stype = 0 ∨ A.rows ≠ A.cols then ok none else do
  let n := A.rows
  let upper := decide (0 < stype)
  let pv ← buildPinv n perm
  match pv with
  | .brk () => ok none
  | .next pinv => do
    let cnt ← forKept A n perm pinv upper (fun i j _ cnt => do
      let t := countKey perm.isSome upper i j
      let v ← rd cnt t
      wr cnt t (v + 1)) (List.replicate n 0)
    let s ← forRange 0 n (fun k (s : List Nat × Nat) => do
      let p ← wr s.1 k s.2
      let v ← rd cnt k
      ok (p, s.2 + v)) (List.replicate (newPtrLen n) 0, 0)
    let fptr ← wr s.1 n s.2
    let w ← forRange 0 n (fun k w => do
      let v ← rd fptr k
      wr w k v) cnt
    if nnz < s.2 then ok none else do
      let r ← forKept A n perm pinv upper (fun i j p s =>
        placeSym A pat (target perm.isSome upper i j).1 (target perm.isSome upper i j).2 p s)
        ⟨w, List.replicate nnz 0, List.replicate nnz 0⟩
      ok (some (⟨A.cols, A.rows, fptr, r.i, r.x⟩, -stype))

end Verif.TransSym
