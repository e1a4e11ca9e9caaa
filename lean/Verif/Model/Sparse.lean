import Verif.Res
import Verif.Spec.Sparse

/-!
# Model: sparse matrix conversions

utils/sparse_utilities.cpp and utils/sparse_io.cpp.  Matrices are `Sp` values; arrays allocated with
`new T[k]()` are lists of `k` zeros, arrays that the constructors `CSC`/`CSR` leave `NULL`
(include/aggregation/def.h 85-119, 192-226) are empty lists, so any access to them is undefined
behaviour.  `pat` is the flag `is_pattern`; in a pattern the value array is `NULL`.  The field `nnz`
(number of allocated entries) is a separate argument.

Simplification: `int` is not bounded, negative indices do not occur (index arrays are lists of
natural numbers).
-/

namespace Verif.Sp
open Res

variable {V : Type}

/-- `rowCnt[Ai[k]]++` for all `k < nnz` (utils/sparse_utilities.cpp 28-31, 64-67; 172-175). -/
def countRows (A : Sp V) (nnz rows : Nat) : Res (List Nat) :=
  forRange 0 nnz (fun k cnt => do
    let r ← rd A.i k
    let v ← rd cnt r
    wr cnt r (v + 1)) (List.replicate rows 0)

/-- The row pointer with a running counter (utils/sparse_utilities.cpp 33-39, 69-77).
`len` is the number of allocated pointers. -/
def runningPtr (cnt : List Nat) (rows nnz len : Nat) : Res (List Nat) := do
  let s ← forRange 0 rows (fun k (s : List Nat × Nat) => do
    let p ← wr s.1 k s.2
    let v ← rd cnt k
    ok (p, s.2 + v)) (List.replicate len 0, 0)
  wr s.1 rows nnz

/-- State of the placing loops: entries already placed in each row, index array, value array. -/
structure Place (V : Type) where
  cnt : List Nat
  i : List Nat
  x : List V

/-- One entry is placed: `index = ptr[t] + cnt[t]; i[index] = k; x[index] = v; cnt[t]++`. -/
def place (ptr : List Nat) (pat : Bool) (t k : Nat) (v : Res V) (s : Place V) : Res (Place V) := do
  let b ← rd ptr t
  let q ← rd s.cnt t
  let i ← wr s.i (b + q) k
  let x ← if pat then ok s.x else v >>= wr s.x (b + q)
  let cnt ← wr s.cnt t (q + 1)
  ok ⟨cnt, i, x⟩

/-- Entry `j` of column `c` goes to row `Ai[j]` (utils/sparse_utilities.cpp 45-52, 84-90; 182-191). -/
def placeCols (A : Sp V) (ptr : List Nat) (pat : Bool) (s : Place V) : Res (Place V) :=
  forRange 0 A.cols (fun c s => do
    let lo ← rd A.p c
    let hi ← rd A.p (c + 1)
    forRange lo hi (fun j s => do
      let r ← rd A.i j
      place ptr pat r c (rd A.x j) s) s) s

/-- Value array of a new matrix with `k` allocated entries. -/
def newVals [Zero V] (pat : Bool) (k : Nat) : List V := if pat then [] else List.replicate k 0

/-- Pointer array of a new matrix with `k` compressed columns: `NULL` for `k = 0`. -/
def newPtrLen (k : Nat) : Nat := if k = 0 then 0 else k + 1

/-- `csc_to_csr` on arrays (utils/sparse_utilities.cpp 23-56).  The result, a CSR matrix, is an `Sp`
with rows and columns exchanged. -/
def cscToCsrArrays [Zero V] (A : Sp V) : Res (Sp V) := do
  let nnz ← rd A.p A.cols
  let cnt ← countRows A nnz A.rows
  let ptr ← runningPtr cnt A.rows nnz (A.rows + 1)
  let s ← placeCols A ptr false
    ⟨List.replicate A.rows 0, List.replicate nnz 0, List.replicate nnz 0⟩
  ok ⟨A.cols, A.rows, ptr, s.i, s.x⟩

/-- `csc_to_csr(CSC*)` (utils/sparse_utilities.cpp 58-93); `nnz` is `A->nnz`. -/
def cscToCsr [Zero V] (A : Sp V) (nnz : Nat) (pat : Bool) : Res (Sp V) := do
  let used ← rd A.p A.cols
  let cnt ← countRows A used A.rows
  let ptr ← runningPtr cnt A.rows used (newPtrLen A.rows)
  let s ← placeCols A ptr pat ⟨List.replicate A.rows 0, List.replicate nnz 0, newVals pat nnz⟩
  ok ⟨A.cols, A.rows, ptr, s.i, s.x⟩

/-- `csr_to_csc` on arrays (utils/sparse_utilities.cpp 104-107): `csc_to_csr` with the roles of rows
and columns exchanged.  `B` is the CSR matrix as an `Sp` (compressed dimension: rows), so it is
already in the form `csc_to_csr` expects. -/
def csrToCscArrays [Zero V] (B : Sp V) : Res (Sp V) := cscToCsrArrays B

/-- `csr_to_csc(CSR*)` (utils/sparse_utilities.cpp 109-116) calls `csc_to_csr(A->m, A->n, ...)`
without exchanging the numbers of rows and columns.  `B` is the CSR matrix as an `Sp`, so `A->m` is
`B.cols` and `A->n` is `B.rows`. -/
def csrToCsc [Zero V] (B : Sp V) : Res (Sp V) :=
  cscToCsrArrays ⟨B.cols, B.rows, B.p, B.i, B.x⟩

/-- Column pointer of the transpose (utils/sparse_utilities.cpp 176-180). -/
def prefixPtr (cnt : List Nat) (rows len : Nat) : Res (List Nat) := do
  let p ← wr (List.replicate len 0) 0 0
  forRange 1 (rows + 1) (fun j p => do
    let a ← rd p (j - 1)
    let b ← rd cnt (j - 1)
    wr p j (a + b)) p

/-- `transpose_general` (utils/sparse_utilities.cpp 163-195); `none` is the result `NULL`.
`dbg` switches on the `assert` of line 185. -/
def transposeGeneral [Zero V] (dbg : Bool) (A : Sp V) (nnz : Nat) (pat : Bool) :
    Res (Option (Sp V)) :=
  if A.rows = 0 then ok none else do
    let used ← rd A.p A.cols
    let cnt ← countRows A used A.rows
    let ptr ← prefixPtr cnt A.rows (newPtrLen A.rows)
    let s ← forRange 0 A.cols (fun c s => do
      let lo ← rd A.p c
      let hi ← rd A.p (c + 1)
      forRange lo hi (fun j s => do
        let r ← rd A.i j
        if dbg then do
          let b ← rd ptr r
          let q ← rd s.cnt r
          if b + q < nnz then place ptr pat r c (rd A.x j) s else exn
        else place ptr pat r c (rd A.x j) s) s)
      ⟨List.replicate A.rows 0, List.replicate nnz 0, newVals pat nnz⟩
    ok (some ⟨A.cols, A.rows, ptr, s.i, s.x⟩)

/-- The test `lower ? Ai[j] >= i : Ai[j] <= i` (utils/sparse_utilities.cpp 203, 217). -/
def keep (lower : Bool) (r c : Nat) : Bool := if lower then decide (c ≤ r) else decide (r ≤ c)

/-- `make_half` (utils/sparse_utilities.cpp 198-227); `pat` is `Ax == NULL`.  Only `An` columns
and as many rows. -/
def makeHalf [Zero V] (A : Sp V) (pat lower : Bool) : Res (Sp V) := do
  let bnz ← forRange 0 A.cols (fun c s => do
    let lo ← rd A.p c
    let hi ← rd A.p (c + 1)
    forRange lo hi (fun j s => do
      let r ← rd A.i j
      ok (if keep lower r c then s + 1 else s)) s) 0
  let s ← forRange 0 A.cols (fun c (s : List Nat × List Nat × List V × Nat) => do
    let lo ← rd A.p c
    let hi ← rd A.p (c + 1)
    let t ← forRange lo hi (fun j (t : List Nat × List V × Nat) => do
      let r ← rd A.i j
      if keep lower r c then do
        let i ← wr t.1 t.2.2 r
        let x ← if pat then ok t.2.1 else rd A.x j >>= wr t.2.1 t.2.2
        ok (i, x, t.2.2 + 1)
      else ok t) s.2
    let p ← wr s.1 (c + 1) t.2.2
    ok (p, t)) (List.replicate (newPtrLen A.cols) 0, List.replicate bnz 0, newVals pat bnz, 0)
  ok ⟨A.cols, A.cols, s.1, s.2.1, s.2.2.1⟩

/-- `make_full` (utils/sparse_utilities.cpp 229-270); `stype0` is `A->stype == 0`, `nnz` is
`A->nnz`; `none` is the result `nullptr`.  The value array of `A` is always read. -/
def makeFull [Zero V] (A : Sp V) (stype0 : Bool) (nnz : Nat) : Res (Option (Sp V)) :=
  if stype0 then ok none else do
    let ind ← forRange 0 A.cols (fun c s => do
      let lo ← rd A.p c
      let hi ← rd A.p (c + 1)
      forRange lo hi (fun j ind => do
        let r ← rd A.i j
        let v ← rd ind c
        let ind ← wr ind c (v + 1)
        if r ≠ c then do
          let v ← rd ind r
          wr ind r (v + 1)
        else ok ind) s) (List.replicate A.cols 0)
    let p0 ← wr (List.replicate (newPtrLen A.cols) 0) 0 0
    let ptr ← forRange 0 A.cols (fun c p => do
      let a ← rd p c
      let b ← rd ind c
      wr p (c + 1) (a + b)) p0
    let s ← forRange 0 A.cols (fun c s => do
      let lo ← rd A.p c
      let hi ← rd A.p (c + 1)
      forRange lo hi (fun j s => do
        let r ← rd A.i j
        let s ← place ptr false c r (rd A.x j) s
        if r ≠ c then place ptr false r c (rd A.x j) s else ok s) s)
      ⟨List.replicate A.cols 0, List.replicate (nnz * 2) 0, List.replicate (nnz * 2) 0⟩
    ok (some ⟨A.rows, A.cols, ptr, s.i, s.x⟩)

/-- `f ? f[k] : k` (utils/sparse_utilities.cpp 1167, 1171). -/
def renRd (f : Option (List Nat)) (k : Nat) : Res Nat :=
  match f with
  | some l => rd l k
  | none => ok k

/-- `permute_general` (utils/sparse_utilities.cpp 1156-1176); `q = none` / `pinv = none` are the
null pointers, `nnz` is `A->nnz`.  `Cx` is non-null iff `A->nnz > 0`. -/
def permuteGeneral [Zero V] (A : Sp V) (nnz : Nat) (pinv q : Option (List Nat)) : Res (Sp V) := do
  let s ← forRange 0 A.cols (fun k (s : List Nat × List Nat × List V × Nat) => do
    let p ← wr s.1 k s.2.2.2
    let j ← renRd q k
    let lo ← rd A.p j
    let hi ← rd A.p (j + 1)
    let t ← forRange lo hi (fun t (s : List Nat × List V × Nat) => do
      let x ← if 0 < nnz then rd A.x t >>= wr s.2.1 s.2.2 else ok s.2.1
      let r ← rd A.i t
      let r ← renRd pinv r
      let i ← wr s.1 s.2.2 r
      ok (i, x, s.2.2 + 1)) s.2
    ok (p, t)) (List.replicate (newPtrLen A.cols) 0, List.replicate nnz 0, List.replicate nnz 0, 0)
  let p ← wr s.1 A.cols s.2.2.2
  ok ⟨A.rows, A.cols, p, s.2.1, s.2.2.1⟩

/-- `copy_sparse` (utils/sparse_utilities.cpp 506-517). -/
def copySparse [Zero V] (A : Sp V) (nnz : Nat) : Res (Sp V) := do
  let p ← forRange 0 (A.cols + 1) (fun k p => rd A.p k >>= wr p k)
    (List.replicate (newPtrLen A.cols) 0)
  let s ← forRange 0 nnz (fun k (s : List Nat × List V) => do
    let i ← rd A.i k >>= wr s.1 k
    let x ← rd A.x k >>= wr s.2 k
    ok (i, x)) (List.replicate nnz 0, List.replicate nnz 0)
  ok ⟨A.rows, A.cols, p, s.1, s.2⟩

/-- `copy_from_to` for CSC matrices (utils/sparse_utilities.cpp 529-537); the version for CSR
matrices (519-527) is the same with rows and columns exchanged.  The statement
`dst->p[i] = dst->p[i]` is kept. -/
def copyFromTo (src dst : Sp V) : Res (Sp V) := do
  let s ← forRange 0 src.cols (fun c (s : List Nat × List Nat × List V) => do
    let p ← rd s.1 c >>= wr s.1 c
    let lo ← rd src.p c
    let hi ← rd src.p (c + 1)
    let t ← forRange lo hi (fun j (t : List Nat × List V) => do
      let i ← rd src.i j >>= wr t.1 j
      let x ← rd src.x j >>= wr t.2 j
      ok (i, x)) s.2
    ok (p, t)) (dst.p, dst.i, dst.x)
  ok { dst with p := s.1, i := s.2.1, x := s.2.2 }

/-- `number_empty_col` (utils/sparse_utilities.cpp 545-553). -/
def numberEmptyCol (A : Sp V) : Res Nat :=
  forRange 0 A.cols (fun c cnt => do
    let hi ← rd A.p (c + 1)
    let lo ← rd A.p c
    ok (if (hi : Int) - lo = 0 then cnt + 1 else cnt)) 0

end Verif.Sp
