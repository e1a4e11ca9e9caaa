import Verif.Res
import Verif.Spec.Sparse

/-!
# Model: small utilities

utils/utils.cpp, utils/sparse_utilities.cpp, utils/sparse_io.cpp, utils/test_utils.cpp.
-/

namespace Verif.Util
open Res

/-! ### 64-bit sizes -/

/-- Number of values of `size_t`. -/
def W : Nat := 2 ^ 64

/-- `add_size_t` (utils/utils.cpp 50-54): result and the new value of `*ok`.  `size_t` arithmetic
is modulo `2^64`. -/
def addSizeT (a b : Nat) (okk : Bool) : Nat × Bool :=
  let s := (a + b) % W
  let okk := okk && decide (s ≥ a)
  (if okk then s else 0, okk)

/-- State of the loop in `mult_size_t`. -/
structure Mul where
  a : Nat
  k : Nat
  p : Nat
  okk : Bool

/-- One round of `while (*ok)` in `mult_size_t` (utils/utils.cpp 35-45). -/
def multStep (s : Mul) : Res (Ctl Mul (Nat × Bool)) :=
  if s.okk then
    let p := if s.k % 2 = 1 then (s.p + s.a) % W else s.p
    let okk := if s.k % 2 = 1 then decide (p ≥ s.a) else true
    let k := s.k / 2
    if k = 0 then ok (.brk (p, okk))
    else
      let d := (s.a + s.a) % W
      ok (.next ⟨d, k, p, okk && decide (d ≥ s.a)⟩)
  else ok (.brk (0, false))

/-- `mult_size_t` (utils/utils.cpp 33-47). -/
def multSizeT (a k : Nat) (okk : Bool) : Res (Nat × Bool) := loopF 66 multStep ⟨a, k, 0, okk⟩

/-! ### Permutations -/

/-- `inv_perm` (utils/sparse_utilities.cpp 1149-1153). -/
def invPerm (n : Nat) (perm iperm : List Nat) : Res (List Nat) :=
  forRange 0 n (fun k ip => do
    let v ← rd perm k
    wr ip v k) iperm

/-- `compute_inv_perm` (utils/sparse_utilities.cpp 495-503); `none` is `NULL`.  Entries are natural
numbers, so only the upper bound of the `assert` remains. -/
def computeInvPerm (dbg : Bool) (n : Nat) (perm pinv : List Nat) : Res (Option (List Nat)) :=
  if n = 0 then ok none else do
    let r ← forRange 0 n (fun k ip => do
      let v ← rd perm k
      if dbg && !decide (v < n) then exn else wr ip v k) pinv
    ok (some r)

/-- `reorder_array` (utils/sparse_utilities.cpp 1140-1147): new contents of `arr` and `ws`. -/
def reorderArray {V : Type} (n : Nat) (arr : List V) (perm : List Nat) (ws : List V) :
    Res (List V × List V) := do
  let ws ← forRange 0 n (fun k ws => do
    let j ← rd perm k
    let v ← rd arr j
    wr ws k v) ws
  let arr ← forRange 0 n (fun k arr => do
    let v ← rd ws k
    wr arr k v) arr
  ok (arr, ws)

/-- `test_unique` (utils/test_utils.cpp 120-134). -/
def testUnique (dbg : Bool) (n : Nat) (vec : List Nat) : Res Bool := do
  let tmp ← forRange 0 n (fun k tmp => do
    let v ← rd vec k
    if dbg && !decide (v < n) then exn else wr tmp v true) (List.replicate n false)
  let r ← forRangeB 0 n (fun k (_ : Unit) => do
    let b ← rd tmp k
    if !b then ok (.brk false) else ok (.next ())) ()
  match r with
  | .next _ => ok true
  | .brk b => ok b

/-! ### Dense matrices and triplets -/

variable {V : Type}

/-- `val[i][j]`. -/
def rd2 (val : List (List V)) (i j : Nat) : Res V := rd val i >>= fun row => rd row j

/-- `dense_to_csc` (utils/sparse_io.cpp 132-159); `nz v` is the test `v != 0`.
`dbg` switches on the `assert` of line 146. -/
def denseToCsc [Zero V] (dbg : Bool) (nz : V → Bool) (rows cols : Nat) (val : List (List V)) :
    Res (Sp V) := do
  let s ← forRange 0 cols (fun j s => forRange 0 rows (fun i (s : Nat × List Nat) => do
    let v ← rd2 val i j
    if nz v then do
      let c ← rd s.2 j
      let cs ← wr s.2 j (c + 1)
      ok (s.1 + 1, cs)
    else ok s) s) (0, List.replicate cols 0)
  let p ← forRange 0 cols (fun k p => do
    let a ← rd p k
    let b ← rd s.2 k
    wr p (k + 1) (a + b)) (List.replicate (if cols = 0 then 0 else cols + 1) 0)
  if dbg then do
    let last ← rd p cols
    if last ≠ s.1 then exn else ok ()
  let t ← forRange 0 cols (fun j t => forRange 0 rows (fun i (t : Nat × List Nat × List V) => do
    let v ← rd2 val i j
    if nz v then do
      let is ← wr t.2.1 t.1 i
      let xs ← wr t.2.2 t.1 v
      ok (t.1 + 1, is, xs)
    else ok t) t) (0, List.replicate s.1 0, List.replicate s.1 0)
  ok ⟨rows, cols, p, t.2.1, t.2.2⟩

/-- A triplet `(row, column, value)`. -/
abbrev Trip (V : Type) := Nat × Nat × V

/-- The comparison of lines 382-383: column first, then row. -/
def tripLt (a b : Trip V) : Bool :=
  decide (a.2.1 < b.2.1) || (decide (a.2.1 = b.2.1) && decide (a.1 < b.1))

/-- `vec.insert(vec.begin() + k, t)`. -/
def insertAt {α : Type} (l : List α) (k : Nat) (t : α) : Res (List α) :=
  if k ≤ l.length then ok (l.take k ++ t :: l.drop k) else Res.ub

/-- `compress_triplets_to_csc` (utils/sparse_io.cpp 378-402) after the `std::sort`: `vec` is the
sorted vector, `rows`, `cols`, `nnz` are the fields of `A`, whose arrays have `cols + 1` and `nnz`
elements.  `dbg` switches on the `assert` of line 380. -/
def compressSorted [Zero V] (dbg addDiags : Bool) (rows cols nnz : Nat) (vec : List (Trip V)) :
    Res (Sp V) := do
  if dbg && !decide (nnz = vec.length) then exn else ok ()
  let cnt ← forRange 0 nnz (fun k cnt => do
    let t ← rd vec k
    let c ← rd cnt t.2.1
    wr cnt t.2.1 (c + 1)) (List.replicate cols 0)
  let p ← wr (List.replicate (if cols = 0 then 0 else cols + 1) 0) 0 0
  let s ← forRange 0 cols (fun j (s : List Nat × List (Trip V)) => do
    let c ← rd cnt j
    let a ← rd s.1 j
    if c = 0 ∧ addDiags then do
      let vec ← insertAt s.2 a (j, j, 0)
      let p ← wr s.1 (j + 1) (a + 1)
      ok (p, vec)
    else do
      let p ← wr s.1 (j + 1) (a + c)
      ok (p, s.2)) (p, vec)
  let t ← forRange 0 nnz (fun k (t : List Nat × List V) => do
    let e ← rd s.2 k
    let i ← wr t.1 k e.1
    let x ← wr t.2 k e.2.2
    ok (i, x)) (List.replicate nnz 0, List.replicate nnz 0)
  ok ⟨rows, cols, s.1, t.1, t.2⟩

/-- `rhs_init` (utils/test_utils.cpp 93-103). -/
def rhsInit [Zero V] [Add V] (n : Nat) (A : Sp V) (b : List V) : Res (List V) := do
  let b ← forRange 0 n (fun j b => wr b j 0) b
  forRange 0 n (fun c b => do
    let lo ← rd A.p c
    let hi ← rd A.p (c + 1)
    forRange lo hi (fun k b => do
      let r ← rd A.i k
      let v ← rd b r
      let a ← rd A.x k
      wr b r (v + a)) b) b

end Verif.Util
