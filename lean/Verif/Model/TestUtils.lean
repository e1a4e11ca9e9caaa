import Verif.Model.Sparse

/-!
# Model: test_utils.cpp

utils/test_utils.cpp 12-119, include/aggregation/test_utils.h 42-76: random matrices, the comparisons of the
tests, the right-hand side of a blocked matrix.

Parameters: what `std::shuffle` and `rand` return is up to oracles (`shuf`, `val`); `density * n + 1`, truncated to
`int`, is the argument `k`.  `new CSC(n, n, nnz)`: include/aggregation/def.h 85-101.  `int` is not bounded, except in
the comparison of `nnz_per_col` with `n`.
-/

namespace Verif.TestU
open Res

variable {V : Type}

/-- `INT32_MAX`. -/
def int32Max : Nat := 2147483647

/-- `generate_uniq_rand_vector(m, n, rand_vec, seed)` for an empty `rand_vec` (utils/test_utils.cpp 19-31); `shuf` is
the call of `std::shuffle`. -/
def uniqRand (shuf : List Nat → List Nat) (m n : Nat) : Res (List Nat) := do
  let numbers ← forRange 0 n (fun i l => ok (l ++ [i])) ([] : List Nat)
  let numbers := shuf numbers
  forRange 0 m (fun j v => do
    let a ← rd numbers j
    ok (v ++ [a])) []

/-- `nnz_per_col > n ? n : nnz_per_col` (utils/test_utils.cpp 39): `int` against `size_t`, so a negative number counts
as larger than `n`. -/
def perCol (n : Nat) (k : Int) : Nat := if k < 0 ∨ (n : Int) < k then n else k.toNat

/-- The indices of column `i` (utils/test_utils.cpp 47-53). -/
def randCol (shuf : List Nat → List Nat) (k n i : Nat) : Res (List Nat) := do
  let v ← uniqRand shuf k n
  let v ← (if i ∈ v then ok v else wr v 0 i)
  ok (v.mergeSort (fun a b => decide (a ≤ b)))

/-- `random_square_sparse(n, density, ..)` (utils/test_utils.cpp 35-60); `none` is the null pointer.  Call `i` of
`std::shuffle` is `shuf i`, call `j` of `double_rand` returns `val j`. -/
def randomSquare [Zero V] (shuf : Nat → List Nat → List Nat) (val : Nat → V) (n : Nat) (k : Int) :
    Res (Option (Sp V)) := do
  let k := perCol n k
  if int32Max < n * k then ok none
  else do
    let p ← wr (List.replicate (Sp.newPtrLen n) 0) 0 0
    let s ← forRange 0 n (fun i (s : List Nat × List Nat × List V) => do
      let a ← rd s.1 i
      let p ← wr s.1 (i + 1) (a + k)
      let v ← randCol (shuf i) k n i
      let t ← forRange a (a + k) (fun j (t : List Nat × List V) => do
        let r ← rd v (j - a)
        let ix ← wr t.1 j r
        let xx ← wr t.2 j (val j)
        ok (ix, xx)) (s.2.1, s.2.2)
      ok (p, t.1, t.2)) (p, List.replicate (n * k) 0, List.replicate (n * k) 0)
    ok (some ⟨n, n, s.1, s.2.1, s.2.2⟩)

/-- The comparison `std::abs(a - b) > eps` and `std::isnan`, of any arithmetic. -/
structure Cmp (V : Type) where
  far : V → V → V → Bool
  isnan : V → Bool

/-- `for (i = lo; i < hi; ++i) if (bad) return false;` and `return true` at the end. -/
def checkAll (lo hi : Nat) (bad : Nat → Res Bool) : Res Bool := do
  let r ← forRangeB lo hi (fun i (_ : Unit) => do
    let b ← bad i
    ok (if b then Ctl.brk false else Ctl.next ())) ()
  match r with
  | .next _ => ok true
  | .brk b => ok b

/-- `is_equal(n, vec, val, eps)` (include/aggregation/test_utils.h 48-55). -/
def equalVal (C : Cmp V) (n : Nat) (vec : List V) (v eps : V) : Res Bool :=
  checkAll 0 n (fun i => do
    let a ← rd vec i
    ok (C.far eps a v))

/-- `is_equal(beg, end, vec1, vec2, eps)` (include/aggregation/test_utils.h 66-80). -/
def equalRange (C : Cmp V) (lo hi : Nat) (v w : List V) (eps : V) : Res Bool :=
  checkAll lo hi (fun i => do
    let a ← rd v i
    let b ← rd w i
    ok (C.isnan a || C.isnan b || C.far eps a b))

/-- `is_equal(CSC*, CSC*, eps)` (utils/test_utils.cpp 73-90); `na`, `nb` are the fields `nnz`. -/
def equalCsc (C : Cmp V) (A B : Sp V) (na nb : Nat) (eps : V) : Res Bool :=
  if A.cols ≠ B.cols ∨ na ≠ nb then ok false
  else do
    let r ← checkAll 0 (A.cols + 1) (fun j => do
      let a ← rd A.p j
      let b ← rd B.p j
      ok (decide (a ≠ b)))
    if r then do
      let r ← checkAll 0 na (fun j => do
        let a ← rd A.i j
        let b ← rd B.i j
        ok (decide (a ≠ b)))
      if r then
        checkAll 0 na (fun j => do
          let a ← rd A.x j
          let b ← rd B.x j
          ok (C.far eps a b))
      else ok false
    else ok false

/-- `rhs_init_blocked` (utils/test_utils.cpp 104-118). -/
def rhsBlocked [Zero V] [Add V] (n : Nat) (Ap Ai AiP : List Nat) (Ax b : List V) : Res (List V) := do
  let b ← forRange 0 n (fun j b => wr b j 0) b
  forRange 0 n (fun c b => do
    let lo ← rd Ap c
    let hi ← rd Ap (c + 1)
    forRange lo hi (fun cc b => do
      let q ← rd AiP c
      let r ← rd Ai (q + (cc - lo))
      let v ← rd b r
      let a ← rd Ax cc
      wr b r (v + a)) b) b

end Verif.TestU
