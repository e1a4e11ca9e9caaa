import Verif.Model.Harness

/-!
# Model: the unit test of the project, Catch_tests/sptrsv_tests.cpp

Output, command line and directory reading are left out; the matrix is an argument.
-/

namespace Verif.UnitTest
open Res TestU Harness Exec Sp

variable {V : Type} [Zero V] [One V]

/-- `testSptrsvCsr`, Catch_tests/sptrsv_tests.cpp 26-50.  `nnz` is `L->nnz`, `sch` the interleaving of the parallel
solve; the constructor of the CSR matrix is given the numbers of rows and columns, which are equal here. -/
def testSptrsvCsr (A : Arith V) (C : Cmp V) (eps : V) (L : Sp V) (nnz : Nat) (sch : Nat → List Nat) : Res Bool := do
  let o ← LevelSet.buildLevelSet L.cols L.p L.i
  let B ← cscToCsr L nnz false
  let ys ← fillN L.cols 1 (List.replicate L.cols 0)
  let ys ← sptrsvCsr A B.cols B.p B.i B.x ys
  let yp ← fillN L.cols 1 (List.replicate L.cols 0)
  let yp ← sptrsvLevelset A B.p B.i B.x o.ret.toNat o.levelPtr o.levelSet sch yp
  equalRange C 0 L.cols ys yp eps

/-- One round of the first section, Catch_tests/sptrsv_tests.cpp 60-71: `k` is `density * n + 1`; `A->n` of a null
pointer is undefined. -/
def randomTest (A : Arith V) (C : Cmp V) (eps : V) (shuf : Nat → List Nat → List Nat) (val : Nat → V) (n : Nat) (k : Int)
    (sch : Nat → List Nat) : Res Bool := do
  let r ← randomSquare shuf val n k
  match r with
  | none => ub
  | some M => do
    let L ← makeHalf M false true
    let nnz ← rd L.p L.cols
    testSptrsvCsr A C eps L nnz sch

end Verif.UnitTest
