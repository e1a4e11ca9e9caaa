import Verif.Model.Lbc
import Verif.Model.LbcDemo
import Verif.Model.LbcSeq
import Verif.Model.LevelSet
import Verif.Model.Measure
import Verif.Model.Prepare
import Verif.Model.MtxRead

/-!
# Model: the program example/old/sptrsv_dag_test.cpp, which times the inspectors

Left out: command line (its numbers are parameters), the name of the matrix, freeing of memory.
-/

namespace Verif.DagTest
open Res Sp Mtx Prepare

variable {V K T : Type} [Zero V] [Add K] [LT K] [DecidableLT K]

/-- What is not determined by the matrix.  Index `r` is the number of the run (lines 94-124): `P r` has the interleavings
of the run, `xi0`, `ps0`, `lab0` the contents of new arrays, `assign` the distribution of the windows, `time` the time
measured.  `(P r).innerParts` is `num_threads`. -/
structure Env (K T : Type) where
  P : Nat → Lbc.Params K
  conv : Int → K
  zero : K
  p2 : Int
  p3 : Int
  xi0 : Nat → List Nat
  ps0 : Nat → List Nat
  lab0 : Nat → List Int
  assign : Nat → List Nat → List (List Nat)
  time : Nat → T
  srt : List T → List T
  minusOne : T

/-- What an inspector makes: level sets (`mode` 2) or a schedule. -/
inductive Product where
  | levels (o : LevelSet.Out)
  | sched (s : Sched)

/-- One run, example/old/sptrsv_dag_test.cpp:96-122.  The return value of `build_levelSet_CSC` is not looked at. -/
def inspect (E : Env K T) (mode : Int) (L : Sp V) (cost : List K) (r : Nat) : Res Product :=
  if mode = 2 then do
    let o ← LevelSet.buildLevelSet L.cols L.p L.i
    ok (.levels o)
  else if mode = 1 then do
    let s ← Lbc.coarsenSeq (E.P r) L.cols L.p L.i E.p2 E.p3 cost E.zero (E.xi0 r) (E.ps0 r)
    ok (.sched s)
  else do
    let s ← Lbc.coarsenParallel (E.P r) L.cols L.p L.i E.p2 E.p3 cost E.zero (E.lab0 r) (E.assign r)
    ok (.sched s)

/-- What the ten runs made, and the time that is printed. -/
structure Report (T : Type) where
  products : List Product
  median : T

/-- example/old/sptrsv_dag_test.cpp:79-128, from the reordered matrix on. -/
def measure (E : Env K T) (mode : Int) (L : Sp V) (nnz : Nat) : Res (Report T) := do
  let B ← cscToCsr L nnz false
  let cost ← Lbc.rowCosts E.conv E.zero L.cols B.p
  let ps ← forRange 0 10 (fun r (acc : List Product × List T) => do
    let x ← inspect E mode L cost r
    ok (acc.1 ++ [x], acc.2 ++ [E.time r])) ([], [])
  let t ← Measure.timeMedian E.srt E.minusOne ps.2
  ok ⟨ps.1, t⟩

/-- The program, example/old/sptrsv_dag_test.cpp:38-128, with METIS (`some nd`) or without; `none` is the return value
-1. -/
def program (E : Env K T) (mode : Int) (metis : Option Metis.NodeND) (debug : Bool) (scanVal : Text → Scan V)
    (fuel : Nat) (txt : Text) : Res (Option (Report T)) := do
  let r ← readMtxText scanVal fuel txt
  match r with
  | .matrix M stype => do
    let g ← (match metis with
      | none => ok (M, stype, M.i.length)
      | some nd => reorder nd debug M stype M.i.length : Res (Sp V × Int × Nat))
    let out ← measure E mode g.1 g.2.2
    ok (some out)
  | .null => ok none
  | .negative => ub -- an index before the start of an array

end Verif.DagTest
