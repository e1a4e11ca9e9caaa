import Verif.Model.Harness
import Verif.Model.Ic0Demo
import Verif.Model.Prepare
import Verif.Model.MtxRead

/-!
# Model: the demo program for incomplete Cholesky factorisations, example/old/spico_csc_demo.cpp

The classes of example/old/spic0_demo_utils.h overwrite `setting_up` and `testing` of `FusionDemo`: a run begins with a
copy of the matrix, and the values of the factor are compared.  Timers, command line, output and the random matrix are
left out; so is `x_`, which the factorisation does not use, except for the `fill_n`.
-/

namespace Verif.Ic0Main
open Res TestU Measure Exec Sp Prepare Harness Mtx

variable {V S T K : Type} [Zero V] [One V]

/-- An object of a class derived from `Spic0CSCSerial`: `n_`, `num_test_`, `correct_x_`, `A_csc_`, `build_set` with its
two results, `factor_` and what the inspector has found, and `fused_code`: the values of the factor after run `k`. -/
structure FDemo (V S T : Type) where
  n : Nat
  numTest : Nat
  correct : Option (List V)
  A : Sp V
  build : Res (Sp V × S)
  fused : Nat → S → Sp V → Res (List V)
  time : Nat → T

/-- `factor_`, `x_` and the times of the runs so far. -/
structure FMem (V T : Type) where
  factor : Sp V
  x : List V
  times : List T

/-- One run, utils/FusionDemo.cpp 84-97: `setting_up` (spic0_demo_utils.h 78-81), then `fused_code`. -/
def oneRunF (D : FDemo V S T) (s : S) (k : Nat) (m : FMem V T) : Res (FMem V T) := do
  let x ← fillN D.n 1 m.x
  let f ← copyFromTo D.A m.factor
  let v ← D.fused k s f
  ok ⟨{ f with x := v }, x, m.times ++ [D.time k]⟩

/-- `testing`, spic0_demo_utils.h 93-97: is the message printed?  `factor_->nnz` was set by `csr_to_csc`
(utils/sparse_utilities.cpp 114) and stays the same. -/
def testingF (C : Cmp V) (eps : V) (D : FDemo V S T) (nnz : Nat) (factor : Sp V) : Res Bool :=
  match D.correct with
  | none => ok false
  | some c => do
    let r ← equalRange C 0 nnz c factor.x eps
    ok (!r)

/-- `evaluate`, utils/FusionDemo.cpp 77-102; the solution is `Factor()` (spic0_demo_utils.h 115). -/
def evaluateF (C : Cmp V) (eps : V) (srt : List T → List T) (minusOne : T) (D : FDemo V S T) : Res (Outcome V T) := do
  let b ← D.build
  let nnz ← rd b.1.p b.1.cols
  let m ← forRange 0 D.numTest (oneRunF D b.2) ⟨b.1, List.replicate D.n 0, []⟩
  let a ← testingF C eps D nnz m.factor
  let t ← timeMedian srt minusOne m.times
  ok ⟨m.factor.x, a, t⟩

/-- `build_set` of a derived class: `Spic0CSCSerial::build_set` (spic0_demo_utils.h 73-76), then the inspector. -/
def withFactor (B : Sp V) (inspect : Res S) : Res (Sp V × S) := do
  let f ← csrToCsc B
  let s ← inspect
  ok (f, s)

/-- What is not determined by the program: the arithmetic, the comparison and its tolerance, sorting of times, the
parameters of LBC (`P.innerParts` is `num_threads`, `p2`, `p3`, spico_csc_demo.cpp 30-31 and 55-60), the order in which
the threads of the inspector of object `i` enter the edges between groups, contents of new arrays. -/
structure Env (V T K : Type) where
  A : IcArith V
  C : Cmp V
  eps : V
  srt : List T → List T
  minusOne : T
  P : Lbc.Params K
  conv : Int → K
  zero : K
  p2 : Int
  p3 : Int
  order : Nat → List (List Nat) → List (Nat × Nat)
  xi0 : Nat → List Nat
  ps0 : Nat → List Nat
  time : Nat → Nat → T

/-- What the seven objects report. -/
structure Report (V T : Type) where
  serial : Outcome V T
  levelset : Outcome V T
  grouping : Outcome V T
  lbc : Outcome V T
  lbcSorted : Outcome V T
  groupLbc : Outcome V T
  groupLbcSorted : Outcome V T

/-- `Spic0CSCSerial`, spic0_demo_utils.h 70-120: `L` is `L1_csc_`, `Bc` is `A_csc_`, `B` is `A_csr_`. -/
def serialF (E : Env V T K) (L Bc B : Sp V) : FDemo V Unit T :=
  ⟨L.cols, 5, none, Bc, withFactor B (ok ()), fun _ _ f => Ic0.ic0Csc E.A L.cols f.p f.i f.x, E.time 0⟩

/-- `SpicoCSCLevelSet`, spic0_demo_utils.h 122-172. -/
def levelsetF (E : Env V T K) (L Bc B : Sp V) (correct : List V) (sch : Nat → Nat → List Nat) : FDemo V LevelSet.Out T :=
  ⟨L.cols, 5, some correct, Bc, withFactor B (LevelSet.buildLevelSet L.cols L.p L.i),
    fun k o f => Ic0.levelset E.A f.p f.i o.ret.toNat o.levelPtr o.levelSet (sch k) f.x, E.time 1⟩

/-- `SpicoCSC_Grouping`, spic0_demo_utils.h 174-274. -/
def groupingF (E : Env V T K) (L Bc B : Sp V) (correct : List V) (sch : Nat → Nat → List Nat) : FDemo V RunGroup.Set T :=
  ⟨L.cols, 5, some correct, Bc, withFactor B (Ic0Demo.buildSet (E.order 2) L.cols L.p L.i),
    fun k s f => Ic0Demo.fusedCode E.A f.p f.i s (sch k) f.x, E.time 2⟩

variable [Add K] [LT K] [DecidableLT K]

/-- `Spic0CSCParallelLBC`, spic0_demo_utils.h 472-553; object `i`. -/
def lbcF (E : Env V T K) (L Bc B : Sp V) (correct : List V) (fsort : Bool) (i : Nat) (sch : Nat → Nat → List Nat) :
    FDemo V Sched T :=
  ⟨L.cols, 5, some correct, Bc, withFactor B (Ic0Demo.buildLbc E.P E.conv E.zero fsort L.cols L.p L.i E.p2 E.p3
    (E.xi0 L.cols) (E.ps0 L.cols)), fun k s f => Ic0.lbc E.A f.p f.i s (sch k) f.x, E.time i⟩

/-- `SpicoCSC_Grouping_H2`, spic0_demo_utils.h 281-440; object `i`. -/
def groupLbcF (E : Env V T K) (L Bc B : Sp V) (correct : List V) (fsort : Bool) (i : Nat) (sch : Nat → Nat → List Nat) :
    FDemo V (RunGroup.Out × Sched) T :=
  ⟨L.cols, 5, some correct, Bc, withFactor B (Ic0Demo.buildSetH2 (E.order i) E.P E.conv E.zero fsort L.cols L.p L.i E.p2
    E.p3 E.xi0 E.ps0), fun k s f => Ic0.groupLbc E.A f.p f.i s.2 s.1.ptr s.1.set (sch k) f.x, E.time i⟩

/-- The seven objects, spico_csc_demo.cpp 82-139: `L` is `L1_csc`, `nnz` its number of entries; `sch i` are the
interleavings in the runs of object `i`. -/
def classes (E : Env V T K) (L : Sp V) (nnz : Nat) (sch : Nat → Nat → Nat → List Nat) : Res (Report V T) := do
  let _ ← cscToCsr L nnz false
  let Bc ← copySparse L nnz
  let B ← cscToCsr Bc nnz false
  let o ← evaluateF E.C E.eps E.srt E.minusOne (serialF E L Bc B)
  let c ← copyVector 0 nnz o.solution (List.replicate nnz 0)
  let o1 ← evaluateF E.C E.eps E.srt E.minusOne (levelsetF E L Bc B c (sch 1))
  let o2 ← evaluateF E.C E.eps E.srt E.minusOne (groupingF E L Bc B c (sch 2))
  let o3 ← evaluateF E.C E.eps E.srt E.minusOne (lbcF E L Bc B c false 3 (sch 3))
  let o4 ← evaluateF E.C E.eps E.srt E.minusOne (lbcF E L Bc B c true 4 (sch 4))
  let o5 ← evaluateF E.C E.eps E.srt E.minusOne (groupLbcF E L Bc B c false 5 (sch 5))
  let o6 ← evaluateF E.C E.eps E.srt E.minusOne (groupLbcF E L Bc B c true 6 (sch 6))
  ok ⟨o, o1, o2, o3, o4, o5, o6⟩

/-- The program from the matrix on, with METIS (spico_csc_demo.cpp 66-139). -/
def run (E : Env V T K) (nd : Metis.NodeND) (debug : Bool) (L : Sp V) (stype : Int) (nnz : Nat)
    (sch : Nat → Nat → Nat → List Nat) : Res (Report V T) := do
  let g ← reorder nd debug L stype nnz
  classes E g.1 g.2.2 sch

/-- The program with a file, spico_csc_demo.cpp 48-54: `none` is the return value -1.  The arrays of the matrix that was
read have `nnz` elements. -/
def program (E : Env V T K) (scanVal : Mtx.Text → Scan V) (fuel : Nat) (nd : Metis.NodeND) (debug : Bool)
    (txt : Mtx.Text) (sch : Nat → Nat → Nat → List Nat) : Res (Option (Report V T)) := do
  let r ← readMtxText scanVal fuel txt
  match r with
  | .matrix M stype => do
    let rep ← run E nd debug M stype M.i.length sch
    ok (some rep)
  | .null => ok none
  | .negative => ub -- an index before the start of an array

end Verif.Ic0Main
