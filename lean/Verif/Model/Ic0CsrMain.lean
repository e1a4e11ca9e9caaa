import Verif.Model.Ic0Main
import Verif.Model.Ic0Csr

/-!
# Model: the demo program for the incomplete Cholesky kernels for rows, example/old/spic0_demo.cpp

As Verif/Model/Ic0Main.lean, with the classes of example/old/spic0_demo_utils.h 25-69 and 573-672, whose factor is
stored by rows.  The number of entries of the factor, which `testing` uses, is the one of `A_csc_`
(utils/sparse_utilities.cpp, `csc_to_csr`); here it is read from the pointers.  Timers, command line, output and the
random matrix are left out.
-/

namespace Verif.Ic0CsrMain
open Res TestU Measure Exec Sp Prepare Harness Mtx Ic0Main

variable {V S T K : Type} [Zero V] [One V]

/-- `build_set` of a derived class: `Spic0Serial::build_set` (spic0_demo_utils.h 28-30), then the inspector. -/
def withRows (Bc : Sp V) (nnz : Nat) (inspect : Res S) : Res (Sp V × S) := do
  let f ← cscToCsr Bc nnz false
  let s ← inspect
  ok (f, s)

/-- What the three objects report. -/
structure Report (V T : Type) where
  serial : Outcome V T
  levelset : Outcome V T
  lbc : Outcome V T

/-- `Spic0Serial`, spic0_demo_utils.h 25-69: `R` is `L1_csr_`, `Bc` is `A_csc_`, `B` is `A_csr_`; `pos` is the
condition of the assertion in the kernel. -/
def serialR (E : Env V T K) (pos : V → Bool) (R Bc B : Sp V) (nnz : Nat) : FDemo V Unit T :=
  ⟨R.rows, 5, none, B, withRows Bc nnz (ok ()), fun _ _ f => Ic0r.ic0Csr E.A pos R.rows f.p f.i f.x, E.time 0⟩

/-- `Spic0ParallelLevelset`, spic0_demo_utils.h 573-618: `L` is `L1_csc_`. -/
def levelsetR (E : Env V T K) (R L Bc B : Sp V) (nnz : Nat) (correct : List V) (sch : Nat → Nat → List Nat) :
    FDemo V LevelSet.Out T :=
  ⟨R.rows, 5, some correct, B, withRows Bc nnz (LevelSet.buildLevelSet L.cols L.p L.i),
    fun k o f => Ic0r.levelset E.A f.p f.i o.ret.toNat o.levelPtr o.levelSet (sch k) f.x, E.time 1⟩

variable [Add K] [LT K] [DecidableLT K]

/-- The inspector of `Spic0ParallelLBC`, spic0_demo_utils.h 628-637: the costs are the sizes of the rows. -/
def inspectLbc (E : Env V T K) (R L : Sp V) : Res Sched := do
  let cost ← Lbc.rowCosts E.conv E.zero R.rows R.p
  Lbc.coarsenSeq E.P R.rows L.p L.i E.p2 E.p3 cost E.zero (E.xi0 R.rows) (E.ps0 R.rows)

/-- `Spic0ParallelLBC`, spic0_demo_utils.h 620-672. -/
def lbcR (E : Env V T K) (R L Bc B : Sp V) (nnz : Nat) (correct : List V) (sch : Nat → Nat → List Nat) :
    FDemo V Sched T :=
  ⟨R.rows, 5, some correct, B, withRows Bc nnz (inspectLbc E R L),
    fun k s f => Ic0r.lbc E.A f.p f.i s (sch k) f.x, E.time 2⟩

/-- The three objects, spic0_demo.cpp 82-114: `L` is `L1_csc`, `nnz` its number of entries; `sch i` are the
interleavings in the runs of object `i`. -/
def classes (E : Env V T K) (pos : V → Bool) (L : Sp V) (nnz : Nat) (sch : Nat → Nat → Nat → List Nat) :
    Res (Report V T) := do
  let R ← cscToCsr L nnz false
  let Bc ← copySparse L nnz
  let B ← cscToCsr Bc nnz false
  let o ← evaluateF E.C E.eps E.srt E.minusOne (serialR E pos R Bc B nnz)
  let c ← copyVector 0 nnz o.solution (List.replicate nnz 0)
  let o1 ← evaluateF E.C E.eps E.srt E.minusOne (levelsetR E R L Bc B nnz c (sch 1))
  let o2 ← evaluateF E.C E.eps E.srt E.minusOne (lbcR E R L Bc B nnz c (sch 2))
  ok ⟨o, o1, o2⟩

/-- The program with a file, spic0_demo.cpp 47-53 and 65-114, built with METIS: `none` is the return value -1.  The
arrays of the matrix that was read have `nnz` elements. -/
def program (E : Env V T K) (pos : V → Bool) (scanVal : Mtx.Text → Scan V) (fuel : Nat) (nd : Metis.NodeND) (debug : Bool)
    (txt : Mtx.Text) (sch : Nat → Nat → Nat → List Nat) : Res (Option (Report V T)) := do
  let r ← readMtxText scanVal fuel txt
  match r with
  | .matrix M stype => do
    let g ← reorder nd debug M stype M.i.length
    let rep ← classes E pos g.1 g.2.2 sch
    ok (some rep)
  | .null => ok none
  | .negative => ub -- an index before the start of an array

end Verif.Ic0CsrMain
