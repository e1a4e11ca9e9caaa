import Verif.Model.Harness
import Verif.Model.LbcDemo
import Verif.Model.Symm
import Verif.Model.Prepare
import Verif.Model.MtxRead

/-!
# Model: the demo program for LBC, example/sptrsv_demo.cpp

Command line, output and the table of times are left out.  The read of `levelCost` behind its end in the tree inspector
(C69) is allowed.
-/

namespace Verif.DemoMain
open Res TestU Harness Exec Sp Prepare

variable {V T K : Type} [Zero V] [One V]

/-- What is not determined by the program: the arithmetic, the comparison and its tolerance, sorting of times, the
parameters of LBC (`P.innerParts` is `num_threads`, `p2`, `p3`, lines 46-47 and 71-76), contents of new arrays. -/
structure Env (V T K : Type) where
  A : Arith V
  C : Cmp V
  eps : V
  srt : List T → List T
  minusOne : T
  P : Lbc.Params K
  conv : Int → K
  zero : K
  p2 : Int
  p3 : Int
  xi0 : Nat → List Nat
  ps0 : Nat → List Nat
  y0 : Nat → List V
  time : Nat → Nat → T

/-- What the four objects report. -/
structure Report (V T : Type) where
  serial : Outcome V T
  levelset : Outcome V T
  tree : Outcome V T
  sorted : Outcome V T

variable [Add K] [LT K] [DecidableLT K]

/-- `SptrsvLBC` (example/sptrsv_demo_utils.h 111-180). -/
def treeDemo (E : Env V T K) (m : Mat V) (L : Sp V) (stype : Int) (correct : List V) (sch : Nat → Nat → List Nat) :
    Demo V Sched T :=
  scheduled E.A m (Symm.lbcTreeDemo E.P true E.conv E.zero m.n m.p L.p L.i stype E.p2 E.p3) 5 (some correct) sch (E.time 2)

/-- `SptrsvLBC_W_Sorting` (example/sptrsv_demo_utils.h 267-330). -/
def sortedDemo (E : Env V T K) (m : Mat V) (L : Sp V) (correct : List V) (sch : Nat → Nat → List Nat) : Demo V Sched T :=
  scheduled E.A m (Lbc.lbcSorting E.P E.conv E.zero true m.n m.p L.p L.i E.p2 E.p3 (E.xi0 m.n) (E.ps0 m.n)) 5 (some correct) sch
    (E.time 3)

/-- The four objects, example/sptrsv_demo.cpp 99-138: `L` is `L1_csc`, `B` is `L2_csr`; `sch i` are the interleavings
in the runs of object `i`. -/
def classes (E : Env V T K) (L : Sp V) (stype : Int) (B : Sp V) (sch : Nat → Nat → Nat → List Nat) : Res (Report V T) := do
  let m := B.toMat
  let o ← evaluate E.C E.eps E.srt E.minusOne (serial E.A m 5 none (E.time 0))
  let yc ← copyVector 0 L.cols o.solution (E.y0 L.cols)
  let o1 ← evaluate E.C E.eps E.srt E.minusOne (wavefront E.A m L.p L.i 5 (some yc) (sch 1) (E.time 1))
  let o2 ← evaluate E.C E.eps E.srt E.minusOne (treeDemo E m L stype o.solution (sch 2))
  let o3 ← evaluate E.C E.eps E.srt E.minusOne (sortedDemo E m L o.solution (sch 3))
  ok ⟨o, o1, o2, o3⟩

/-- The program from the matrix on, example/sptrsv_demo.cpp 78-138, with METIS (`some nd`) or without. -/
def run (E : Env V T K) (metis : Option Metis.NodeND) (debug : Bool) (L : Sp V) (stype : Int) (nnz : Nat)
    (sch : Nat → Nat → Nat → List Nat) : Res (Report V T) := do
  let g ← (match metis with
    | none => ok (L, stype, nnz)
    | some nd => reorder nd debug L stype nnz : Res (Sp V × Int × Nat))
  let B ← cscToCsr g.1 g.2.2 false
  classes E g.1 g.2.1 B sch

/-- The program without arguments, example/sptrsv_demo.cpp 52-60 and 78-138: `k` is `density * n + 1`, `none` the return
value -1. -/
def runRandom (E : Env V T K) (metis : Option Metis.NodeND) (debug : Bool) (shuf : Nat → List Nat → List Nat)
    (val : Nat → V) (n : Nat) (k : Int) (sch : Nat → Nat → Nat → List Nat) : Res (Option (Report V T)) := do
  let r ← randomSquare shuf val n k
  match r with
  | none => ok none
  | some M => do
    let L ← makeHalf M false true
    let nnz ← rd L.p L.cols
    let o ← run E metis debug L (-1) nnz sch
    ok (some o)

/-- The program with a file, example/sptrsv_demo.cpp 61-67 and 78-138; `none` is the return value -1. -/
def program (E : Env V T K) (metis : Option Metis.NodeND) (debug : Bool) (scanVal : Mtx.Text → Mtx.Scan V) (fuel : Nat)
    (txt : Mtx.Text) (sch : Nat → Nat → Nat → List Nat) : Res (Option (Report V T)) := do
  let r ← Mtx.readMtxText scanVal fuel txt
  match r with
  | .matrix M stype => do
    let o ← run E metis debug M stype M.i.length sch
    ok (some o)
  | .null => ok none
  | .negative => ub -- an index before the start of an array

end Verif.DemoMain
