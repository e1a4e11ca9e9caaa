import Verif.Model.Harness
import Verif.Model.Pipeline
import Verif.Model.Symm
import Verif.Model.Prepare
import Verif.Model.MtxRead

/-!
# Model: the benchmark program, example/SpTRSV_runtime.cpp

Built with METIS, without SpMP, MKL, DAGP and the statistics (`ANALYSE_STATISTIC`), from the text of the file to the
seven objects and what they report; the debug assertions of HDAGG are switched off.  Command line, output and the table
of times are left out (C116), also the numbers of parts, which the classes with HDAGG print without having set them.  The
read of `levelCost` behind its end in the tree inspector (C69) is allowed.
-/

namespace Verif.Bench
open Res TestU Harness Exec Sp Prepare Pipeline Mtx

variable {V T K : Type} [Zero V] [One V]

/-- `std::vector<int>(a, a + n)`. -/
def copyFirst (n : Nat) (a : List Nat) : Res (List Nat) := if n ≤ a.length then ok (a.take n) else ub

/-- `build_set` of `SpTrSv_LL_HDAGG`, example/SpTRSV_runtime.h 281-298. -/
def plainHdagg [Zero K] [Add K] [Sub K] [LT K] [DecidableLT K] [DecidableEq K] [NatCast K] (binPack : Bool)
    (e : Pipeline.Env K) (cc cc' : Hdagg.Orac) (cores n nnz : Nat) (cscP cscI csrP csrI : List Nat) : Res Sched := do
  let cost ← Cost.costComputation (e.order₅ n) n cscP cscI csrP csrI .spTrSvLL [] [] false (List.replicate n 0)
  let dp ← copyFirst (n + 1) cscP
  let ds ← copyFirst nnz cscI
  let s ← Hdagg.hdagg false e.rdiv e.accept cc cc'
    ⟨n, dp, ds, cost.map (fun c : Nat => (c : K)), cores, false, binPack⟩
  ok s.2

/-- `SpTrSv_LL_Tree_Wavefront_No_unPACK`, example/SpTRSV_runtime.h 193-262. -/
def treeWave (A : Arith V) (m : Mat V) (build : Res Wave) (numTest : Nat) (correct : Option (List V))
    (sch : Nat → Nat → List Nat) (time : Nat → T) : Demo V Wave T :=
  ⟨m.n, numTest, correct, build, fun k w x => sptrsvGroupLevelset A m.p m.i m.x w.nlevels.toNat w.levelPtr w.levelSet
    w.groupPtr w.groupSet (sch k) x, time⟩

/-- What is not determined by the program and stays the same in all executions considered: the arithmetic, the comparison and its
tolerance, sorting of times, the number of cores (20, or the second argument), the parallel loops and roundings in the
inspectors of object `i`, sorting in LBC (`P`, where `innerParts` is the number of cores), contents of new arrays, the
times. -/
structure Env (V T K : Type) where
  A : Arith V
  C : Cmp V
  eps : V
  srt : List T → List T
  minusOne : T
  cores : Nat
  pipe : Nat → Pipeline.Env K
  P : Lbc.Params K
  y0 : Nat → List V
  time : Nat → Nat → T

/-- An execution: the interleavings in the runs of object `i`, and in the component computations of its inspector. -/
structure Execution where
  sch : Nat → Nat → Nat → List Nat
  cc : Nat → Hdagg.Orac
  cc' : Nat → Hdagg.Orac

/-- What the seven objects report. -/
structure Report (V T : Type) where
  serial : Outcome V T
  wavefront : Outcome V T
  treeWavefront : Outcome V T
  hdagg : Outcome V T
  treeHdagg : Outcome V T
  treeHdaggBfs : Outcome V T
  lbc : Outcome V T

variable [Zero K] [Add K] [Sub K] [LT K] [DecidableLT K] [DecidableEq K] [NatCast K]

/-- The seven objects, example/SpTRSV_runtime.cpp 181-488: `L` is `Lower_A_CSC`, `nnz` its number of entries, `B` is
`Lower_A_CSR`. -/
def classes (E : Env V T K) (L : Sp V) (nnz : Nat) (B : Sp V) (X : Execution) : Res (Report V T) := do
  let m := B.toMat
  let n := m.n
  let o ← evaluate E.C E.eps E.srt E.minusOne (serial E.A m 5 none (E.time 0))
  let yc ← copyVector 0 L.cols o.solution (E.y0 L.cols)
  let o1 ← evaluate E.C E.eps E.srt E.minusOne (wavefront E.A m L.p L.i 5 (some yc) (X.sch 1) (E.time 1))
  let o2 ← evaluate E.C E.eps E.srt E.minusOne (treeWave E.A m
    (Pipeline.treeWavefront false (E.pipe 2) n nnz L.p L.i m.p m.i) 5 (some yc) (X.sch 2) (E.time 2))
  let o3 ← evaluate E.C E.eps E.srt E.minusOne (scheduled E.A m
    (plainHdagg true (E.pipe 3) (X.cc 3) (X.cc' 3) E.cores n nnz L.p L.i m.p m.i) 5 (some yc) (X.sch 3) (E.time 3))
  let o4 ← evaluate E.C E.eps E.srt E.minusOne (scheduled E.A m
    (Pipeline.treeHdagg false false false true (E.pipe 4) (X.cc 4) (X.cc' 4) E.cores n nnz L.p L.i m.p m.i) 5 (some yc)
    (X.sch 4) (E.time 4))
  let o5 ← evaluate E.C E.eps E.srt E.minusOne (scheduled E.A m
    (Pipeline.treeHdagg false false true true (E.pipe 5) (X.cc 5) (X.cc' 5) E.cores n nnz L.p L.i m.p m.i) 5 (some yc)
    (X.sch 5) (E.time 5))
  let o6 ← evaluate E.C E.eps E.srt E.minusOne (scheduled E.A m
    (Symm.lbcTreeRuntime { E.P with innerParts := (E.cores : Int) } true (fun c : Nat => (c : K)) 0 ((E.pipe 6).order₅ n) n
      L.p L.i m.p m.i (-1) 5000) 5 (some yc) (X.sch 6) (E.time 6))
  ok ⟨o, o1, o2, o3, o4, o5, o6⟩

/-- The program from the matrix on, example/SpTRSV_runtime.cpp 84-97 and 165-488; `CSR_A` (165-166) is only used with
SpMP. -/
def run (E : Env V T K) (nd : Metis.NodeND) (debug : Bool) (L : Sp V) (stype : Int) (nnz : Nat) (X : Execution) :
    Res (Report V T) := do
  let g ← reorder nd debug L stype nnz
  let B ← cscToCsr g.1 g.2.2 false
  let F ← makeFull g.1 (decide (g.2.1 = 0)) g.2.2
  match F with
  | none => ub
  | some F => do
    let fnz ← rd F.p F.cols
    let _ ← cscToCsr F fnz false
    classes E g.1 g.2.2 B X

/-- The program with a file, example/SpTRSV_runtime.cpp 65-76: `none` is the return value -1.  The arrays of the matrix
that was read have `nnz` elements. -/
def program (E : Env V T K) (scanVal : Mtx.Text → Scan V) (fuel : Nat) (nd : Metis.NodeND) (debug : Bool)
    (txt : Mtx.Text) (X : Execution) : Res (Option (Report V T)) := do
  let r ← readMtxText scanVal fuel txt
  match r with
  | .matrix M stype => do
    let rep ← run E nd debug M stype M.i.length X
    ok (some rep)
  | .null => ok none
  | .negative => ub -- an index before the start of an array

end Verif.Bench
