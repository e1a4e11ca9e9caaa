import Verif.Model.TestUtils
import Verif.Model.Measure
import Verif.Model.Exec
import Verif.Model.LevelSet
import Verif.Model.P2PBuild
import Verif.Model.SpmpLevels

/-!
# Model: the class `FusionDemo`, which runs and checks the solvers

utils/FusionDemo.cpp and the classes of example/SpTRSV_runtime.h that are derived from it.  The virtual functions
`build_set` and `fused_code` are parameters; the number of the run is given to the second, since each
run may have its own interleaving and its own time.  Profiling and output are left out.
-/

namespace Verif.Harness
open Res TestU Measure Exec

variable {V S T : Type}

/-- `copy_vector` (include/aggregation/sparse_io.h 64-68). -/
def copyVector (lo hi : Nat) (src dst : List V) : Res (List V) :=
  forRange lo hi (fun i d => do
    let a ← rd src i
    wr d i a) dst

/-- `std::fill_n`. -/
def fillN (n : Nat) (v : V) (x : List V) : Res (List V) := forRange 0 n (fun i x => wr x i v) x

/-- An object of a derived class: `n_`, `num_test_` (utils/FusionDemo.cpp 16-42, 5 unless `set_num_test` is called),
`correct_x_` (null or a vector) and the two virtual functions; `fused k s x` is the vector `x_in_` after the kernel of run
`k`, which starts with `x`. -/
structure Demo (V S T : Type) where
  n : Nat
  numTest : Nat
  correct : Option (List V)
  build : Res S
  fused : Nat → S → List V → Res (List V)
  time : Nat → T

/-- The vectors `x_in_`, `x_` and the times of the runs so far. -/
structure Mem (V T : Type) where
  xin : List V
  x : List V
  times : List T

/-- One run, utils/FusionDemo.cpp 84-97: `setting_up` (65-68), then `fused_code`, which ends with `copy_vector`
(example/SpTRSV_runtime.h 52-59). -/
def oneRun [Zero V] [One V] (D : Demo V S T) (s : S) (k : Nat) (m : Mem V T) : Res (Mem V T) := do
  let xin ← fillN D.n 1 m.xin
  let x ← fillN D.n 0 m.x
  let xin ← D.fused k s xin
  let x ← copyVector 0 D.n xin x
  ok ⟨xin, x, m.times ++ [D.time k]⟩

/-- `testing`, utils/FusionDemo.cpp 70-74: is the message printed? -/
def testing (C : Cmp V) (eps : V) (D : Demo V S T) (x : List V) : Res Bool :=
  match D.correct with
  | none => ok false
  | some c => do
    let r ← equalRange C 0 D.n c x eps
    ok (!r)

/-- What the user sees: `solution()`, the message, the time. -/
structure Outcome (V T : Type) where
  solution : List V
  alarm : Bool
  time : T

/-- `evaluate`, utils/FusionDemo.cpp 77-102, of a new object (both vectors are zero). -/
def evaluate [Zero V] [One V] (C : Cmp V) (eps : V) (srt : List T → List T) (minusOne : T) (D : Demo V S T) :
    Res (Outcome V T) := do
  let s ← D.build
  let m ← forRange 0 D.numTest (oneRun D s) ⟨List.replicate D.n 0, List.replicate D.n 0, []⟩
  let a ← testing C eps D m.x
  let t ← timeMedian srt minusOne m.times
  ok ⟨m.x, a, t⟩

/-! ### Derived classes -/

/-- `Sptrsv_LL_Serial`, example/SpTRSV_runtime.h 50-70. -/
def serial (A : Arith V) (m : Mat V) (numTest : Nat) (correct : Option (List V)) (time : Nat → T) : Demo V Unit T :=
  ⟨m.n, numTest, correct, ok (), fun _ _ x => sptrsvCsr A m.n m.p m.i m.x x, time⟩

/-- `SpTrsv_LL_Wavefront`, example/SpTRSV_runtime.h 76-126; `computingLevelSet_CSC` is `build_levelSet_CSC` with new
arrays (utils/sparse_inspector.cpp 1014-1025); `sch k` is the interleaving of run `k`. -/
def wavefront (A : Arith V) (m : Mat V) (cscP cscI : List Nat) (numTest : Nat) (correct : Option (List V))
    (sch : Nat → Nat → List Nat) (time : Nat → T) : Demo V LevelSet.Out T :=
  ⟨m.n, numTest, correct, LevelSet.buildLevelSet m.n cscP cscI,
    fun k o x => sptrsvLevelset A m.p m.i m.x o.ret.toNat o.levelPtr o.levelSet (sch k) x, time⟩

/-- `SpTrsv_LL_Parallel_Wavefront`, example/SpTRSV_runtime.h 129-188: `F` is the full matrix `LBC_A`, `levels` what SpMP
does with the converted matrix; the fields of `E` for other classes are not used. -/
def parallelWavefront (A : Arith V) (m : Mat V) (debug : Bool) (E : P2P.SpmpEnv V)
    (levels : P2P.SpmpMat V → P2P.LevelTasks) (nthreads : Nat) (F : Sp V) (nnz numTest : Nat) (correct : Option (List V))
    (sch : Nat → Nat → List Nat) (time : Nat → T) : Demo V (Nat × List Nat × List Nat) T :=
  ⟨m.n, numTest, correct, do
      let M ← P2P.convertToSpmp E.recip E.order'' (E.dp0 F.cols) (E.d0 F.cols) (E.d0 F.cols) F nnz
      P2P.levelsetSpmp debug F.cols nthreads (levels M),
    fun k o x => sptrsvLevelset A m.p m.i m.x o.1 o.2.1 o.2.2 (sch k) x, time⟩

/-- The classes that solve with a coarse schedule by `sptrsv_csr_lbc`: `SpTrSv_LL_HDAGG`, `SpTrSv_LL_Tree_HDAGG`,
`SpTrSv_LL_Tree_HDAGG_BFS`, `SpTrSv_LL_LBC` and others of example/SpTRSV_runtime.h; `fused_code` as in lines 300-309. -/
def scheduled (A : Arith V) (m : Mat V) (build : Res Sched) (numTest : Nat) (correct : Option (List V))
    (sch : Nat → Nat → List Nat) (time : Nat → T) : Demo V Sched T :=
  ⟨m.n, numTest, correct, build, fun k s x => sptrsvLbc A m.p m.i m.x s (sch k) x, time⟩

end Verif.Harness
