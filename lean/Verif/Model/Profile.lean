import Verif.Model.StatSp
import Verif.Model.LbcDemo
import Verif.Model.Symm
import Verif.Model.LevelSet
import Verif.Model.Prepare
import Verif.Model.MtxRead

/-!
# Model: the program example/sptrsv_csr_profile.cpp, which reports statistics of the schedules

Left out: command line (its numbers are parameters), the name of the matrix, the solves, of which only the times are
printed (their set-up is kept where its result is used; the solvers are those of C122 and C57), freeing of memory.
-/

namespace Verif.Profile
open Res Sp Mtx Prepare

variable {V K : Type} [Zero V] [Add K] [LT K] [DecidableLT K]

/-- What is not determined by the program: the parameters of LBC (`P.innerParts` is `num_threads`, `p2`, `p3`, lines 34-35
and 60-70), the contents of new arrays, the distribution of the loops over the threads. -/
structure Env (K : Type) where
  P : Lbc.Params K
  conv : Int → K
  zero : K
  p2 : Int
  p3 : Int
  xi0 : Nat → List Nat
  ps0 : Nat → List Nat
  T : Stat.Threads

/-- example/sptrsv_csr_profile.cpp:102-191: `L` is `L1_csc`, `B` is `L2_csr`.  `LevelSetNo` is the return value of
`build_levelSet_CSC` (sptrsv_demo_utils.h:49-54, 98-100); the argument `partNo` of option 1 is not used by the
constructor; that of option 2 is set by the inspector (src/lbc_tree.cpp:96, 406). -/
def report (E : Env K) (option : Int) (L : Sp V) (stype : Int) (nnz : Nat) (B : Sp V) : Res StatSp.Stats := do
  let o ← LevelSet.buildLevelSet L.cols L.p L.i
  if option = 0 then
    StatSp.fromMatrix E.T B.cols B.p B.i nnz
  else if option = 1 then do
    let h ← Lbc.buildSetH2 E.P E.conv E.zero false B.cols B.p B.i E.p2 E.p3 E.xi0 E.ps0
    StatSp.fromGroupSched E.T B.cols B.p B.i nnz h.2 h.1.ptr h.1.set o.ret h.1.num
  else do
    let s ← Symm.lbcTreeDemo E.P true E.conv E.zero B.cols B.p L.p L.i stype E.p2 E.p3
    let parts ← rd s.levelPtr s.levels
    StatSp.fromSched E.T B.cols B.p B.i nnz s parts o.ret

/-- The program with a file, example/sptrsv_csr_profile.cpp:50-191, with METIS (`some nd`) or without; `none` is the return
value -1. -/
def program (E : Env K) (option : Int) (metis : Option Metis.NodeND) (debug : Bool) (scanVal : Text → Scan V)
    (fuel : Nat) (txt : Text) : Res (Option StatSp.Stats) := do
  let r ← readMtxText scanVal fuel txt
  match r with
  | .matrix M stype => do
    let g ← (match metis with
      | none => ok (M, stype, M.i.length)
      | some nd => reorder nd debug M stype M.i.length : Res (Sp V × Int × Nat))
    let B ← cscToCsr g.1 g.2.2 false
    let out ← report E option g.1 g.2.1 g.2.2 B
    ok (some out)
  | .null => ok none
  | .negative => ub -- an index before the start of an array

end Verif.Profile
