import Verif.Model.Symm
import Verif.Model.Prepare
import Verif.Model.MtxRead
import Verif.Model.TestUtils

/-!
# Model: printing of schedules, and the program example/lbc_demo.cpp

The command line is left out, except that its numbers are parameters.  The read of `levelCost` behind its end in the
tree inspector (C69) is allowed.
-/

namespace Verif.LbcMain
open Res Sp Mtx Prepare TestU

variable {V K : Type} [Zero V] [Add K] [LT K] [DecidableLT K]

/-- `print_level_set`, utils/sparse_io.cpp:211-219: what is written. -/
def printLevelSet (beg : Text) (n : Nat) (ptr set : List Nat) : Res Text :=
  forRange 0 n (fun i txt => do
    let lo ← rd ptr i
    let hi ← rd ptr (i + 1)
    let txt ← forRange lo hi (fun j txt => do
      let v ← rd set j
      ok (txt ++ decimal v ++ [','])) txt
    ok (txt ++ ['\n'])) beg

/-- `print_hlevel_set`, utils/sparse_io.cpp:222-234. -/
def printHLevelSet (beg : Text) (s : Sched) : Res Text :=
  forRange 0 s.levels (fun i txt => do
    let lo ← rd s.levelPtr i
    let hi ← rd s.levelPtr (i + 1)
    let txt ← forRange lo hi (fun j txt => do
      let a ← rd s.partPtr j
      let b ← rd s.partPtr (j + 1)
      let txt ← forRange a b (fun k txt => do
        let v ← rd s.nodes k
        ok (txt ++ decimal v ++ [','])) txt
      ok (txt ++ [';', ' ', '\n'])) txt
    ok (txt ++ ['\n', '\n'])) beg

/-- The header, example/lbc_demo.cpp:98. -/
def header : Text := "HLevel set:\n".toList

/-- example/lbc_demo.cpp:85-98: costs, inspector and output.  `P.innerParts` is `num_threads`. -/
def inspect (P : Lbc.Params K) (conv : Int → K) (zero : K) (p2 p3 : Int) (L : Sp V) (stype : Int) : Res Text := do
  let cost ← Lbc.rowCosts conv zero L.cols L.p
  let s ← Symm.coarsenDagTree P true L.cols L.p L.i stype p2 p3 cost zero
  printHLevelSet header s

/-- The program from the matrix on, example/lbc_demo.cpp:64-98, with METIS (`some nd`) or without. -/
def run (P : Lbc.Params K) (conv : Int → K) (zero : K) (p2 p3 : Int) (metis : Option Metis.NodeND) (debug : Bool)
    (L : Sp V) (stype : Int) (nnz : Nat) : Res Text := do
  let g ← (match metis with
    | none => ok (L, stype, nnz)
    | some nd => reorder nd debug L stype nnz : Res (Sp V × Int × Nat))
  inspect P conv zero p2 p3 g.1 g.2.1

/-- The program with a file, example/lbc_demo.cpp:52-59; `none` is the return value -1. -/
def program (P : Lbc.Params K) (conv : Int → K) (zero : K) (p2 p3 : Int) (metis : Option Metis.NodeND) (debug : Bool)
    (scanVal : Text → Scan V) (fuel : Nat) (txt : Text) : Res (Option Text) := do
  let r ← readMtxText scanVal fuel txt
  match r with
  | .matrix M stype => do
    let out ← run P conv zero p2 p3 metis debug M stype M.i.length
    ok (some out)
  | .null => ok none
  | .negative => ub -- an index before the start of an array

/-- The program without arguments, example/lbc_demo.cpp:43-51: `k` is `density * n + 1`. -/
def runRandom (P : Lbc.Params K) (conv : Int → K) (zero : K) (p2 p3 : Int) (metis : Option Metis.NodeND) (debug : Bool)
    (shuf : Nat → List Nat → List Nat) (val : Nat → V) (n : Nat) (k : Int) : Res (Option Text) := do
  let r ← randomSquare shuf val n k
  match r with
  | none => ok none
  | some M => do
    let L ← makeHalf M false true
    let nnz ← rd L.p L.cols
    let out ← run P conv zero p2 p3 metis debug L (-1) nnz
    ok (some out)

end Verif.LbcMain
