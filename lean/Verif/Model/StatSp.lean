import Mathlib.Data.Rat.Defs
import Verif.Model.Stat
import Verif.Model.GroupGraph
import Verif.Model.RunGroup
import Verif.Model.QueueLevels
import Verif.Spec.Mat

/-!
# Model: the class `StatSpMat` of the profiler

profiler/old/StatSpMat.cpp.  Quotients of the class are rational numbers instead of `double`, `none` where the code
divides by zero.  The times and the number of cores are left out.
-/

namespace Verif.StatSp
open Res

/-- The members, profiler/old/includes/StatSpMat.h:33-57; `npart = none` is an indeterminate value.  `varianceSq` is the
number of which `VarianceMaxDiff` is the square root. -/
structure Stats where
  n : Nat
  nnz : Nat
  nnzPerRow : Option ℚ
  npart : Option Nat
  ngroup : Nat
  nFlops : Nat
  nnzAccess : Nat
  nnzReuse : Nat
  nlevels : Int
  numSys : Nat
  nnzPerLevels : Option ℚ
  averParallelism : Option ℚ
  sumMaxDiff : Int
  averageMaxDiff : Option ℚ
  varianceSq : Option ℚ

/-- A quotient of two numbers, one of them made a `double` by a factor `1.0`. -/
def ratio (a : Int) (b : Nat) : Option ℚ := if b = 0 then none else some ((a : ℚ) / b)

/-- StatSpMat.cpp:91-95, 180-184, 223-227, 270-274: the sum over `lcost`. -/
def sumOf (lcost : List Int) : Int := lcost.foldl (fun s c => s + c) 0

/-- StatSpMat.cpp:97-102, 186-191, 229-234, 276-281: the number under the root.  The divisor `lcost.size() - 1` is
unsigned; for no level it is huge and the sum is 0. -/
def variance (lcost : List Int) : Option ℚ :=
  match ratio (sumOf lcost) lcost.length with
  | none => none
  | some a =>
    let accum := lcost.foldl (fun s (d : Int) => s + ((d : ℚ) - a) * ((d : ℚ) - a)) 0
    if lcost.length = 1 then none else some (accum / ((lcost.length : ℚ) - 1))

/-- The constructors for level sets of groups, StatSpMat.cpp:111-193, with the graph `dag` of the rows given. -/
def fromDag (T : Stat.Threads) (n : Nat) (p i : List Nat) (nnz : Nat) (dag : List (List Nat)) : Res Stats := do
  let st ← Stat.fsCsr n p i
  let o ← RunGroup.sptrsvCsrV1 n p i (List.replicate (n + 1) 0) (List.replicate n 0) (List.replicate n 0)
  let d ← GGraph.groupDag dag o.ptr o.set o.inv o.num
  let gr ← RunGroup.flatten n o.num d
  let l ← QLevel.build o.num gr.1 gr.2 (List.replicate (n + 1) 0) (List.replicate n 0)
  let lcost ← Stat.levelSetStat T p o.ptr o.set l.1 l.2.1 l.2.2 (List.replicate l.1 0)
  ok ⟨n, nnz, ratio nnz n, some o.num, o.num, st.1, st.2.1, st.2.2, l.1, l.1, ratio nnz l.1, ratio o.num l.1,
    sumOf lcost, ratio (sumOf lcost) lcost.length, variance lcost⟩

/-- The constructor for level sets of groups from the matrix, StatSpMat.cpp:12-108. -/
def fromMatrix (T : Stat.Threads) (n : Nat) (p i : List Nat) (nnz : Nat) : Res Stats := do
  let dag ← GGraph.rowsDep n p i (List.replicate n [])
  fromDag T n p i nnz dag

/-- The constructor for a schedule, StatSpMat.cpp:196-237: `npart` is not set. -/
def fromSched (T : Stat.Threads) (n : Nat) (p i : List Nat) (nnz : Nat) (s : Sched) (partNo : Nat) (levelSetNo : Int) :
    Res Stats := do
  let st ← Stat.fsCsr n p i
  let lcost ← Stat.lbcStat T p s.levels s.levelPtr s.partPtr s.nodes (List.replicate s.levels 0)
  ok ⟨n, nnz, ratio nnz n, none, partNo, st.1, st.2.1, st.2.2, levelSetNo, s.levels, ratio nnz s.levels,
    ratio partNo s.levels, sumOf lcost, ratio (sumOf lcost) lcost.length, variance lcost⟩

/-- The constructor for a schedule of groups, StatSpMat.cpp:240-284. -/
def fromGroupSched (T : Stat.Threads) (n : Nat) (p i : List Nat) (nnz : Nat) (s : Sched) (groupPtr groupSet : List Nat)
    (levelSetNo : Int) (groupNo : Nat) : Res Stats := do
  let np ← rd s.levelPtr s.levels
  let st ← Stat.fsCsr n p i
  let lcost ← Stat.groupLbcStat T p s.levels s.levelPtr s.partPtr s.nodes groupPtr groupSet (List.replicate s.levels 0)
  ok ⟨n, nnz, ratio nnz n, some np, groupNo, st.1, st.2.1, st.2.2, levelSetNo, s.levels, ratio nnz s.levels,
    ratio np s.levels, sumOf lcost, ratio (sumOf lcost) lcost.length, variance lcost⟩

end Verif.StatSp
