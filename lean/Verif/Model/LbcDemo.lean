import Verif.Model.LbcSeq
import Verif.Model.RunGroup
import Verif.Model.Hdagg

/-!
# Model: the LBC solvers of the demo

`SptrsvLBCDAG`, `SptrsvLBC_W_Sorting` and `SpTrsvCSR_Grouping_H2` (example/sptrsv_demo_utils.h).
Timers and the final copy of the solution are left out.
-/

namespace Verif.Lbc
open Res

variable {K : Type}

/-- The costs of the rows, sptrsv_demo_utils.h:192-195 and 280-283; `conv` is the conversion from
`int` to `double`, `zero` the initial value. -/
def rowCosts (conv : Int → K) (zero : K) (n : Nat) (p : List Nat) : Res (List K) :=
  forRange 0 n (fun i cost => do
    let hi ← rd p (i + 1)
    let lo ← rd p i
    wr cost i (conv ((hi : Int) - lo))) (List.replicate n zero)

/-- The nodes of every part are sorted by number, sptrsv_demo_utils.h:290-295 and 583-588. -/
def sortAllParts (s : Sched) : Res Sched := do
  let parts ← rd s.levelPtr s.levels
  let nodes ← forRange 0 parts (fun i nodes => do
    let lo ← rd s.partPtr i
    let hi ← rd s.partPtr (i + 1)
    Hdagg.sortRange nodes lo hi) s.nodes
  ok { s with nodes := nodes }

variable [Add K] [LT K] [DecidableLT K]

/-- `SptrsvLBC_W_Sorting::build_set`, sptrsv_demo_utils.h:278-298; with `fsort = false` it is
`SptrsvLBCDAG::build_set`, 191-200.  `rp` are the row pointers of `L1_csr_`, `cp`, `ci` the arrays of
`L1_csc_`. -/
def lbcSorting (P : Params K) (conv : Int → K) (zero : K) (fsort : Bool) (n : Nat)
    (rp cp ci : List Nat) (minDist divRate : Int) (xi0 ps0 : List Nat) : Res Sched := do
  let cost ← rowCosts conv zero n rp
  let s ← coarsenSeq P n cp ci minDist divRate cost zero xi0 ps0
  if fsort then sortAllParts s else ok s

/-- The costs of the groups, sptrsv_demo_utils.h:560-566.  Every row of a group overwrites the cost
of the group, so it is the cost of the last row. -/
def groupCosts (conv : Int → K) (zero : K) (o : RunGroup.Out) (p : List Nat) : Res (List K) :=
  forRange 0 o.num (fun i cost => do
    let lo ← rd o.ptr i
    let hi ← rd o.ptr (i + 1)
    forRange lo hi (fun j cost => do
      let k ← rd o.set j
      let b ← rd p (k + 1)
      let a ← rd p k
      wr cost i (conv ((b : Int) - a))) cost) (List.replicate o.num zero)

/-- `SpTrsvCSR_Grouping_H2::build_set`, sptrsv_demo_utils.h:516-592: the groups and the schedule of
groups.  `xi0 n`, `ps0 n` are the contents of the scratch array of the inspector. -/
def buildSetH2 (P : Params K) (conv : Int → K) (zero : K) (fsort : Bool) (n : Nat) (p ix : List Nat)
    (minDist divRate : Int) (xi0 ps0 : Nat → List Nat) : Res (RunGroup.Out × Sched) := do
  let o ← RunGroup.sptrsvCsrV1 n p ix (List.replicate (n + 1) 0) (List.replicate n 0)
    (List.replicate n 0)
  let dag ← RunGroup.inspectorDep o.num o.ptr o.set o.inv p ix
  let dag := RunGroup.uniqueAll dag
  let gr ← RunGroup.flatten n o.num dag
  let cost ← groupCosts conv zero o p
  let s ← coarsenSeq P o.num gr.1 gr.2 minDist divRate cost zero (xi0 o.num) (ps0 o.num)
  let s ← (if fsort then sortAllParts s else ok s)
  ok (o, s)

end Verif.Lbc
