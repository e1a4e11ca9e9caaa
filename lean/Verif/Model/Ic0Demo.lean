import Verif.Model.GroupGraph
import Verif.Model.LbcDemo
import Verif.Model.Ic0

/-!
# Model: the set-up of the incomplete Cholesky factorisations of the demo

`SpicoCSC_Grouping`, `SpicoCSC_Grouping_H2` and `Spic0CSCParallelLBC`
(example/old/spic0_demo_utils.h).  The timers are left out; the pattern that the inspectors see and
the one of the factor are the same matrix (the demo, spico_csc_demo.cpp:82-83, copies it).
-/

namespace Verif.Ic0Demo
open Res

/-- The call of `fs_ic0csc_inspector_group`, spic0_demo_utils.h:198-202 and 309-313.  The iterations of
its parallel loop only read arrays that do not change (`found`); `order found` are their calls of
`connect` in the order in which they happen. -/
def groupLists (order : List (List Nat) → List (Nat × Nat)) (o : RunGroup.Out) (p ix : List Nat) :
    Res (List (List Nat)) := do
  let found ← forRange 0 o.num (fun i acc => do
    let l ← GGraph.ic0Found o.ptr o.set o.inv p ix i
    ok (acc ++ [l])) []
  GGraph.pushes (order found) (List.replicate o.num [])

/-- The iterations of the parallel loop may make their calls in the order `order`. -/
def Order (order : List (List Nat) → List (Nat × Nat)) : Prop :=
  ∀ found : List (List Nat), GGraph.Interleaved found.length (fun i => found.getD i []) (order found)

/-- The groups of columns and the arrays `gv`, `gedg` of their graph, spic0_demo_utils.h:185-225 and
296-334. -/
def groupGraph (order : List (List Nat) → List (Nat × Nat)) (n : Nat) (p ix : List Nat) :
    Res (RunGroup.Out × List Nat × List Nat) := do
  let o ← RunGroup.spicoCscV1 n p ix (List.replicate (n + 1) 0) (List.replicate n 0) (List.replicate n 0)
  let dag ← groupLists order o p ix
  let gr ← RunGroup.flatten n o.num (RunGroup.uniqueAll dag)
  ok (o, gr)

/-- `SpicoCSC_Grouping::build_set`, spic0_demo_utils.h:182-229. -/
def buildSet (order : List (List Nat) → List (Nat × Nat)) (n : Nat) (p ix : List Nat) : Res RunGroup.Set := do
  let gr ← groupGraph order n p ix
  let l ← QLevel.build gr.1.num gr.2.1 gr.2.2 (List.replicate (n + 1) 0) (List.replicate n 0)
  ok ⟨gr.1, l.1, l.2.1, l.2.2⟩

/-- `SpicoCSC_Grouping::fused_code`, spic0_demo_utils.h:232-240. -/
def fusedCode {V : Type} (A : IcArith V) (p ix : List Nat) (s : RunGroup.Set) (sch : Nat → List Nat)
    (x : List V) : Res (List V) :=
  Ic0.groupLevelset A p ix s.levels s.levelPtr s.levelSet s.groups.ptr s.groups.set sch x

variable {K : Type} [Add K] [LT K] [DecidableLT K]

/-- The cost of a group is the number of entries of its columns, spic0_demo_utils.h:336-342. -/
def groupCosts (conv : Int → K) (zero : K) (o : RunGroup.Out) (p : List Nat) : Res (List K) :=
  forRange 0 o.num (fun i cost => do
    let lo ← rd o.ptr i
    let hi ← rd o.ptr (i + 1)
    forRange lo hi (fun j cost => do
      let k ← rd o.set j
      let b ← rd p (k + 1)
      let a ← rd p k
      let c ← rd cost i
      wr cost i (c + conv ((b : Int) - a))) cost) (List.replicate o.num zero)

/-- `SpicoCSC_Grouping_H2::build_set`, spic0_demo_utils.h:293-369: the groups and the schedule of
groups.  `xi0 n`, `ps0 n` are the contents of the scratch array of the inspector. -/
def buildSetH2 (order : List (List Nat) → List (Nat × Nat)) (P : Lbc.Params K) (conv : Int → K) (zero : K)
    (fsort : Bool) (n : Nat) (p ix : List Nat) (minDist divRate : Int) (xi0 ps0 : Nat → List Nat) :
    Res (RunGroup.Out × Sched) := do
  let gr ← groupGraph order n p ix
  let cost ← groupCosts conv zero gr.1 p
  let s ← Lbc.coarsenSeq P gr.1.num gr.2.1 gr.2.2 minDist divRate cost zero (xi0 gr.1.num) (ps0 gr.1.num)
  let s ← (if fsort then Lbc.sortAllParts s else ok s)
  ok (gr.1, s)

/-- `Spic0CSCParallelLBC::build_set`, spic0_demo_utils.h:482-508. -/
def buildLbc (P : Lbc.Params K) (conv : Int → K) (zero : K) (fsort : Bool) (n : Nat) (p ix : List Nat)
    (minDist divRate : Int) (xi0 ps0 : List Nat) : Res Sched := do
  let cost ← Lbc.rowCosts conv zero n p
  let s ← Lbc.coarsenSeq P n p ix minDist divRate cost zero xi0 ps0
  if fsort then Lbc.sortAllParts s else ok s

end Verif.Ic0Demo
