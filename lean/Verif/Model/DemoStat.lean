import Verif.Res
import Verif.Spec.Sched

/-!
# Model: the measures of the classes of the LBC demo

example/sptrsv_demo_utils.h 215-241 (`SptrsvLBCDAG`) and 345-371 (`SptrsvLBC_W_Sorting`), which have the same text; the second one also example/old/spic0_demo_utils.h 551-565
(`Spic0CSCParallelLBC`).  example/old/spic0_demo_utils.h 403-443: the versions for grouped columns.  A
result `1.0*a/b` is the pair of the two whole numbers `a` and `b`; if both are 0 the program gets no number.
-/

namespace Verif.DemoStat
open Res

/-- `averWsize`, example/sptrsv_demo_utils.h 215-226; `rp` is `L1_csr_->p`. -/
def averWsize (rp : List Nat) (s : Sched) : Res (Int × Int) := do
  let parts ← rd s.levelPtr s.levels
  let ncols ← forRange 0 parts (fun i acc => do
    let lo ← rd s.partPtr i
    let hi ← rd s.partPtr (i + 1)
    forRange lo hi (fun k1 acc => do
      let k ← rd s.nodes k1
      let b ← rd rp (k + 1)
      let a ← rd rp k
      ok (acc + ((b : Int) - (a : Int)))) acc) (0 : Int)
  ok (ncols, (parts : Int))

/-- `consecutiveRatio`, example/sptrsv_demo_utils.h 228-241: `sum` and `t_sum`.  The upper bound `final_part_ptr[i+1]-1`
is -1 for 0, with the same effect as 0. -/
def consecutiveRatio (s : Sched) : Res (Int × Int) := do
  let parts ← rd s.levelPtr s.levels
  forRange 0 parts (fun i t => do
    let hi ← rd s.partPtr (i + 1)
    let lo ← rd s.partPtr i
    let sum ← forRange lo (hi - 1) (fun k1 sum => do
      let b ← rd s.nodes (k1 + 1)
      let a ← rd s.nodes k1
      ok (if (b : Int) - (a : Int) = 1 then sum + 1 else sum)) t.1
    ok (sum, t.2 + ((hi : Int) - (lo : Int) - 1))) ((0 : Int), (0 : Int))

/-- `averWsize` of the grouped class, example/old/spic0_demo_utils.h 403-418; the nodes of the schedule are groups. -/
def averWsizeGrouped (rp gp gs : List Nat) (s : Sched) : Res (Int × Int) := do
  let parts ← rd s.levelPtr s.levels
  let ncol ← forRange 0 parts (fun i acc => do
    let lo ← rd s.partPtr i
    let hi ← rd s.partPtr (i + 1)
    forRange lo hi (fun j acc => do
      let k ← rd s.nodes j
      let glo ← rd gp k
      let ghi ← rd gp (k + 1)
      forRange glo ghi (fun l acc => do
        let k1 ← rd gs l
        let b ← rd rp (k1 + 1)
        let a ← rd rp k1
        ok (acc + ((b : Int) - (a : Int)))) acc) acc) (0 : Int)
  ok (ncol, (parts : Int))

/-- `consecutiveRatio` of the grouped class, example/old/spic0_demo_utils.h 420-443.  `groupPtr` is read at the position
`k1`, not at the group of that position, and the last summand of `t_sum` is a difference of equal numbers. -/
def consecutiveRatioGrouped (gp : List Nat) (s : Sched) : Res (Int × Int) := do
  let parts ← rd s.levelPtr s.levels
  forRange 0 parts (fun i t => do
    let lo ← rd s.partPtr i
    let hi ← rd s.partPtr (i + 1)
    let t ← forRange lo (hi - 1) (fun k1 t => do
      let b ← rd s.nodes (k1 + 1)
      let a ← rd s.nodes k1
      let g1 ← rd gp (k1 + 1)
      let g0 ← rd gp k1
      ok (if (b : Int) - (a : Int) = 1 then (t.1 + ((g1 : Int) - (g0 : Int)), t.2 + ((g1 : Int) - (g0 : Int)))
        else (t.1 + ((g1 : Int) - (g0 : Int) - 1), t.2 + ((g1 : Int) - (g0 : Int))))) t
    let e ← rd gp hi
    let d ← if hi = 0 then ub else rd gp (hi - 1)
    ok (t.1 + ((e : Int) - (d : Int)), t.2 + ((e : Int) - (e : Int)) - 1)) ((0 : Int), (0 : Int))

end Verif.DemoStat
