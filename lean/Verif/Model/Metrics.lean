import Verif.Model.Cost
import Verif.Model.Sparse
import Verif.Spec.Sched
import Mathlib.Algebra.Field.Defs
import Mathlib.Order.Defs.LinearOrder

/-!
# Model: the measures of a schedule in the classes of example/SpTRSV_runtime.h

The functions occur in the classes HDAGG, Tree_HDAGG, Tree_HDAGG_BFS, Tree_HDAGG_BFS_P2P, DAGP and LBC with the same
text; the lines of Tree_HDAGG_BFS (and DAGP) are cited.  `double` is an ordered field: rounding is left out and a
division by zero, which gives an infinite value or no number, is not meaningful in the model.  The elements `[lvl]` of
the arrays over the levels start with 0 and are changed in iteration `lvl` only; here they are kept in a record
and stored at the end of the iteration.
-/

namespace Verif.SchedStat
open Res Sp

variable {K : Type} [Field K] [LinearOrder K]

/-- What one level has put into the arrays. -/
structure Level (K : Type) where
  max : K
  min : K
  total : K

/-- `final_part_ptr[w_ptr + 1] - final_part_ptr[w_ptr]`. -/
def partSize (s : Sched) (w : Nat) : Res K := do
  let b ← rd s.partPtr (w + 1)
  let a ← rd s.partPtr w
  ok ((b : K) - (a : K))

/-- The loop over the nodes of a part, SpTRSV_runtime.h:790-795. -/
def partCost (cost : List K) (s : Sched) (w : Nat) : Res K := do
  let lo ← rd s.partPtr w
  let hi ← rd s.partPtr (w + 1)
  forRange lo hi (fun i acc => do
    let node ← rd s.nodes i
    let c ← rd cost node
    ok (acc + c)) 0

/-- The comparisons with the size of a part, SpTRSV_runtime.h:796-803. -/
def addPart (size : K) (t : Level K) : Level K :=
  ⟨if t.max < size then size else t.max, if size < t.min then size else t.min, t.total + size⟩

/-- The body of the loop over the levels, SpTRSV_runtime.h:784-807; `size` gives the size of a part, `n` is `n_`. -/
def levelLoop (n : Nat) (size : Nat → Res K) (s : Sched) (lvl : Nat) : Res (Level K) := do
  let lo ← rd s.levelPtr lvl
  let hi ← rd s.levelPtr (lvl + 1)
  forRange lo hi (fun w t => do
    let z ← size w
    ok (addPart z t)) ⟨0, n, 0⟩

/-- The loop over the levels. -/
def levels (n : Nat) (size : Nat → Res K) (s : Sched) : Res (List (Level K)) :=
  forRange 0 s.levels (fun lvl ls => do
    let r ← levelLoop n size s lvl
    ok (ls ++ [r])) []

/-- The reference parameters of `computeCharacteristics`. -/
structure Chars (K : Type) where
  first : K
  second : K
  third : K
  avg : K

/-- `if (lvl == k) x = max_size / total_nodes`. -/
def share (k : Nat) (ls : List (Level K)) (x : K) : K :=
  match ls[k]? with
  | some t => t.max / t.total
  | none => x

/-- `computeCharacteristics`, SpTRSV_runtime.h:730-772; `r` are the values of the parameters before.  The three
assignments are made after the loop instead of in it.  `debug` switches the assertion on. -/
def characteristics (debug : Bool) (n : Nat) (s : Sched) (r : Chars K) : Res (Chars K) := do
  let ls ← levels n (partSize s) s
  if debug = true ∧ (ls.map Level.total).sum ≠ (n : K) then exn
  else ok ⟨share 0 ls r.first, share 1 ls r.second, share 2 ls r.third, (ls.map Level.max).sum / n⟩

/-- The results of `computeStatistic` and `getStatistic`. -/
structure Stat (K : Type) where
  partNo : K
  avgPar : K
  maxDiff : K
deriving DecidableEq

/-- The number of parts that are not empty, SpTRSV_runtime.h:775-780; without any element, `size() - 1` is the largest
number of its type and the loop leaves the array. -/
def countParts (s : Sched) : Res K :=
  if s.partPtr = [] then ub
  else forRange 0 (s.partPtr.length - 1) (fun i c => do
    let b ← rd s.partPtr (i + 1)
    let a ← rd s.partPtr i
    ok (if b ≠ a then c + 1 else c)) 0

/-- `max_diff`, SpTRSV_runtime.h:813-819. -/
def maxDiff (ls : List (Level K)) : K :=
  (ls.map fun t => t.total * (t.max - t.min)).sum / (ls.map Level.total).sum

/-- `computeStatistic`, SpTRSV_runtime.h:774-821, where the size of a part is its cost. -/
def statistic (n : Nat) (cost : List K) (s : Sched) : Res (Stat K) := do
  let c ← countParts s
  let ls ← levels n (partCost cost s) s
  ok ⟨c, c / s.levels, maxDiff ls⟩

/-- `computeStatistic` of the class with dagP, SpTRSV_runtime.h:1366-1401, where it is the number of nodes. -/
def statisticDagp (n : Nat) (s : Sched) : Res (Stat K) := do
  let p ← rd s.levelPtr s.levels
  let ls ← levels n (partSize s) s
  ok ⟨p, (p : K) / s.levels, maxDiff ls⟩

/-! ### `getPotentialGain` and `computeMetrics` -/

/-- The elements of the arrays for one level, and `Total_cost`. -/
structure Acc (K : Type) where
  parts : K
  nodes : K
  cost : K
  max : K
  total : K

/-- The loop over the nodes of a part, SpTRSV_runtime.h:855-863; the number is `part_cost`. -/
def gainPart (cost : List K) (s : Sched) (lo hi : Nat) (a : Acc K) : Res (Acc K × K) :=
  forRange lo hi (fun k t => do
    let node ← rd s.nodes k
    let c ← rd cost node
    ok ({ t.1 with total := t.1.total + c, cost := t.1.cost + c, nodes := t.1.nodes + 1 }, t.2 + c)) (a, 0)

/-- The body of the loop over the parts, SpTRSV_runtime.h:850-867. -/
def gainStep (cost : List K) (s : Sched) (q : Nat) (a : Acc K) : Res (Acc K) := do
  let hi ← rd s.partPtr (q + 1)
  let lo ← rd s.partPtr q
  let r ← gainPart cost s lo hi (if hi ≠ lo then { a with parts := a.parts + 1 } else a)
  ok (if r.1.max < r.2 then { r.1 with max := r.2 } else r.1)

/-- The state of the loop over the levels. -/
structure Gain (K : Type) where
  levels : List (Acc K)
  total : K
  critical : K

/-- The loop over the levels, SpTRSV_runtime.h:847-869 and 896-919. -/
def gainLoop (cost : List K) (s : Sched) : Res (Gain K) :=
  forRange 0 s.levels (fun lvl g => do
    let lo ← rd s.levelPtr lvl
    let hi ← rd s.levelPtr (lvl + 1)
    let a ← forRange lo hi (gainStep cost s) ⟨0, 0, 0, 0, g.total⟩
    ok ⟨g.levels ++ [a], a.total, g.critical + a.max⟩) ⟨[], 0, 0⟩

/-- The call of `costComputation` without groups, for a new vector of `n` zeros. -/
def nodeCosts (order : List Nat) (n : Nat) (cscP cscI csrP csrI : List Nat) (k : Kernel) : Res (List K) := do
  let c ← Cost.costComputation order n cscP cscI csrP csrI k [] [] false (List.replicate n 0)
  ok (c.map fun x : Nat => (x : K))

/-- `getPotentialGain`, SpTRSV_runtime.h:832-873. -/
def potentialGain (order : List Nat) (n threads : Nat) (cscP cscI csrP csrI : List Nat) (s : Sched) : Res K := do
  let cost ← nodeCosts order n cscP cscI csrP csrI .spTrSvLL
  let g ← gainLoop cost s
  ok (1 - (g.total / threads) / g.critical)

/-- The reference parameters of `computeMetrics`. -/
structure Metrics (K : Type) where
  avgParallelism : K
  weightedAvgParallelism : K
  costAvgParallelism : K
  perVertexTrsv : K
  perNnzTrsv : K
  perVertexIlu : K
  perNnzIlu : K
  perVertexIc : K
  perNnzIc : K
  gain : K

/-- The rows of the full matrix, SpTRSV_runtime.h:948-950; `make_full` returns NULL if `stype0`. -/
def fullRows {V : Type} [Zero V] (A : Sp V) (stype0 : Bool) (nnz : Nat) : Res (Sp V) := do
  let F ← makeFull A stype0 nnz
  match F with
  | none => ub
  | some F => do
    let fnz ← rd F.p F.cols
    cscToCsr F fnz false

/-- `computeMetrics`, SpTRSV_runtime.h:875-966, without the average size of the groups; `r` are the values of the
parameters before. -/
def computeMetrics {V : Type} [Zero V] (order order₂ order₃ : List Nat) (A : Sp V) (stype0 : Bool) (nnz threads : Nat)
    (csrP csrI : List Nat) (s : Sched) (r : Metrics K) : Res (Metrics K) := do
  let cost ← nodeCosts order A.cols A.p A.i csrP csrI .spTrSvLL
  let g ← gainLoop cost s
  let ic ← nodeCosts order₂ A.cols A.p A.i csrP csrI .spICh0UL
  let F ← fullRows A stype0 nnz
  let ilu ← nodeCosts order₃ A.cols [] [] F.p F.i .spICh0UL
  ok ⟨(g.levels.map Acc.parts).sum / s.levels,
    (r.weightedAvgParallelism + (g.levels.map fun a => a.parts * a.nodes).sum) / A.cols,
    (r.costAvgParallelism + (g.levels.map fun a => a.parts * a.cost).sum) / g.total,
    g.total / A.cols, g.total / nnz, (ilu : List K).sum / A.cols, ilu.sum / nnz, (ic : List K).sum / A.cols, ic.sum / nnz,
    1 - (g.total / threads) / g.critical⟩

end Verif.SchedStat
