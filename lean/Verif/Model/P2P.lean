import Verif.Model.Exec
import Verif.Spec.Tasks
import Verif.Model.Machine

/-!
# Model: the point-to-point solvers of example/SpTRSV_runtime.h

`fused_code` of the classes `SpTrSv_LL_Tree_HDAGG_BFS_P2P` (lines 1106-1162) and `SpTrsv_LL_SpMP`
(lines 1536-1589).  The threads of one `omp parallel` region run the tasks of a task graph; a
task starts when its parents have set their flags.

The task graph is computed by the external library SpMP; it is an argument here.  Its macros
`SPMP_LEVEL_SCHEDULE_WAIT` and `SPMP_LEVEL_SCHEDULE_NOTIFY` are not part of the repository either.
They are modelled by what they do in SpMP: wait, for one parent after the other, until its entry of
`taskFinished` is not zero; set the entry of the finished task to one.  Loads and stores of `x`
and of the flags happen one after the other in the order of the scheduler (sequential
consistency).
-/

namespace Verif.P2P
open Res Exec

variable {V : Type _}

/-- One step of a thread: an access to `x`, a test of the flag of a parent, or the store to the flag
of the finished task. -/
inductive PIns (V : Type _) where
  | acc (ins : Instr V)
  | wait (p : Nat)
  | notify (t : Nat)
deriving DecidableEq, Repr

/-- State of a thread. -/
structure PThr (V : Type _) where
  code : List (PIns V)
  r1 : Option V
  r2 : Option V

/-- What the threads share: the flags and the vector. -/
structure Shared (V : Type _) where
  flags : List Nat
  x : List V

/-- The next step of a thread.  A thread whose awaited flag is zero stays where it is. -/
def stepThr (A : Arith V) (th : PThr V) (s : Shared V) : Res (PThr V × Shared V) :=
  match th.code with
  | [] => ok (th, s)
  | .acc ins :: rest => do
    let c ← ins.exec A ⟨th.r1, th.r2, s.x⟩
    ok (⟨rest, c.r1, c.r2⟩, { s with x := c.mem })
  | .wait p :: rest => do
    let f ← rd s.flags p
    if f = 0 then ok (th, s) else ok ({ th with code := rest }, s)
  | .notify t :: rest => do
    let fl ← wr s.flags t 1
    ok ({ th with code := rest }, { s with flags := fl })

/-- Let the threads make their next steps in the order of the scheduler. -/
def runSched (A : Arith V) : List Nat → List (PThr V) → Shared V → Res (List (PThr V) × Shared V)
  | [], ths, s => ok (ths, s)
  | t :: sch, ths, s =>
    match ths[t]? with
    | none => runSched A sch ths s
    | some th => do
      let r ← stepThr A th s
      runSched A sch (ths.set t r.1) r.2

/-- Lines 1130-1137, 1560-1567: the flags cleared by thread `tid` of `nthreads`. -/
def clearCode (ntasks nthreads tid : Nat) : Res (List Nat) :=
  let nPerThread := (ntasks + nthreads - 1) / nthreads
  let nBegin := min (nPerThread * tid) ntasks
  let nEnd := min (nBegin + nPerThread) ntasks
  ok (List.range' nBegin (nEnd - nBegin))

/-- `memset` on the flags, one store. -/
def clearStep (k : Nat) (r : Unit) (flags : List Nat) : Res (Unit × List Nat) := do
  let fl ← wr flags k 0
  ok (r, fl)

/-- The wait of lines 1143, 1573: one wait for each of the first `nparents[task]` parents. -/
def waitCode (S : TaskGraph) (task : Nat) : Res (List (PIns V)) := do
  let np ← rd S.nparents task
  forRange 0 np (fun k code => do
    let ps ← rd S.parents task
    let p ← rd ps k
    ok (code ++ [.wait p])) []

/-- The body of the loop over the tasks, lines 1143-1156, 1573-1581; `body c` are the accesses for
position `c`. -/
def taskCode (S : TaskGraph) (body : Nat → Res (List (Instr V))) (task : Nat) :
    Res (List (PIns V)) := do
  let w ← waitCode S task
  let lo ← rd S.taskBoundaries task
  let hi ← rd S.taskBoundaries (task + 1)
  let code ← Exec.seqCode lo hi body
  ok (w ++ code.map .acc ++ [.notify task])

/-- The tasks of a thread, lines 1141-1157, 1571-1582. -/
def threadCode (S : TaskGraph) (body : Nat → Res (List (Instr V))) (tid : Nat) :
    Res (List (PIns V)) := do
  let lo ← rd S.threadBoundaries tid
  let hi ← rd S.threadBoundaries (tid + 1)
  forRange lo hi (fun task code => do
    let c ← taskCode S body task
    ok (code ++ c)) []

/-- The codes of the threads with the numbers `tids`. -/
def threadCodes (f : Nat → Res (List (PIns V))) (tids : List Nat) : Res (List (List (PIns V))) :=
  forEach tids (fun tid codes => do
    let c ← f tid
    ok (codes ++ [c])) []

/-- The flags to clear of the threads with the numbers `tids`. -/
def clearCodes (ntasks nthreads : Nat) (tids : List Nat) : Res (List (List Nat)) :=
  forEach tids (fun tid codes => do
    let c ← clearCode ntasks nthreads tid
    ok (codes ++ [c])) []

/-- The parallel region: clear the flags, barrier, run the tasks.  `tids` are the values of
`tid` in the team and `nthreads` is the size of the team; `sch₀`, `sch` are the schedulers before
and after the barrier, `flags` is what the last solve left in `taskFinished`.  `nofuel`: a scheduler
did not let every thread finish. -/
def region (A : Arith V) (S : TaskGraph) (body : Nat → Res (List (Instr V))) (nthreads : Nat)
    (tids : List Nat) (sch₀ sch : List Nat) (flags : List Nat) (x : List V) :
    Res (List V) := do
  let cl ← clearCodes S.ntasks nthreads tids
  let flags ← Mach.parFor clearStep () cl sch₀ flags
  let codes ← threadCodes (threadCode S body) tids
  let r ← runSched A sch (codes.map fun c => ⟨c, none, none⟩) ⟨flags, x⟩
  if r.1.all (fun th => th.code.isEmpty) then ok r.2.x else nofuel

/-- The team of the region, lines 1117-1123, 1547-1553: `nthreads` threads numbered from zero with
OpenMP, one thread with the number one without. -/
inductive Team where
  | openmp (nthreads : Nat)
  | noOpenmp

/-- The value of `nthreads`. -/
def Team.size : Team → Nat
  | .openmp n => n
  | .noOpenmp => 1

/-- The values of `tid`. -/
def Team.tids : Team → List Nat
  | .openmp n => List.range n
  | .noOpenmp => [1]

/-- `fused_code` of `SpTrsv_LL_SpMP`, lines 1536-1589: position `c` is the row `perm[c]`. -/
def spmpSolve (A : Arith V) (S : TaskGraph) (team : Team) (Lp Li : List Nat) (Lx : List V)
    (sch₀ sch : List Nat) (flags : List Nat) (x : List V) : Res (List V) :=
  region A S (fun c => do
    let row ← rd S.perm c
    rowCode Lp Li Lx row) team.size team.tids sch₀ sch flags x

/-- `fused_code` of `SpTrSv_LL_Tree_HDAGG_BFS_P2P`, lines 1106-1162: position `c` are the rows
of the group `perm[c]`. -/
def p2pSolve (A : Arith V) (S : TaskGraph) (team : Team) (groupPtr groupSet : List Nat)
    (Lp Li : List Nat) (Lx : List V) (sch₀ sch : List Nat) (flags : List Nat) (x : List V) :
    Res (List V) :=
  region A S (fun c => do
    let gr ← rd S.perm c
    groupCode Lp Li Lx groupPtr groupSet gr) team.size team.tids sch₀ sch flags x

end Verif.P2P
