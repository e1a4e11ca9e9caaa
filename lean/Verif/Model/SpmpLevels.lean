import Verif.Res
import Verif.Spec.SpmpLevels

/-!
# Model: `levelsetCSRParallel_SpMP` (src/hdagg/hdagg.cpp 2587-2631)

`S` is the result of `constructTaskGraph`; the branch for unsymmetric patterns calls it with other arguments only.
-/

namespace Verif.P2P
open Res

/-- The loop over the rows of a task, hdagg.cpp:2620-2623. -/
def taskRows (S : LevelTasks) (lo hi : Nat) (s : Nat × List Nat) : Res (Nat × List Nat) :=
  forRange lo hi (fun i s => do
    let row ← rd S.perm i
    let set ← wr s.2 s.1 row
    ok (s.1 + 1, set)) s

/-- The assertion `task < threadBoundaries[tid + 1]`, hdagg.cpp:2619. -/
def checkTask (debug : Bool) (S : LevelTasks) (tid task : Nat) : Res Unit :=
  if debug then do
    let e ← rd S.threadBoundaries (tid + 1)
    if task < e then ok () else exn
  else ok ()

/-- The assertion `level_ptr.back() == A->m`, hdagg.cpp:2628. -/
def checkEnd (debug : Bool) (S : LevelTasks) (n : Nat) : Res Unit :=
  if debug then do
    let e ← back S.levIndices
    if e = n then ok () else exn
  else ok ()

/-- The body of the loop over the threads, hdagg.cpp:2618-2623. -/
def taskStep (debug : Bool) (S : LevelTasks) (lvl tid : Nat) (s : Nat × List Nat) : Res (Nat × List Nat) := do
  let b ← rd S.threadBoundaries tid
  let _ ← checkTask debug S tid (b + lvl)
  let lo ← rd S.taskBoundaries (b + lvl)
  let hi ← rd S.taskBoundaries (b + lvl + 1)
  taskRows S lo hi s

/-- `levelsetCSRParallel_SpMP`, hdagg.cpp:2587-2631, for new vectors: `nlevels`, `level_ptr`, `level_set`.  An empty
`levIndices` counts as no level.  `debug` switches the assertions on. -/
def levelsetSpmp (debug : Bool) (n nthreads : Nat) (S : LevelTasks) : Res (Nat × List Nat × List Nat) := do
  let s ← forRange 0 (S.levIndices.length - 1) (fun lvl s => forRange 0 nthreads (taskStep debug S lvl) s) (0, List.replicate n 0)
  let _ ← checkEnd debug S n
  ok (S.levIndices.length - 1, S.levIndices, s.2)

end Verif.P2P
