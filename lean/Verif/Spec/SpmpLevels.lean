import Verif.Spec.Sched

/-!
# Specification: level schedules with barriers

What `levelsetCSRParallel_SpMP` needs from the `LevelSchedule` of SpMP, which is not part of the repository.
-/

namespace Verif.P2P

/-- The parts of `SpMP::LevelSchedule` that are used. -/
structure LevelTasks where
  threadBoundaries : List Nat
  taskBoundaries : List Nat
  levIndices : List Nat
  perm : List Nat
deriving DecidableEq, Repr

/-- The number of nodes of a task. -/
def LevelTasks.size (S : LevelTasks) (k : Nat) : Nat := S.taskBoundaries.getD (k + 1) 0 - S.taskBoundaries.getD k 0

/-- A correct schedule of `n` nodes in `L` levels for `T` threads.  Every thread has one task for each level, thread
`t` has the tasks `t * L .. (t + 1) * L - 1`; every node is in one task; `levIndices` counts the nodes of the levels;
a dependence goes to a later level. -/
structure LevelTasks.Ok (S : LevelTasks) (T L n : Nat) (dep : Nat → Nat → Prop) : Prop where
  thr : ∀ t, t ≤ T → S.threadBoundaries[t]? = some (t * L)
  tsk : PtrOk S.taskBoundaries (T * L) n
  lev : PtrOk S.levIndices L n
  levLen : S.levIndices.length = L + 1
  size : ∀ l, l < L →
    S.levIndices.getD (l + 1) 0 = S.levIndices.getD l 0 + ((List.range T).map fun t => S.size (t * L + l)).sum
  perm : (S.perm.take n).Perm (List.range n)
  dep : ∀ u v t t' l l', dep u v → t < T → t' < T → l < L → l' < L →
    InLevel S.taskBoundaries S.perm (t * L + l) u → InLevel S.taskBoundaries S.perm (t' * L + l') v → l < l'

end Verif.P2P
