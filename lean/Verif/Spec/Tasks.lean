import Verif.Spec.Sched
import Mathlib.Logic.Relation

/-!
# Specification: task graphs

What the point-to-point solvers need from the task graph computed by SpMP.
-/

namespace Verif.P2P
open Relation

/-- The parts of `SpMP::LevelSchedule` used by the solvers. -/
structure TaskGraph where
  ntasks : Nat
  nparents : List Nat
  parents : List (List Nat)
  threadBoundaries : List Nat
  taskBoundaries : List Nat
  perm : List Nat
deriving DecidableEq, Repr

namespace TaskGraph

/-- Task `a` is finished before task `b` starts: it comes earlier in the same thread, or it is a
parent of `b`. -/
inductive Before (S : TaskGraph) (nthreads : Nat) : Nat → Nat → Prop
  | thread {t a b : Nat} : t < nthreads → InBlock S.threadBoundaries t a →
      InBlock S.threadBoundaries t b → a < b → Before S nthreads a b
  | parent {a b k np : Nat} {l : List Nat} : b < S.ntasks → S.nparents[b]? = some np →
      S.parents[b]? = some l → k < np → l[k]? = some a → Before S nthreads a b

/-- A correct task graph for `N` nodes with dependences `dep`, run by `nthreads` threads.  Every task
belongs to one thread and every node to one task.  A dependence stays inside a task and goes to a
later position, or its first task comes before its second, directly or through other tasks. -/
structure Ok (S : TaskGraph) (nthreads N : Nat) (dep : Nat → Nat → Prop) : Prop where
  thr : PtrOk S.threadBoundaries nthreads S.ntasks
  tsk : PtrOk S.taskBoundaries S.ntasks N
  perm : (S.perm.take N).Perm (List.range N)
  par : ∀ t, t < S.ntasks → ∃ np l, S.nparents[t]? = some np ∧ S.parents[t]? = some l ∧
    ∀ k, k < np → ∃ p, l[k]? = some p ∧ p < S.ntasks
  dep : ∀ u v, dep u v → ∀ t t' c c', t < S.ntasks → t' < S.ntasks →
    InBlock S.taskBoundaries t c → S.perm[c]? = some u →
    InBlock S.taskBoundaries t' c' → S.perm[c']? = some v →
    (t = t' ∧ c < c') ∨ TransGen (S.Before nthreads) t t'
  acyclic : ∀ t, ¬ TransGen (S.Before nthreads) t t

end TaskGraph
end Verif.P2P
