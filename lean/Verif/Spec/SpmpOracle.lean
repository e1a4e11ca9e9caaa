import Verif.Spec.SpmpLevels
import Verif.Spec.SpmpMat

/-!
# Specification: what is assumed about the level schedule of SpMP

`SpMP::LevelSchedule` is not part of the repository.
-/

namespace Verif.P2P

variable {V : Type}

/-- The levels are as early as possible: no level is empty, and a node of level `l + 1` depends on a node of level
`l`. -/
structure LevelTasks.Tight (S : LevelTasks) (T L : Nat) (dep : Nat → Nat → Prop) : Prop where
  nonempty : ∀ l, l < L → S.levIndices.getD l 0 < S.levIndices.getD (l + 1) 0
  pred : ∀ v t l, t < T → l + 1 < L → InLevel S.taskBoundaries S.perm (t * L + (l + 1)) v →
    ∃ u t', t' < T ∧ dep u v ∧ InLevel S.taskBoundaries S.perm (t' * L + l) u

/-- Assumption about SpMP: for every symmetric matrix with full diagonal and a barrier schedule for `T` threads,
`constructTaskGraph` gives the level sets of the dependences of its lower triangle. -/
def LevelOracleOk (spmp : SpmpMat V → LevelTasks) (recip : V → V) (T : Nat) : Prop :=
  ∀ n M, M.Good recip n → ∃ L, (spmp M).Ok T L n (fun u v => u < v ∧ (u, v) ∈ (M.sp n).coords) ∧
    (spmp M).Tight T L (fun u v => u < v ∧ (u, v) ∈ (M.sp n).coords)

end Verif.P2P
