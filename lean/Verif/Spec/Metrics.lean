import Verif.Spec.Sched
import Mathlib.Algebra.BigOperators.Group.Finset.Basic
import Mathlib.Algebra.Field.Defs
import Mathlib.Order.Defs.LinearOrder

/-!
# Specification: the measures of a coarse schedule

`c v` is the cost of node `v`.
-/

namespace Verif.Sched
open Finset

variable {K : Type} [Field K] [LinearOrder K]

/-- The parts of level `l`. -/
def partsOf (s : Sched) (l : Nat) : List Nat :=
  List.range' (s.levelPtr.getD l 0) (s.levelPtr.getD (l + 1) 0 - s.levelPtr.getD l 0)

/-- The nodes of part `q`. -/
def part (s : Sched) (q : Nat) : List Nat := groupRows s.partPtr s.nodes q

/-- The cost of part `q`. -/
def partCost (s : Sched) (c : Nat → K) (q : Nat) : K := ((s.part q).map c).sum

/-- The cost of level `l`. -/
def levelCost (s : Sched) (c : Nat → K) (l : Nat) : K := ((s.partsOf l).map (s.partCost c)).sum

/-- `M` is the largest element of `xs`, 0 if there is none. -/
def IsMax (xs : List K) (M : K) : Prop := (∀ x ∈ xs, x ≤ M) ∧ (M ∈ xs ∨ (xs = [] ∧ M = 0))

/-- `M` is the smallest element of `xs`, `d` if there is none. -/
def IsMin (d : K) (xs : List K) (M : K) : Prop := (∀ x ∈ xs, M ≤ x) ∧ (M ∈ xs ∨ (xs = [] ∧ M = d))

/-- The number of parts of level `l` that have nodes. -/
def busy (s : Sched) (l : Nat) : Nat := ((s.partsOf l).filter fun q => s.part q ≠ []).length

/-- The number of nodes of level `l`. -/
def width (s : Sched) (l : Nat) : Nat := ((s.partsOf l).map fun q => (s.part q).length).sum

end Verif.Sched
