import Mathlib.Data.List.Basic

/-!
# Specification: the trees of a forest

Independent of every algorithm.
-/

namespace Verif

/-- The list ends with a root, and every other node of the list has a parent, which stands behind it
in the list. -/
def IsTree (par : Nat → Option Nat) (q : List Nat) : Prop :=
  ∃ q' r, q = q' ++ [r] ∧ par r = none ∧ ∀ x ∈ q', ∃ p, par x = some p ∧ [x, p].Sublist q

end Verif
