import Verif.Spec.Forest
import Mathlib.Algebra.BigOperators.Group.Finset.Basic

/-!
# Specification: the cost of a subtree
-/

namespace Verif

open Classical in
/-- The sum of the weights of the nodes of the subtree of `v`: of `v` and all its descendants. -/
noncomputable def subtreeSum {K : Type} [AddCommMonoid K] (n : Nat) (par : Nat → Option Nat) (w : List K)
    (v : Nat) : K :=
  ∑ x ∈ Finset.range n with Relation.ReflTransGen (ChildOf n par) x v, w.getD x 0

end Verif
