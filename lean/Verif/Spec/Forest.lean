import Mathlib.Logic.Relation

/-!
# Specification: forests and post orders

`par j` is the parent of node `j`, or `none` for a root.
-/

namespace Verif

/-- The nodes are `0, ..., n - 1` and every parent is a later node. -/
def Forest (n : Nat) (par : Nat → Option Nat) : Prop :=
  ∀ j p, j < n → par j = some p → j < p ∧ p < n

/-- `c` is a child of `p`. -/
def ChildOf (n : Nat) (par : Nat → Option Nat) (c p : Nat) : Prop := c < n ∧ par c = some p

/-- `l` is a post order of the forest, in which siblings (and roots) follow the order `before`. -/
structure IsPostOrder (n : Nat) (par : Nat → Option Nat) (before : Nat → Nat → Prop) (l : List Nat) :
    Prop where
  /-- every node occurs exactly once -/
  perm : l.Perm (List.range n)
  /-- directly in front of every node are its descendants -/
  block : ∀ p, p < n → ∃ a D b, l = a ++ D ++ p :: b ∧
    ∀ x, x ∈ D ↔ Relation.TransGen (ChildOf n par) x p
  /-- siblings are in the order `before` -/
  siblings : ∀ c d p, ChildOf n par c p → ChildOf n par d p → before c d → [c, d].Sublist l
  /-- roots are in ascending order -/
  roots : ∀ c d, c < d → d < n → par c = none → par d = none → [c, d].Sublist l

/-- Siblings sorted by weight, the weights being cut off below `0` and above `n - 1`; siblings of the
same weight are in ascending order. -/
def ByWeight (n : Nat) (wt : Nat → Int) (c d : Nat) : Prop :=
  min (max 0 (wt c)) (n - 1) < min (max 0 (wt d)) (n - 1) ∨
    min (max 0 (wt c)) (n - 1) = min (max 0 (wt d)) (n - 1) ∧ c < d

/-- The distance of a node from its root. -/
inductive Depth (par : Nat → Option Nat) : Nat → Nat → Prop where
  | root {x : Nat} : par x = none → Depth par x 0
  | child {x p d : Nat} : par x = some p → Depth par p d → Depth par x (d + 1)

end Verif
