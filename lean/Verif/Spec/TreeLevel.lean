import Verif.Spec.Forest

/-!
# Specification: chains in a forest

Independent of every algorithm.  A forest is stored as the array of the parents, a negative number
for "no parent".
-/

namespace Verif

/-- The parent of `v` in an array of parents. -/
def parentOf (t : List Int) (v : Nat) : Option Nat :=
  if 0 ≤ t.getD v (-1) then some (t.getD v (-1)).toNat else none

/-- `s` is the sum of the weights of the proper ancestors of a node; with weight 1 for every node, the
distance from the root. -/
inductive Above (par : Nat → Option Nat) (wt : Nat → Int) : Nat → Int → Prop where
  | root {x : Nat} : par x = none → Above par wt x 0
  | child {x p : Nat} {s : Int} : par x = some p → Above par wt p s → Above par wt x (wt p + s)

/-- `h` is the largest number with the property `P`, or 0 if there is none above 0. -/
def LargestOr0 (P : Int → Prop) (h : Int) : Prop := 0 ≤ h ∧ (∀ d, P d → d ≤ h) ∧ (h = 0 ∨ P h)

/-- There are `k` steps from a child to its parent that end in `v`. -/
inductive Chain (n : Nat) (par : Nat → Option Nat) : Nat → Nat → Prop where
  | nil {v : Nat} : v < n → Chain n par 0 v
  | snoc {k u v : Nat} : Chain n par k u → ChildOf n par u v → Chain n par (k + 1) v

/-- `k` is the length of a longest chain that ends in `v`: the height of the subtree of `v`. -/
def IsHeight (n : Nat) (par : Nat → Option Nat) (v k : Nat) : Prop :=
  Chain n par k v ∧ ∀ m, Chain n par m v → m ≤ k

end Verif
