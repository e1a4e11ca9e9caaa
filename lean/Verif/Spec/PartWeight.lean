import Verif.Model.PartWeight

/-!
# Specification: parts filled up to a target weight

Of the model only the type of the operations is used.
-/

namespace Verif.PartW

variable {K : Type}

/-- The weight of a list of nodes, added in this order. -/
def wsum (A : Ops K) (weight : List K) (l : List Nat) : K :=
  l.foldl (fun a x => A.add a (weight.getD x A.zero)) A.zero

/-- The comparisons are those of a total order. -/
def Ops.Total (A : Ops K) : Prop := ∀ a b, A.ge a b = !A.lt a b

/-- Before the last node of the list was added, the target was not reached. -/
def Below (A : Ops K) (weight : List K) (e : K) (l : List Nat) : Prop :=
  ∀ p q, l = p ++ q → q ≠ [] → A.lt (wsum A weight p) e = true

/-- The targets that are used. -/
def goal (A : Ops K) (n : Nat) (weight : List K) (parts : Nat) (target : Option (List K)) (j : Nat) : K :=
  match target with
  | some t => t.getD j A.zero
  | none => A.even (wsum A weight (List.range n)) parts

/-- Part `j`: the slice of the list between two pointers. -/
def partOf (ptr nodes : List Nat) (j : Nat) : List Nat :=
  (nodes.drop (ptr.getD j 0)).take (ptr.getD (j + 1) 0 - ptr.getD j 0)

/-- The operations of exact arithmetic; the common target is at least the mean weight of a part. -/
structure Ops.Exact [Zero K] [Add K] [LT K] [LE K] [DecidableLT K] [NatCast K] [Mul K] (A : Ops K) : Prop where
  zero : A.zero = 0
  add : ∀ a b, A.add a b = a + b
  lt : ∀ a b, A.lt a b = decide (a < b)
  ge : ∀ a b, A.ge a b = !decide (a < b)
  even : ∀ s (k : Nat), 0 < k → s ≤ A.even s k * (k : K)

end Verif.PartW
