import Verif.Spec.Sched
import Mathlib.Data.List.Chain

/-!
# Specification: grouping the nodes of a graph

Independent of every algorithm.  A grouping is given, as in the C++ code, by a number of groups, a
pointer array and a node array: group `j` has the nodes `set[ptr[j]], ..., set[ptr[j+1]-1]`.
-/

namespace Verif

/-- A grouping of nodes. -/
structure Grouping where
  num : Nat
  ptr : List Nat
  set : List Nat
deriving DecidableEq, Repr

/-- From `u` the only way on leads to `r`: every node before `r` has exactly one successor. -/
inductive Csc.OnlyWay (g : Csc) : Nat → Nat → Prop
  | refl (r : Nat) : OnlyWay g r r
  | step {u v r : Nat} : g.Dep u v → (∀ w, g.Dep u w → w = v) → OnlyWay g v r → OnlyWay g u r

namespace Grouping

/-- Node `v` is a member of group `j`. -/
def Mem (G : Grouping) (v j : Nat) : Prop := j < G.num ∧ v ∈ groupRows G.ptr G.set j

/-- Each of the nodes `0..n-1` is listed in exactly one group, once. -/
structure Partition (G : Grouping) (n : Nat) : Prop where
  ptr : PtrOk G.ptr G.num n
  nodes : (G.set.take n).Perm (List.range n)

/-- No group is empty. -/
def NonEmpty (G : Grouping) : Prop := ∀ j, j < G.num → groupRows G.ptr G.set j ≠ []

/-- Group `b` depends on the other group `a`: a node of `b` depends on a node of `a`. -/
def Dep (G : Grouping) (g : Csc) (a b : Nat) : Prop :=
  a ≠ b ∧ ∃ u v, G.Mem u a ∧ G.Mem v b ∧ g.Dep u v

/-- No group depends on itself through other groups. -/
def AcyclicQuotient (G : Grouping) (g : Csc) : Prop :=
  ∀ a, ¬ Relation.TransGen (G.Dep g) a a

/-- The groups are numbered by their smallest nodes. -/
def ByLeast (G : Grouping) : Prop :=
  ∀ i j, i < j → j < G.num → ∃ u, G.Mem u i ∧ ∀ v, G.Mem v j → u < v

/-- No group has more than `L` nodes. -/
def Limited (G : Grouping) (L : Nat) : Prop :=
  ∀ j, j < G.num → (groupRows G.ptr G.set j).length ≤ L

/-- All members of a group lead to the same node, along nodes with exactly one successor; so every member but one has
exactly one successor. -/
def TreeLike (G : Grouping) (g : Csc) : Prop :=
  ∀ j, j < G.num → ∃ r, ∀ u, G.Mem u j → g.OnlyWay u r

/-- One dependence path visits all groups. -/
def OnOnePath (G : Grouping) (g : Csc) : Prop :=
  ∃ l : List Nat, l.Perm (List.range G.num) ∧ l.IsChain (G.Dep g)

end Grouping
end Verif
