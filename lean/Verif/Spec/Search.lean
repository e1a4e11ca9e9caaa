import Verif.Spec.Graph

/-!
# Specification: the order of a breadth-first search

Independent of every algorithm.
-/

namespace Verif.Csc

/-- The node at position `j` is the first one in the list that has the node at position `k` in its
column. -/
def FoundBy (g : Csc) (l : List Nat) (j k : Nat) : Prop :=
  j < k ∧ l.getD k 0 ∈ g.col (l.getD j 0) ∧ ∀ i, i < j → l.getD k 0 ∉ g.col (l.getD i 0)

/-- The nodes are listed in the order in which a breadth-first search discovers them.  A new search
begins only when all that can be reached is listed, and then at the smallest node not yet listed. -/
structure BfsOrder (g : Csc) (l : List Nat) : Prop where
  nodup : l.Nodup
  found : ∀ k, k < l.length → (∃ j, g.FoundBy l j k) ∨
    ((∀ j, j < k → ∀ y ∈ g.col (l.getD j 0), y ∈ l.take k) ∧ ∀ x, x < l.getD k 0 → x ∈ l.take k)
  queue : ∀ k k' j j', k < k' → k' < l.length → g.FoundBy l j k → g.FoundBy l j' k' → j ≤ j'

end Verif.Csc
