import Verif.Spec.Sparse
import Verif.Spec.Graph

/-!
# Specification: what METIS is given and what it returns

From the METIS manual: the graph is undirected, every edge is stored with both ends, and a node is not
its own neighbour; `METIS_NodeND` returns a permutation of the nodes, `METIS_PartGraphKway` the number of
the part of each node.  This is what the theorems assume of METIS.
-/

namespace Verif

/-- A graph METIS accepts. -/
structure Csc.Undirected (g : Csc) : Prop where
  wf : g.WF
  noLoop : ∀ u, u < g.n → u ∉ g.col u
  nodup : ∀ u, u < g.n → (g.col u).Nodup
  symm : ∀ u v, u < g.n → v ∈ g.col u → u ∈ g.col v

/-- `METIS_NodeND` keeps its promise: for a graph it accepts, it returns `METIS_OK` and a permutation. -/
def Metis.OrdersNodes (nd : Nat → List Nat → List Nat → Int × List Nat) : Prop :=
  ∀ g : Csc, 0 < g.n → g.Undirected →
    (nd g.n g.p g.i).1 = 1 ∧ (nd g.n g.p g.i).2.Perm (List.range g.n)

/-- `METIS_PartGraphKway` keeps its promise: for a graph it accepts, positive weights and a positive
number of parts, it returns `METIS_OK` and a part for every node. -/
def Metis.Partitions (pk : Nat → List Nat → List Nat → Option (List Nat) → Nat → Int × List Nat) : Prop :=
  ∀ (g : Csc) (w : Option (List Nat)) (k : Nat), 0 < g.n → 0 < k → g.Undirected →
    (∀ l, w = some l → l.length = g.n ∧ ∀ x ∈ l, 0 < x) →
    (pk g.n g.p g.i w k).1 = 1 ∧ (pk g.n g.p g.i w k).2.length = g.n ∧
      ∀ x ∈ (pk g.n g.p g.i w k).2, x < k

/-- `g` is the adjacency graph of the pattern of `A`: the neighbours of `u` are the columns, other than
`u`, with an entry in row `u`. -/
structure Sp.AdjGraph {V : Type} (A : Sp V) (g : Csc) : Prop where
  nodes : g.n = A.cols
  wf : g.WF
  nbr : ∀ u v, u < A.cols → (v ∈ g.col u ↔ u ≠ v ∧ (u, v) ∈ A.coords)
  nodup : A.NoDup → ∀ u, u < A.cols → (g.col u).Nodup

end Verif
