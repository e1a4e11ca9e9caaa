import Verif.Spec.Graph

/-!
# Specification: graphs and partitions of dagP

dagP numbers its vertices from 1.  Independent of every algorithm.
-/

namespace Verif.Dagp

/-- The fields of a `dgraph` of dagP that are used (dagp_utils.h 29-35).  The out-edges
of vertex `i` are at the positions `outStart[i] .. outEnd[i]`, both included, so `outEnd` may be `-1`. -/
structure DGraph (W : Type) where
  nVrtx : Nat
  outStart : List Nat
  outEnd : List Int
  out : List Nat
  ecOut : List W

namespace DGraph
variable {W : Type}

/-- Position `j` holds an edge from `u` to `v` with weight `w`. -/
def EdgeAt (G : DGraph W) (u j v : Nat) (w : W) : Prop :=
  ∃ s e, G.outStart[u]? = some s ∧ G.outEnd[u]? = some e ∧ s ≤ j ∧ (j : Int) ≤ e ∧
    G.out[j]? = some v ∧ G.ecOut[j]? = some w

/-- There is an edge from `u` to `v`. -/
def Out (G : DGraph W) (u v : Nat) : Prop := 1 ≤ u ∧ u ≤ G.nVrtx ∧ ∃ j w, G.EdgeAt u j v w

/-- A well-formed graph with the vertices `1..n`. -/
structure WF (G : DGraph W) (n : Nat) : Prop where
  vrtx : G.nVrtx = n
  edges : ∀ u, 1 ≤ u → u ≤ n → ∃ s e, G.outStart[u]? = some s ∧ G.outEnd[u]? = some e ∧
    ∀ j : Nat, s ≤ j → (j : Int) ≤ e → ∃ v w, G.out[j]? = some v ∧ G.ecOut[j]? = some w ∧ 1 ≤ v ∧ v ≤ n

end DGraph

/-- Every vertex `1..n` has a part, numbered `0..k-1`. -/
def PartsOk (n k : Nat) (parts : List Nat) : Prop :=
  ∀ v, 1 ≤ v → v ≤ n → ∃ a, parts[v]? = some a ∧ a < k

/-- An edge of the graph leads from part `a` to another part `b`. -/
def PartEdge {W : Type} (G : DGraph W) (parts : List Nat) (a b : Nat) : Prop :=
  a ≠ b ∧ ∃ u v, G.Out u v ∧ parts[u]? = some a ∧ parts[v]? = some b

/-- The parts form no cycle. -/
def AcyclicParts {W : Type} (G : DGraph W) (parts : List Nat) : Prop :=
  ∀ a, ¬ Relation.TransGen (PartEdge G parts) a a

/-- What is used of the arithmetic of the edge weights: a sum of positive weights is positive, and the test `!= 0`
tells positive numbers from zero.  This is true of numbers and also of rounded sums. -/
structure Weights (W : Type) [Zero W] [Add W] (nz : W → Bool) (pos : W → Prop) : Prop where
  zero : nz 0 = false
  test : ∀ w, pos w → nz w = true
  first : ∀ w, pos w → pos (0 + w)
  add : ∀ a w, pos a → pos w → pos (a + w)

/-- All edges have positive weight. -/
def DGraph.Positive {W : Type} (G : DGraph W) (pos : W → Prop) : Prop :=
  ∀ u j v w, 1 ≤ u → u ≤ G.nVrtx → G.EdgeAt u j v w → pos w

/-- Row `r` is stored in column `c` of the one-based arrays `p`, `i`. -/
def InCol (p i : List Nat) (c r : Nat) : Prop :=
  ∃ lo hi j, p[c]? = some lo ∧ p[c + 1]? = some hi ∧ lo ≤ j ∧ j < hi ∧ i[j]? = some r

/-- The arrays handed to dagP: a graph with the vertices `1..n`, without cycles apart from the diagonal. -/
structure OneBased (n nnz : Nat) (p i : List Nat) : Prop where
  plen : p.length = n + 2
  first : p[1]? = some 0
  last : p[n + 1]? = some nnz
  room : nnz ≤ i.length
  mono : ∀ c, 1 ≤ c → c ≤ n → ∀ a b, p[c]? = some a → p[c + 1]? = some b → a ≤ b
  range : ∀ c r, 1 ≤ c → c ≤ n → InCol p i c r → 1 ≤ r ∧ r ≤ n
  acyclic : ∀ v, ¬ Relation.TransGen (fun c r => 1 ≤ c ∧ c ≤ n ∧ c ≠ r ∧ InCol p i c r) v v

end Verif.Dagp
