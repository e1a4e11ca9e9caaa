import Verif.Spec.Graph

/-! # The quotient of a graph by blocks of consecutive nodes -/

namespace Verif

/-- `h` is `g` with every block of `k` consecutive nodes made one node: it has one node for each block,
no stored edge twice, and an edge between two blocks (or inside one) exactly if `g` has an edge between
nodes of them. -/
structure IsCoarse (k : Nat) (g h : Csc) : Prop where
  nodes : h.n = (g.n + k - 1) / k
  nodup : ∀ b, b < h.n → (h.col b).Nodup
  edge : ∀ b, b < h.n → ∀ c, c ∈ h.col b ↔ ∃ u v, u < g.n ∧ v ∈ g.col u ∧ u / k = b ∧ v / k = c

end Verif
