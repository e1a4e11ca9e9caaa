import Verif.Spec.Graph

/-!
# Specification: several graphs on the same nodes, one after the other

Node `j` of graph `q` is node `q * n + j` of the merged graph.
-/

namespace Verif

/-- `M` consists of the graphs `gs`, each on `n` nodes, and of the dependences `cross q`, which lead from
the nodes of graph `q` to nodes of graph `q + 1`. -/
structure IsMerged (n : Nat) (gs : List Csc) (cross : Nat → Nat → Nat → Prop) (M : Csc) : Prop where
  nodes : M.n = gs.length * n
  dep : ∀ q g, gs[q]? = some g → ∀ j, j < n → ∀ v, M.Dep (q * n + j) v ↔
    (∃ r, g.Dep j r ∧ v = q * n + r) ∨
      (q + 1 < gs.length ∧ ∃ r, r < n ∧ cross q j r ∧ v = (q + 1) * n + r)

end Verif
