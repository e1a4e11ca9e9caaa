import Verif.Spec.Graph

/-!
# Specification: graphs with the same dependences
-/

namespace Verif.Csc
open Relation

/-- The entries of each column are strictly increasing. -/
def Sorted (g : Csc) : Prop := ∀ u, u < g.n → (g.col u).Pairwise (· < ·)

/-- The same nodes depend on each other, directly or through other nodes. -/
def SameReach (g h : Csc) : Prop := ∀ u v, TransGen g.Dep u v ↔ TransGen h.Dep u v

/-- No dependence is implied by two others. -/
def NoShortcut (g : Csc) : Prop := ∀ u k v, g.Dep u k → g.Dep k v → ¬ g.Dep u v

end Verif.Csc
