import Verif.Spec.Graph

/-!
# Specification: chains of a graph
-/

namespace Verif

/-- `u → v` is a link of a chain: `v` is the only successor of `u`, and `u` the only predecessor
of `v`. -/
def Csc.Link (g : Csc) (u v : Nat) : Prop :=
  g.Dep u v ∧ (∀ w, g.Dep u w → w = v) ∧ (∀ w, g.Dep w v → w = u)

/-- `u` and `v` are on the same chain: links lead from one to the other. -/
def Csc.SameChain (g : Csc) (u v : Nat) : Prop :=
  Relation.ReflTransGen g.Link u v ∨ Relation.ReflTransGen g.Link v u

end Verif
