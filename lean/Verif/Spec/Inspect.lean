import Verif.Spec.Sparse

/-!
# Specification: paths that start in a node

Independent of every algorithm; `Csc.Dep` is the dependence relation of Verif/Spec/Graph.lean.
-/

namespace Verif.Csc

/-- There is a dependence path with exactly `k` edges that starts in `v`. -/
inductive PathFrom (g : Csc) : Nat → Nat → Prop where
  | nil {v : Nat} : v < g.n → PathFrom g 0 v
  | cons {k u v : Nat} : g.Dep u v → PathFrom g k v → PathFrom g (k + 1) u

/-- `k` is the length of a longest dependence path that starts in `v`. -/
def IsHeight (g : Csc) (v k : Nat) : Prop := g.PathFrom k v ∧ ∀ m, g.PathFrom m v → m ≤ k

end Verif.Csc
