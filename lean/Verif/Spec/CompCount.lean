import Verif.Spec.Comp
import Mathlib.Algebra.BigOperators.Group.List.Basic

/-! # Specification: number and cost of the connected components of a window -/

namespace Verif

/-- `reps` contains exactly one node of each connected component of the window `nodes`. -/
structure Csc.Representatives (g : Csc) (nodes reps : List Nat) : Prop where
  inside : ∀ r ∈ reps, r ∈ nodes
  every : ∀ u ∈ nodes, ∃ r ∈ reps, g.Connected (· ∈ nodes) r u
  once : ∀ (q q' : Nat) (r r' : Nat), reps[q]? = some r → reps[q']? = some r' →
    g.Connected (· ∈ nodes) r r' → q = q'

open Classical in
/-- Sum of the costs of the nodes connected to `r`. -/
noncomputable def Csc.compCost {K : Type} [AddMonoid K] (g : Csc) (nodes : List Nat)
    (cost : List K) (r : Nat) : K :=
  ((nodes.filter fun u => g.Connected (· ∈ nodes) r u).map fun u => cost.getD u 0).sum

/-- The nodes of the levels `lb .. ub-1` of a level set. -/
def levelWindow (levelPtr levelSet : List Nat) (lb ub : Nat) : List Nat :=
  (levelSet.drop (levelPtr.getD lb 0)).take (levelPtr.getD ub 0 - levelPtr.getD lb 0)

/-- A correct report about the connected components of the window `nodes`: the labels separate
exactly the components, nodes outside have label `-1`; `cnt` is the number of components,
`partCost[q]` the cost of component `q`, `total` the cost of the whole window. -/
structure Csc.ComponentReport {K : Type} [AddMonoid K] (g : Csc) (nodes : List Nat)
    (cost : List K) (lab : List Int) (cnt : Nat) (partCost : List K) (total : K) : Prop where
  inside : ∀ v ∈ nodes, ∃ a : Int, lab[v]? = some a ∧ 0 ≤ a
  outside : ∀ v, v < g.n → v ∉ nodes → lab[v]? = some (-1)
  same : ∀ u ∈ nodes, ∀ v ∈ nodes, (lab[u]? = lab[v]? ↔ g.Connected (· ∈ nodes) u v)
  comps : ∃ reps, g.Representatives nodes reps ∧ reps.length = cnt ∧
    ∀ (q r : Nat), reps[q]? = some r → partCost[q]? = some (g.compCost nodes cost r)
  total : total = (nodes.map fun u => cost.getD u 0).sum

end Verif
