import Verif.Spec.Graph

/-! # Specification: connected components of a part of a graph -/

namespace Verif

/-- A dependence between two nodes of the window `W`. -/
def Csc.WinDep (g : Csc) (W : Nat → Prop) (u v : Nat) : Prop := W u ∧ W v ∧ g.Dep u v

/-- `u` and `v` are connected by dependences inside `W`, directions ignored. -/
def Csc.Connected (g : Csc) (W : Nat → Prop) (u v : Nat) : Prop :=
  Relation.EqvGen (g.WinDep W) u v

end Verif
