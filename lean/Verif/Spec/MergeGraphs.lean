import Verif.Spec.Sched

/-!
# Specification: dependences between blocks of columns

Independent of every algorithm.  Block `s` consists of the columns (and rows)
`super[s], …, super[s + 1] - 1`.
-/

namespace Verif

/-- Some column of block `s` has an entry in a row of block `t`. -/
def Joined (g : Csc) (super : List Nat) (s t : Nat) : Prop :=
  ∃ j r, InBlock super s j ∧ InBlock super t r ∧ r ∈ g.col j

/-- The smallest row that occurs in the columns of block `s` is a row of block `t`. -/
def FirstJoined (g : Csc) (super : List Nat) (s t : Nat) : Prop :=
  ∃ j r, InBlock super s j ∧ InBlock super t r ∧ r ∈ g.col j ∧
    ∀ j' r', InBlock super s j' → r' ∈ g.col j' → r ≤ r'

end Verif
