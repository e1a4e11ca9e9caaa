import Verif.Spec.Group

/-!
# Specification: greedy groups of consecutive columns

`set` are the first columns of the groups, followed by the number of columns.
-/

namespace Verif

/-- Columns `u ≤ v` with no boundary between them: they are in the same group. -/
def Together (set : List Nat) (u v : Nat) : Prop := u ≤ v ∧ ∀ b ∈ set, ¬ (u < b ∧ b ≤ v)

/-- `set` are the boundaries of the greedy groups of `g` with search space `S`: column `v + 1` is in the group of
column `v` exactly if a column `u` of that group has an entry in row `v + 1`, not more than `S` rows below `u`. -/
structure IsGreedy (g : Csc) (S : Int) (set : List Nat) : Prop where
  ptr : PtrOk set (set.length - 1) g.n
  strict : set.Pairwise (· < ·)
  join : ∀ v, v + 1 < g.n →
    (v + 1 ∈ set ↔ ¬ ∃ u, Together set u v ∧ v + 1 ∈ g.col u ∧ ((v + 1 : Nat) : Int) ≤ u + S)

end Verif
