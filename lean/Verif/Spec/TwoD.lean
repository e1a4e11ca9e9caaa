import Verif.Spec.Sched

/-!
# Specification: schedules of the stored entries of a matrix

The rows of the matrix are compressed.  Position `k` of the index array is an entry of the row
whose pointer range contains `k`.
-/

namespace Verif.Csc

/-- Position `k` stores an entry of row `r`. -/
def EntryOf (m : Csc) (k r : Nat) : Prop := r < m.n ∧ m.ptr r ≤ k ∧ k < m.ptr (r + 1)

/-- The dependences between rows: row `v` uses the unknown `u`. -/
def Uses (m : Csc) (u v : Nat) : Prop := v < m.n ∧ u ∈ m.col v ∧ u ≠ v

/-- The dependences between entries.  An entry comes after an entry that is stored earlier in the
same row and is not right of it.  (With the diagonal entry at the end of a lower triangular row
this includes: the diagonal comes after all other entries.)  An entry that uses the unknown `r`
comes after the diagonal entry of row `r`, which completes this unknown. -/
def EntryDep (m : Csc) (k k' : Nat) : Prop :=
  (∃ r, m.EntryOf k r ∧ m.EntryOf k' r ∧ k < k' ∧ m.i.getD k 0 ≤ m.i.getD k' 0) ∨
  ∃ r r', r ≠ r' ∧ m.EntryOf k r ∧ m.i.getD k 0 = r ∧ m.EntryOf k' r' ∧ m.i.getD k' 0 = r

end Verif.Csc
