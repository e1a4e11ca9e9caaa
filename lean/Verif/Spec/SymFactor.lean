import Verif.Spec.Sparse
import Verif.Spec.Fill

/-!
# Specification: symmetric matrices of which the lower triangle is stored
-/

namespace Verif.Sp
variable {V : Type}

/-- Entries of the stored triangle below the diagonal: row `k`, column `i`. -/
def LowerEntry (A : Sp V) (k i : Nat) : Prop := i < A.cols ∧ k ∈ A.colRows i

/-- The entries below the diagonal of the symmetric matrix with rows and columns renumbered: new row
`k` is old row `perm k`.  The entry may be stored with its two indices in either order; what is stored
above the diagonal is ignored. -/
def PermEntry (A : Sp V) (perm : Nat → Nat) (k i : Nat) : Prop :=
  Either A.LowerEntry (perm k) (perm i)

/-- The number of stored entries in column `j` of the upper triangle of the renumbered matrix, with the
diagonal; `iperm` gives the new number of a row. -/
def upperCount (A : Sp V) (iperm : Nat → Nat) (j : Nat) : Nat :=
  (A.coords.filter fun e => e.2 ≤ e.1 ∧ max (iperm e.1) (iperm e.2) = j).length

end Verif.Sp
