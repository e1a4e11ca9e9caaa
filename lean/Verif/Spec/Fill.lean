import Mathlib.Logic.Relation
import Mathlib.Data.List.Range

/-!
# Specification: symbolic factorization and elimination trees

`E k i` says that the symmetric matrix has an entry in row `k`, column `i`, with `i < k`.
-/

namespace Verif

/-- `Fill E k i`: the entry in row `k` and column `i < k` of the factor is structurally non-zero.
It is an entry of the matrix, or it is filled in by the elimination of an earlier column `m`. -/
inductive Fill (E : Nat → Nat → Prop) : Nat → Nat → Prop where
  | entry {k i : Nat} : i < k → E k i → Fill E k i
  | fill {k i m : Nat} : m < i → i < k → Fill E k m → Fill E i m → Fill E k i

/-- The parent of column `j` in the elimination tree of a matrix with `n` columns: the first non-zero
row below the diagonal of column `j` of the factor, if there is one. -/
def IsEtreeParent (E : Nat → Nat → Prop) (n j : Nat) : Option Nat → Prop
  | some p => p < n ∧ Fill E p j ∧ ∀ k, Fill E k j → p ≤ k
  | none => ∀ k, k < n → ¬ Fill E k j

/-- `par` is the elimination tree of a matrix with `n` columns. -/
def IsEtree (E : Nat → Nat → Prop) (n : Nat) (par : Nat → Option Nat) : Prop :=
  ∀ j, j < n → IsEtreeParent E n j (par j)

open Classical in
/-- The rows of the non-zeros of column `j` of the factor of a matrix with `n` columns, with the
diagonal, in ascending order. -/
noncomputable def factorCol (E : Nat → Nat → Prop) (n j : Nat) : List Nat :=
  (List.range n).filter fun u => u = j ∨ Fill E u j

open Classical in
/-- The columns of the non-zeros of row `k` of the factor, with the diagonal, in ascending order. -/
noncomputable def factorRow (E : Nat → Nat → Prop) (n k : Nat) : List Nat :=
  (List.range n).filter fun j => j = k ∨ Fill E k j

/-- An entry of the symmetric matrix in row `a`, column `b` or in row `b`, column `a`, whichever is below
the diagonal. -/
def Either (E : Nat → Nat → Prop) (a b : Nat) : Prop := (b < a ∧ E a b) ∨ (a < b ∧ E b a)

end Verif
