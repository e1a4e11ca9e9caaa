import Verif.Spec.Sparse

/-!
# Specification: random matrices and comparisons

Independent of every algorithm.
-/

namespace Verif.TestU
variable {V : Type}

/-- A square matrix of `n` columns with `k` entries in every column, sorted, without repetition, the diagonal among
them. -/
structure Uniform (n k : Nat) (A : Sp V) : Prop where
  wf : A.WF
  exact : A.Exact
  rows : A.rows = n
  cols : A.cols = n
  count : ∀ c, c < n → (A.colRows c).length = k
  sorted : ∀ c, c < n → (A.colRows c).Pairwise (· < ·)
  diag : ∀ c, c < n → c ∈ A.colRows c

/-- The values `(row, value)` of a blocked matrix in storage order: value `j` of column `c` is `Ax[Ap[c] + j]`, its row
is `Ai[AiP[c] + j]`. -/
def blockedTerms [Zero V] (n : Nat) (Ap Ai AiP : List Nat) (Ax : List V) : List (Nat × V) :=
  (List.range n).flatMap fun c => (List.range (Ap.getD (c + 1) 0 - Ap.getD c 0)).map fun j =>
    (Ai.getD (AiP.getD c 0 + j) 0, Ax.getD (Ap.getD c 0 + j) 0)

end Verif.TestU
