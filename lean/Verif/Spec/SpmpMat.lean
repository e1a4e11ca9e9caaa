import Verif.Spec.Sparse
import Verif.Spec.Tasks

/-!
# Specification: the matrices handed to SpMP

SpMP itself is not part of the repository.  What is assumed about it is `OracleOk`.
-/

namespace Verif.P2P

/-- The parts of `SpMP::CSR` that are filled in: compressed rows and, for every row, the position,
the reciprocal and the value of its diagonal entry. -/
structure SpmpMat (V : Type) where
  rowptr : List Nat
  colidx : List Nat
  values : List V
  diagptr : List Nat
  idiag : List V
  diag : List V
deriving DecidableEq, Repr

variable {V : Type}

/-- The compressed matrix; an entry `(c, r)` of `coords` is the entry in column `c` of row `r`. -/
def SpmpMat.sp (M : SpmpMat V) (n : Nat) : Sp V := ⟨n, n, M.rowptr, M.colidx, M.values⟩

/-- Row `r` has a diagonal entry, and the diagonal data of the row belongs to it. -/
def SpmpMat.DiagOk (recip : V → V) (M : SpmpMat V) (r : Nat) : Prop :=
  ∃ j d, InBlock M.rowptr r j ∧ M.colidx[j]? = some r ∧ M.values[j]? = some d ∧
    M.diagptr[r]? = some j ∧ M.diag[r]? = some d ∧ M.idiag[r]? = some (recip d)

/-- An input for SpMP: a symmetric pattern with a full diagonal. -/
structure SpmpMat.Good (recip : V → V) (M : SpmpMat V) (n : Nat) : Prop where
  wf : (M.sp n).WF
  sym : ∀ u v, (u, v) ∈ (M.sp n).coords → (v, u) ∈ (M.sp n).coords
  diag : ∀ r, r < n → M.DiagOk recip r

/-- Assumption about SpMP: for every symmetric matrix with full diagonal, `constructTaskGraph` gives a
correct task graph for the dependences of its lower triangle, for `nthreads` threads. -/
def OracleOk (spmp : SpmpMat V → TaskGraph) (recip : V → V) (nthreads : Nat) : Prop :=
  ∀ n M, M.Good recip n →
    (spmp M).Ok nthreads n fun u v => u < v ∧ (u, v) ∈ (M.sp n).coords

end Verif.P2P
