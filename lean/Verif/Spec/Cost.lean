import Verif.Spec.Graph

/-!
# Specification: the work of a node

The lower triangle of the matrix is given by its columns and by its rows.
-/

namespace Verif

/-- The kernels, `enum Kernel` of hdagg.h:39: triangular solve, incomplete Cholesky and incomplete
LU, left-looking (LL), right-looking (RL) or up-looking (UL). -/
inductive Kernel where
  | spTrSvLL | spTrSvRL | spICh0LL | spICh0RL | spICh0UL | spILU0UL | general
deriving DecidableEq, Repr

/-- The number of entries that a kernel touches at node `v`. -/
def Kernel.work (k : Kernel) (columns rows : Csc) (v : Nat) : Nat :=
  match k with
  | .spTrSvLL => (rows.col v).length
  | .spTrSvRL => (columns.col v).length
  | .spICh0LL => ((rows.col v).map fun d => (columns.col d).length).sum
  | .spICh0RL => ((columns.col v).map fun d => (columns.col d).length).sum
  | .spICh0UL | .spILU0UL | .general => ((rows.col v).map fun d => (rows.col d).length).sum

end Verif
