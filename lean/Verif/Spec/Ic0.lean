import Verif.Spec.Mat
import Verif.Spec.Reduce

/-!
# Specification: incomplete Cholesky factor without fill

Independent of every algorithm.  A lower triangular matrix is stored by columns; the factor has the
same pattern.  With exact arithmetic the factor `L` of `A` is given by

`L[j,j] = s / sqrt s` with `s = A[j,j] - Σ L[j,i]²`  and  `L[r,j] = (A[r,j] - Σ L[j,i] * L[r,i]) / L[j,j]`,

where the sums are over the columns `i < j` that store both entries.  The statement below is the same
with arbitrary functions for the arithmetic (for instance floating point), the terms being subtracted
for increasing `i`.
-/

namespace Verif

/-- The arithmetic of the kernels: `upd a l y` is `a - l * y`, `dv a d` is `a / d`, `root a` is
`sqrt(a)`. -/
structure IcArith (V : Type _) extends Arith V where
  root : V → V

namespace Mat
variable {V : Type _}

/-- The value stored in column `c` for row `r`, if there is one (row `c` for column `r` in a matrix
that is stored by rows). -/
def ent (m : Mat V) (c r : Nat) : Option V := (m.row c).lookup r

/-- Subtract from `v` the products of the entries of the rows `j` and `r` in column `i`, if both are
stored. -/
def reduce1 (A : IcArith V) (l : Mat V) (j r : Nat) (v : V) (i : Nat) : V :=
  match l.ent i j, l.ent i r with
  | some y, some z => A.upd v y z
  | _, _ => v

/-- Subtract the products of all columns left of column `j`. -/
def reduced (A : IcArith V) (l : Mat V) (j r : Nat) (v : V) : V :=
  (List.range j).foldl (l.reduce1 A j r) v

/-- The matrix with other values. -/
def withX (m : Mat V) (x : List V) : Mat V := { m with x := x }

/-- `x` are the values of the incomplete Cholesky factor of `a`. -/
structure IsIC0 (A : IcArith V) (a : Mat V) (x : List V) : Prop where
  len : x.length = a.x.length
  diag : ∀ j v, j < a.n → a.ent j j = some v →
    let s := (a.withX x).reduced A j j v
    (a.withX x).ent j j = some (A.dv s (A.root s))
  below : ∀ j r v, j < a.n → r ≠ j → a.ent j r = some v →
    ∃ d, (a.withX x).ent j j = some d ∧
      (a.withX x).ent j r = some (A.dv ((a.withX x).reduced A j r v) d)

end Mat

end Verif
