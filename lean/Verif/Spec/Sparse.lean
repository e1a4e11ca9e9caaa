import Verif.Spec.Mat

/-!
# Specification: rectangular sparse matrices

Independent of every algorithm.  A matrix in compressed column form, as in the struct `CSC`
(include/aggregation/def.h): `p[c] .. p[c+1]-1` are the storage positions of column `c`, `i` holds
row indices and `x` values.  The struct `CSR` is the same with rows and columns exchanged.
-/

namespace Verif

/-- A sparse matrix with `rows` rows and `cols` compressed columns. -/
structure Sp (V : Type) where
  rows : Nat
  cols : Nat
  p : List Nat
  i : List Nat
  x : List V
deriving DecidableEq, Repr

namespace Sp
variable {V : Type}

/-- The row indices of column `c`, in storage order. -/
def colRows (A : Sp V) (c : Nat) : List Nat :=
  (A.i.drop (A.p.getD c 0)).take (A.p.getD (c + 1) 0 - A.p.getD c 0)

/-- The values of column `c`, in storage order. -/
def colVals (A : Sp V) (c : Nat) : List V :=
  (A.x.drop (A.p.getD c 0)).take (A.p.getD (c + 1) 0 - A.p.getD c 0)

/-- The coordinates `(row, column)` of all stored entries, column by column. -/
def coords (A : Sp V) : List (Nat × Nat) :=
  (List.range A.cols).flatMap fun c => (A.colRows c).map fun r => (r, c)

/-- All stored entries `(row, column, value)`, column by column. -/
def entries (A : Sp V) : List (Nat × Nat × V) :=
  (List.range A.cols).flatMap fun c => ((A.colRows c).zip (A.colVals c)).map fun e => (e.1, c, e.2)

/-- Well-formed index structure. -/
structure PatWF (A : Sp V) : Prop where
  plen : A.p.length = A.cols + 1
  p0 : A.p.getD 0 0 = 0
  mono : ∀ c, c < A.cols → A.p.getD c 0 ≤ A.p.getD (c + 1) 0
  bound : A.p.getD A.cols 0 ≤ A.i.length
  range : ∀ c, c < A.cols → ∀ r ∈ A.colRows c, r < A.rows

/-- Well-formed matrix: a value for every stored index. -/
structure WF (A : Sp V) : Prop extends PatWF A where
  xlen : A.p.getD A.cols 0 ≤ A.x.length

/-- The arrays have no unused space at the end. -/
def Exact (A : Sp V) : Prop :=
  A.i.length = A.p.getD A.cols 0 ∧ A.x.length = A.p.getD A.cols 0

/-- The row indices of each column do not decrease. -/
def ColsSorted (A : Sp V) : Prop := ∀ c, c < A.cols → (A.colRows c).Pairwise (· ≤ ·)

/-- No column has two entries with the same row index. -/
def NoDup (A : Sp V) : Prop := ∀ c, c < A.cols → (A.colRows c).Nodup

end Sp

/-- Rows and columns of an entry exchanged. -/
def swapEntry {V : Type} (e : Nat × Nat × V) : Nat × Nat × V := (e.2.1, e.1, e.2.2)

/-- Lower triangular: all entries on or below the diagonal. -/
def Sp.Lower {V : Type} (A : Sp V) : Prop := ∀ e ∈ A.entries, e.2.1 ≤ e.1

/-- Upper triangular: all entries on or above the diagonal. -/
def Sp.Upper {V : Type} (A : Sp V) : Prop := ∀ e ∈ A.entries, e.1 ≤ e.2.1

/-- An entry together with its mirror image; diagonal entries once. -/
def mirrored {V : Type} (e : Nat × Nat × V) : List (Nat × Nat × V) :=
  if e.1 = e.2.1 then [e] else [e, swapEntry e]

/-- The matrix as the solvers see it (compressed rows). -/
def Sp.toMat {V : Type} (B : Sp V) : Mat V := ⟨B.cols, B.p, B.i, B.x⟩

/-- The dependence graph of a matrix in compressed columns, as the inspectors see it. -/
def Sp.graph {V : Type} (A : Sp V) : Csc := ⟨A.cols, A.p, A.i⟩

/-- A square lower triangular matrix in compressed columns with a full diagonal and without
repeated entries. -/
structure Sp.LowerCsc {V : Type} (A : Sp V) : Prop where
  wf : A.WF
  square : A.rows = A.cols
  lower : A.Lower
  noDup : A.NoDup
  diag : ∀ c, c < A.cols → ∃ d, (c, c, d) ∈ A.entries

end Verif
