import Verif.Spec.Graph

/-!
# Specification: compressed sparse matrices with values

A `Mat V` stores, like the C++ structs `CSC`/`CSR` (include/aggregation/def.h), a pointer array,
an index array and a value array.  Whether the compressed dimension is rows or
columns depends on the use.
-/

namespace Verif

/-- Compressed sparse matrix with `n` compressed rows (or columns). -/
structure Mat (V : Type _) where
  n : Nat
  p : List Nat
  i : List Nat
  x : List V
deriving DecidableEq, Repr

namespace Mat
variable {V : Type _}

/-- The sparsity pattern. -/
def pat (m : Mat V) : Csc := ⟨m.n, m.p, m.i⟩

/-- The entries `(index, value)` of row (column) `r`, in storage order. -/
def row (m : Mat V) (r : Nat) : List (Nat × V) :=
  ((m.i.zip m.x).drop (m.pat.ptr r)).take (m.pat.ptr (r + 1) - m.pat.ptr r)

/-- Well-formed storage: pattern well formed, a value for every stored index. -/
structure WF (m : Mat V) : Prop where
  pat : m.pat.WF
  xlen : m.pat.ptr m.n ≤ m.x.length

/-- All entries of row `r` but the last. -/
def off (m : Mat V) (r : Nat) : List (Nat × V) := (m.row r).dropLast

/-- Row `v` uses the unknown `u` (off-diagonal entry). -/
def RowDep (m : Mat V) (u v : Nat) : Prop := v < m.n ∧ ∃ l, (u, l) ∈ m.off v

/-- CSR storage of a lower triangular matrix as expected by the solvers: the last entry of
every row is the diagonal, the entries before it are left of the diagonal. -/
structure LowerCsr (m : Mat V) : Prop where
  wf : m.WF
  diag : ∀ r, r < m.n → ∃ d, (m.row r).getLast? = some (r, d)
  lower : ∀ r, r < m.n → ∀ e ∈ m.off r, e.1 < r

end Mat

/-- The two arithmetic statements of the solvers, as arbitrary functions:
`upd a l y` is `a - l * y`, `dv a d` is `a / d`. -/
structure Arith (V : Type _) where
  upd : V → V → V → V
  dv : V → V → V

namespace Mat
variable {V : Type _}

/-- The value of row `r` when the right-hand side is `b` and the unknowns are `xs`:
start with `b[r]`, subtract the off-diagonal terms in storage order, divide by the diagonal. -/
def rowEq (A : Arith V) (m : Mat V) (b xs : List V) (r : Nat) : Option V := do
  let br ← b[r]?
  let acc ← (m.off r).foldlM (fun acc e => do
    let y ← xs[e.1]?
    pure (A.upd acc e.2 y)) br
  let d ← (m.row r).getLast?
  pure (A.dv acc d.2)

/-- `xs` satisfies the equation of every row, in the arithmetic `A`. -/
def Solution (A : Arith V) (m : Mat V) (b xs : List V) : Prop :=
  xs.length = m.n ∧ ∀ r, r < m.n → ∃ v, xs[r]? = some v ∧ m.rowEq A b xs r = some v

end Mat
end Verif

namespace Verif.Mat

/-- The graph `g` (in compressed column form, as handed to the inspectors) has exactly the
dependences of the rows of `m`. -/
def SameDeps {V : Type _} (g : Csc) (m : Mat V) : Prop :=
  g.n = m.n ∧ ∀ u v, g.Dep u v ↔ m.RowDep u v

end Verif.Mat
