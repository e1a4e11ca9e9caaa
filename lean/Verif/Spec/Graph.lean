import Mathlib.Logic.Relation

/-!
# Specification: dependence graphs in compressed column form

Independent of every algorithm.  A graph on the nodes `0..n-1` is given, as in the
C++ code, by a pointer array `p` (length `n+1`) and an index array `i`: the
successors of node `u` are `i[p[u]], ..., i[p[u+1]-1]`.  The code stores the diagonal entry
(`u` itself) in every column; it is not a dependence.
-/

namespace Verif

/-- A graph / sparsity pattern in compressed column storage. -/
structure Csc where
  n : Nat
  p : List Nat
  i : List Nat
deriving DecidableEq, Repr

namespace Csc

/-- The pointer array entry `p[k]` (0 if the array is too short; `WF` excludes this). -/
def ptr (g : Csc) (k : Nat) : Nat := g.p.getD k 0

/-- The index array entry `i[j]` (0 if the array is too short; `WF` excludes this). -/
def idx (g : Csc) (j : Nat) : Nat := g.i.getD j 0

/-- The entries of column `u`: the slice `i[p[u] .. p[u+1])`. -/
def col (g : Csc) (u : Nat) : List Nat := (g.i.drop (g.ptr u)).take (g.ptr (u + 1) - g.ptr u)

/-- Well-formed storage. -/
structure WF (g : Csc) : Prop where
  plen : g.p.length = g.n + 1
  p0 : g.ptr 0 = 0
  mono : ∀ u, u < g.n → g.ptr u ≤ g.ptr (u + 1)
  bound : g.ptr g.n ≤ g.i.length
  range : ∀ u, u < g.n → ∀ v ∈ g.col u, v < g.n

/-- Exactly one diagonal entry in each column. -/
def OneDiag (g : Csc) : Prop := ∀ u, u < g.n → (g.col u).count u = 1

/-- The diagonal entry comes first in each column. -/
def DiagFirst (g : Csc) : Prop := ∀ u, u < g.n → (g.col u).head? = some u

/-- Lower triangular: entries of column `u` are at least `u`. -/
def Lower (g : Csc) : Prop := ∀ u, u < g.n → ∀ v ∈ g.col u, u ≤ v

/-- `v` depends directly on `u`. -/
def Dep (g : Csc) (u v : Nat) : Prop := u < g.n ∧ v ∈ g.col u ∧ u ≠ v

/-- There is a dependence path with exactly `k` edges that ends in `v`. -/
inductive PathTo (g : Csc) : Nat → Nat → Prop where
  | nil {v : Nat} : v < g.n → PathTo g 0 v
  | snoc {k u v : Nat} : PathTo g k u → g.Dep u v → PathTo g (k + 1) v

/-- No node depends on itself through one or more dependences. -/
def Acyclic (g : Csc) : Prop := ∀ v, ¬ Relation.TransGen g.Dep v v

/-- `k` is the length of a longest dependence path ending in `v`. -/
def IsDepth (g : Csc) (v k : Nat) : Prop := g.PathTo k v ∧ ∀ m, g.PathTo m v → m ≤ k

end Csc
end Verif
