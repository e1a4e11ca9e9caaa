import Verif.Spec.Mat

/-!
# Specification: storing a matrix in blocks of columns

Independent of every algorithm.
-/

namespace Verif

/-- The rows that occur in one of the columns `a, ..., b - 1`, in increasing order. -/
def blockRows (g : Csc) (a b : Nat) : List Nat :=
  (List.range g.n).filter (fun r => (List.range' a (b - a)).any (fun j => (g.col j).contains r))

/-- The value of `m` in row `r` and column `j` (column form): the first value stored for it, or zero. -/
def Mat.entry {V : Type _} (zero : V) (m : Mat V) (r j : Nat) : V := ((m.row j).lookup r).getD zero

/-- `m` is stored in blocks: block `s` consists of the columns `super[s], ..., super[s + 1] - 1`.
It has `nrows[s]` rows, namely the rows that occur in one of its columns.  All columns of a block are
stored one after the other from `p[s]` on, each of them with all the rows of the block. -/
structure IsBlocked {V : Type _} (zero : V) (m : Mat V) (nodes : Nat) (super nrows p i : List Nat)
    (x : List V) : Prop where
  nrows : ∀ s, s < nodes → ∀ a b, super[s]? = some a → super[s + 1]? = some b →
    nrows[s]? = some (blockRows m.pat a b).length
  first : p[0]? = some 0
  next : ∀ s, s < nodes → ∀ a b o, super[s]? = some a → super[s + 1]? = some b → p[s]? = some o →
    p[s + 1]? = some (o + (blockRows m.pat a b).length * (b - a))
  size : p[nodes]? = some i.length ∧ p[nodes]? = some x.length
  entry : ∀ s, s < nodes → ∀ a b o, super[s]? = some a → super[s + 1]? = some b → p[s]? = some o →
    ∀ j k r, a ≤ j → j < b → (blockRows m.pat a b)[k]? = some r →
      i[o + (j - a) * (blockRows m.pat a b).length + k]? = some r ∧
      x[o + (j - a) * (blockRows m.pat a b).length + k]? = some (m.entry zero r j)

end Verif
