import Verif.Spec.Sched

/-!
# Specification: operations and load of the solvers

Independent of every algorithm.
-/

namespace Verif.Stat

/-- The number of stored entries of row (or column) `i`. -/
def rowSize (Lp : List Nat) (i : Nat) : Int := (Lp.getD (i + 1) 0 : Int) - Lp.getD i 0

/-- The entries of a list of rows. -/
def work (Lp : List Nat) (rows : List Nat) : Int := (rows.map (rowSize Lp)).sum

/-- What thread `t` does in a level with the iterations `a..b-1`: the entries of all rows of the iterations it
runs. -/
def load (Lp : List Nat) (rows : Nat → List Nat) (owner : Nat → Nat) (a b t : Nat) : Int :=
  work Lp (((List.range' a (b - a)).filter (fun j => owner j == t)).flatMap rows)

/-- `v` is the largest difference between the values `C 0 .. C (m-1)`. -/
def Spread (m : Nat) (C : Nat → Int) (v : Int) : Prop :=
  (∃ s t, s < m ∧ t < m ∧ v = C s - C t) ∧ ∀ s t, s < m → t < m → C s - C t ≤ v

/-- Position `k` of a block of `ptr`: the entries of `set` listed in block `b`. -/
def block (ptr set : List Nat) (b : Nat) : List Nat :=
  (set.drop (ptr.getD b 0)).take (ptr.getD (b + 1) 0 - ptr.getD b 0)

end Verif.Stat

namespace Verif.Csc

/-- The pairs of equal elements of two lists. -/
def pairs (xs ys : List Nat) : Nat := (xs.map fun x => ys.count x).sum

/-- The multiplications of an incomplete factorization for the part `t` of a column below the diagonal: for every
entry `r`, the entries of column `r` that also occur in this column from `r` on. -/
def updates (g : Csc) : List Nat → Nat
  | [] => 0
  | r :: t => pairs (g.col r) (r :: t) + g.updates t

/-- The comparisons made to find them: every entry of column `r` with every entry from `r` on. -/
def compares (g : Csc) : List Nat → Nat
  | [] => 0
  | r :: t => (g.col r).length * (t.length + 1) + g.compares t

end Verif.Csc
