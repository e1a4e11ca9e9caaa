import Verif.Spec.Sparse

/-!
# Specification: sums of sparse matrices

Independent of every algorithm.  Values may be rounded, so the order of the additions matters.
-/

namespace Verif

/-- The sum of a list from left to right; nothing for the empty list. -/
def leftSum {V : Type} [Add V] : List V → Option V
  | [] => none
  | a :: l => some (l.foldl (· + ·) a)

/-- The values stored for row `r`, column `c`, in storage order: one value if there is such an entry and
no entry is repeated. -/
def Sp.valuesAt {V : Type} (A : Sp V) (r c : Nat) : List V :=
  (A.entries.filter fun e => e.1 = r ∧ e.2.1 = c).map fun e => e.2.2

/-- All contributions to row `r`, column `c` of `α A + β B`: first those of `A`, then those of `B`. -/
def contributions {V : Type} [Mul V] (A B : Sp V) (α β : V) (r c : Nat) : List V :=
  (A.valuesAt r c).map (α * ·) ++ (B.valuesAt r c).map (β * ·)

/-- All contributions to row `r`, column `c` of `h A + h Aᵀ`. -/
def symContributions {V : Type} [Mul V] (A : Sp V) (h : V) (r c : Nat) : List V :=
  (A.valuesAt r c).map (h * ·) ++ (A.valuesAt c r).map (h * ·)

end Verif
