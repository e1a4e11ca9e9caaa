import Verif.Spec.Group

/-!
# Specification: supernodes

Independent of every algorithm.  For a matrix in compressed rows, `g.col r` are the column indices of
row `r`.
-/

namespace Verif

/-- The pattern of column `c` is the pattern of the earlier column `a` without its first `c - a`
entries. -/
def NestedCols (g : Csc) (a c : Nat) : Prop := ∃ l, l.length = c - a ∧ g.col a = l ++ g.col c

/-- The pattern of row `c` is the pattern of the earlier row `a` with `c - a` further entries at the
end. -/
def NestedRows (g : Csc) (a c : Nat) : Prop := ∃ l, l.length = c - a ∧ g.col c = g.col a ++ l

/-- The pattern of column `c` is the pattern of the later column `a` without its last `a - c`
entries. -/
def NestedUpper (g : Csc) (a c : Nat) : Prop := ∃ l, l.length = a - c ∧ g.col a = g.col c ++ l

/-- `ptr` splits `0, ..., n - 1` into consecutive non-empty ranges, of at most `limit` numbers each.
All numbers of a range are related to its first one, and no range can be extended: the number behind
it is not related to its first number, unless the range has reached the limit. -/
structure IsSupernodes (Same : Nat → Nat → Prop) (n limit : Nat) (ptr : List Nat) : Prop where
  first : ptr[0]? = some 0
  last : ptr[ptr.length - 1]? = some n
  range : ∀ s a b, ptr[s]? = some a → ptr[s + 1]? = some b →
    a < b ∧ b - a ≤ limit ∧ (∀ c, a < c → c < b → Same a c) ∧ (b < n → b - a < limit → ¬ Same a b)

/-- The ranges of `ptr` as groups of the nodes `0, ..., n - 1`. -/
def rangeGrouping (n : Nat) (ptr : List Nat) : Grouping := ⟨ptr.length - 1, ptr, List.range n⟩

/-- The same, counted down from `n - 1`; the list ends with `-1`. -/
structure IsSupernodesDown (Same : Nat → Nat → Prop) (n limit : Nat) (l : List Int) : Prop where
  first : l[0]? = some ((n : Int) - 1)
  last : l[l.length - 1]? = some (-1)
  range : ∀ (s : Nat) (a b : Int), l[s]? = some a → l[s + 1]? = some b →
    b < a ∧ 0 ≤ a ∧ a - b ≤ limit ∧ (∀ c : Nat, b < c → c < a → Same a.toNat c) ∧
      (0 ≤ b → a - b < limit → ¬ Same a.toNat b.toNat)

end Verif
