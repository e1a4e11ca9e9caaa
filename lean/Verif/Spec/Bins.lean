import Mathlib.Algebra.BigOperators.Group.List.Basic

/-!
# Specification: packing components into bins

Independent of every algorithm.  A component is a cost and a list of nodes.
-/

namespace Verif

/-- The components that `bin` assigns to bin `b`, in the order of the list. -/
def inBin {K : Type} (bin : List Nat) (l : List (K × List Nat)) (b : Nat) : List (K × List Nat) :=
  ((l.zip bin).filter (fun x => x.2 == b)).map Prod.fst

/-- The components `l` are packed in the order of the list: every component goes, as a block, to the
end of one bin, and its cost is added to the cost of the bin. -/
structure Packed {K : Type} [Add K] (l : List (K × List Nat)) (bins : Nat)
    (merged : List (List Nat)) (cost : List K) (merged' : List (List Nat)) (cost' : List K) :
    Prop where
  mlen : merged'.length = merged.length
  clen : cost'.length = cost.length
  packed : ∃ bin : List Nat, bin.length = l.length ∧ (∀ b ∈ bin, b < bins) ∧
    (∀ b m, merged[b]? = some m → merged'[b]? = some (m ++ (inBin bin l b).flatMap Prod.snd)) ∧
    (∀ b c, cost[b]? = some c →
      cost'[b]? = some (((inBin bin l b).map Prod.fst).foldl (· + ·) c))

end Verif
