import Mathlib.Algebra.Order.Group.Defs
import Mathlib.Algebra.BigOperators.Group.List.Basic

/-! # Specification: contiguous packing of components onto cores -/

namespace Verif

/-- Assumptions on the (possibly rounding) division by a number of cores: positive values stay
positive and division by one is exact. -/
structure RDivOk {K : Type} [Zero K] [LT K] (rdiv : K → Nat → K) : Prop where
  pos : ∀ r k, 0 < r → 1 ≤ k → 0 < rdiv r k
  one : ∀ r, rdiv r 1 = r

/-- `chunk[t] .. chunk[t+1]-1` are the components of core `t`: all components `0 .. cnt-1`,
contiguous, in order. -/
structure ChunkOk (cores cnt : Nat) (chunk : List Nat) : Prop where
  len : chunk.length = cores + 1
  first : chunk[0]? = some 0
  last : chunk[cores]? = some cnt
  mono : ∀ t, t < cores → ∀ a b, chunk[t]? = some a → chunk[t + 1]? = some b → a ≤ b

end Verif
