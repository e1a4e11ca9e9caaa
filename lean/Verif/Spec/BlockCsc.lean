import Mathlib.Logic.Relation
import Verif.Proof.Slices

/-!
# Specification: matrices stored by blocks of columns

Independent of every algorithm.  The columns `0, 1, …` of a lower triangular matrix are divided into
`n` consecutive blocks (supernodes): block `s` has the columns `first[s] .. first[s+1]-1`, and `blk[c]`
is the block of column `c`.  The columns of a block share one list of rows, which starts at
`rows[ptr[first[s]]]`: first the rows of the block itself (the dense diagonal block), then the rows
below it.  Block `t` depends on block `s` if one of the rows below the diagonal block of `s` belongs to
`t`.
-/

namespace Verif

/-- `blk2col`, `col2blk`, `Li_ptr` and `lR` of lbc_blocked.cpp; `n` is the number of blocks. -/
structure BlockCsc where
  n : Nat
  first : List Nat
  blk : List Nat
  ptr : List Nat
  rows : List Nat
deriving DecidableEq, Repr

namespace BlockCsc

/-- The first column of block `s`. -/
def lo (M : BlockCsc) (s : Nat) : Nat := M.first.getD s 0

/-- The number of columns of block `s`. -/
def width (M : BlockCsc) (s : Nat) : Nat := M.lo (s + 1) - M.lo s

/-- Where the rows of block `s` start. -/
def base (M : BlockCsc) (s : Nat) : Nat := M.ptr.getD (M.lo s) 0

/-- Row (or column) `r` belongs to block `t`. -/
def InBlock (M : BlockCsc) (r t : Nat) : Prop := t < M.n ∧ M.lo t ≤ r ∧ r < M.lo (t + 1)

/-- The rows of block `s` below its diagonal block. -/
def below (M : BlockCsc) (s : Nat) : List Nat :=
  slice M.rows (M.base s + M.width s) (M.base (s + 1))

/-- Well-formed storage. -/
structure WF (M : BlockCsc) : Prop where
  firstLen : M.first.length = M.n + 1
  first0 : M.lo 0 = 0
  strict : ∀ s, s < M.n → M.lo s < M.lo (s + 1)
  blkLen : M.lo M.n ≤ M.blk.length
  blk : ∀ c s, M.InBlock c s → M.blk.getD c 0 = s
  ptrLen : M.lo M.n < M.ptr.length
  ptr0 : M.base 0 = 0
  room : ∀ s, s < M.n → M.base s + M.width s ≤ M.base (s + 1)
  rowsLen : M.base M.n ≤ M.rows.length
  inner : ∀ c s, M.InBlock c s → M.base s ≤ M.ptr.getD c 0 ∧ M.ptr.getD c 0 ≤ M.base s + M.width s
  diag : ∀ s, s < M.n → ∀ k, k < M.width s → M.InBlock (M.rows.getD (M.base s + k) 0) s
  off : ∀ s, s < M.n → ∀ r ∈ M.below s, ∃ t, M.InBlock r t ∧ t ≠ s

/-- Block `t` depends directly on block `s`. -/
def Dep (M : BlockCsc) (s t : Nat) : Prop := s < M.n ∧ ∃ r ∈ M.below s, M.InBlock r t

/-- `t` is `s` or depends on `s` through some dependences. -/
def Reach (M : BlockCsc) : Nat → Nat → Prop := Relation.ReflTransGen M.Dep

/-- There is a path of exactly `k` dependences that ends in block `t`. -/
inductive PathTo (M : BlockCsc) : Nat → Nat → Prop where
  | nil {t : Nat} : t < M.n → PathTo M 0 t
  | snoc {k s t : Nat} : PathTo M k s → M.Dep s t → PathTo M (k + 1) t

/-- `k` is the length of a longest path of dependences ending in `t`. -/
def IsDepth (M : BlockCsc) (t k : Nat) : Prop := M.PathTo k t ∧ ∀ m, M.PathTo m t → m ≤ k

/-- No block depends on itself through some dependences. -/
def Acyclic (M : BlockCsc) : Prop := ∀ s, ¬ Relation.TransGen M.Dep s s

/-- Lower triangular: the rows of a block are not above it. -/
def Lower (M : BlockCsc) : Prop := ∀ s, s < M.n → ∀ r ∈ M.below s, M.lo (s + 1) ≤ r

/-- Any two blocks that depend on the same block are comparable: one reaches the other. -/
def Comparable (M : BlockCsc) : Prop := ∀ s t u, M.Dep s t → M.Dep s u → M.Reach t u ∨ M.Reach u t

/-- The pattern of a Cholesky factor: of two blocks that depend on the same block, the later one depends
on the earlier one. -/
def Filled (M : BlockCsc) : Prop := ∀ s t u, M.Dep s t → M.Dep s u → t < u → M.Dep t u

end BlockCsc
end Verif
