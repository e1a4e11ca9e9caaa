import Verif.Spec.Sched

/-!
# Specification: level sets of a relation, supernodes

Independent of every algorithm.
-/

namespace Verif

/-- There is a path with exactly `k` steps of `E` through nodes of `P` that ends in `x`. -/
inductive PathEnd (P : Nat → Prop) (E : Nat → Nat → Prop) : Nat → Nat → Prop where
  | nil {x : Nat} : P x → PathEnd P E 0 x
  | snoc {k u x : Nat} : PathEnd P E k u → E u x → PathEnd P E (k + 1) x

/-- `k` is the length of a longest path that ends in `x`. -/
def LongestTo (P : Nat → Prop) (E : Nat → Nat → Prop) (x k : Nat) : Prop :=
  PathEnd P E k x ∧ ∀ m, PathEnd P E m x → m ≤ k

/-- `ptr` and the first `k` entries of `levels` are the `L` level sets of the relation `E` on `P`: the levels
are not empty, nothing is listed twice, level `l` lists exactly the nodes whose longest path has `l` steps, and
every node that has a longest path is listed. -/
structure LevelsBy (P : Nat → Prop) (E : Nat → Nat → Prop) (L k : Nat) (ptr levels : List Nat) : Prop where
  ptrLen : ptr.length = L + 1
  ptrOk : PtrOk ptr L k
  room : k ≤ levels.length
  strict : ∀ l, l < L → ptr.getD l 0 < ptr.getD (l + 1) 0
  nodup : (levels.take k).Nodup
  exact : ∀ l x, l < L → (InLevel ptr levels l x ↔ LongestTo P E x l)
  all : ∀ l x, LongestTo P E x l → l < L

/-- `c` is the first column of one of the supernodes `super[t], …, super[t + 1] - 1`. -/
def IsHead (super : List Nat) (nodes c : Nat) : Prop := ∃ t, t < nodes ∧ super[t]? = some c

/-- `c` is the first column of the supernode that contains column `r`. -/
def HeadOf (super : List Nat) (nodes r c : Nat) : Prop :=
  ∃ t, t < nodes ∧ super[t]? = some c ∧ InBlock super t r

/-- The first column `c` of a supernode has, after its first entry, an entry in a row of another supernode,
which starts with column `d`. -/
def HeadEdge (g : Csc) (super : List Nat) (nodes c d : Nat) : Prop :=
  IsHead super nodes c ∧ c ≠ d ∧ ∃ r ∈ (g.col c).tail, HeadOf super nodes r d

/-- Some column of the supernode that starts with column `c` has an entry in a row of the supernode that
starts with column `d`. -/
def BlockEdge (g : Csc) (super : List Nat) (nodes c d : Nat) : Prop :=
  ∃ j r, HeadOf super nodes j c ∧ r ∈ g.col j ∧ HeadOf super nodes r d

/-- Supernodes listed from the last to the first: `super[t]` is the last column of a supernode and
`super[t + 1]` is the column before its first one. -/
structure BackOk (super : List Int) (nodes n : Nat) : Prop where
  first : super[0]? = some ((n : Int) - 1)
  last : super[nodes]? = some (-1)
  step : ∀ t, t < nodes → ∃ a b, super[t]? = some a ∧ super[t + 1]? = some b ∧ b < a

/-- `c` is the last column of one of these supernodes. -/
def IsTail (super : List Int) (nodes c : Nat) : Prop := ∃ t, t < nodes ∧ super[t]? = some (c : Int)

/-- `c` is the last column of the supernode that contains column `r`. -/
def TailOf (super : List Int) (nodes r c : Nat) : Prop :=
  ∃ t b, t < nodes ∧ super[t]? = some (c : Int) ∧ super[t + 1]? = some b ∧ b < (r : Int) ∧ r ≤ c

/-- The last column `c` of a supernode has an entry in a row of another supernode, which ends with column
`d`. -/
def TailEdge (g : Csc) (super : List Int) (nodes c d : Nat) : Prop :=
  IsTail super nodes c ∧ c ≠ d ∧ ∃ r ∈ g.col c, TailOf super nodes r d

/-- `K` copies of the relation `E` on the columns `P`; column `c` of copy `q` is number `c + n * q`. -/
def CopyNode (n K : Nat) (P : Nat → Prop) (x : Nat) : Prop := ∃ c q, P c ∧ q < K ∧ x = c + n * q

/-- A step inside a copy, or from a column to the same column of the next copy. -/
def CopyEdge (n K : Nat) (P : Nat → Prop) (E : Nat → Nat → Prop) (x y : Nat) : Prop :=
  (∃ c d q, E c d ∧ q < K ∧ x = c + n * q ∧ y = d + n * q) ∨
  (∃ c q, P c ∧ q + 1 < K ∧ x = c + n * q ∧ y = c + n * (q + 1))

end Verif

namespace Verif

/-- The supernodes of two kernels; the supernode of the second kernel that starts with column `c` is number
`c + n`. -/
def FusedNode (n : Nat) (super : List Nat) (nodes x : Nat) : Prop :=
  ∃ c, IsHead super nodes c ∧ (x = c ∨ x = c + n)

/-- The dependences that are followed: inside the first kernel (matrix `A`), from the first kernel to the second
one (matrix `B`), inside the second kernel (matrix `C`). -/
def FusedEdge (n : Nat) (A B C : Csc) (super : List Nat) (nodes x y : Nat) : Prop :=
  HeadEdge A super nodes x y ∨
  (∃ d, BlockEdge B super nodes x d ∧ y = d + n) ∨
  (∃ c d, HeadEdge C super nodes c d ∧ x = c + n ∧ y = d + n)

/-- A supernode of the second kernel into which no dependence leads. -/
def Orphan (n : Nat) (A B C : Csc) (super : List Nat) (nodes x : Nat) : Prop :=
  (∃ c, IsHead super nodes c ∧ x = c + n) ∧ ∀ u, ¬ FusedEdge n A B C super nodes u x

/-- The dependences, where an orphan waits for itself. -/
def StuckEdge (n : Nat) (A B C : Csc) (super : List Nat) (nodes x y : Nat) : Prop :=
  FusedEdge n A B C super nodes x y ∨ (x = y ∧ Orphan n A B C super nodes x)

end Verif
