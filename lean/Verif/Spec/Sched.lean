import Verif.Spec.Graph

/-!
# Specification: level sets and coarse schedules

Independent of every algorithm.  Pointer arrays are read with `[·]?`, so a statement about an
entry includes that the entry exists.
-/

namespace Verif

/-- Position `k` belongs to block `b` of the pointer array `ptr`: `ptr[b] ≤ k < ptr[b+1]`. -/
def InBlock (ptr : List Nat) (b k : Nat) : Prop :=
  ∃ lo hi, ptr[b]? = some lo ∧ ptr[b + 1]? = some hi ∧ lo ≤ k ∧ k < hi

/-- `ptr[0..m]` are valid block boundaries for `total` positions: they start at `0`, never
decrease and end at `total`. -/
structure PtrOk (ptr : List Nat) (m total : Nat) : Prop where
  first : ptr[0]? = some 0
  last : ptr[m]? = some total
  mono : ∀ b, b < m → ∀ lo hi, ptr[b]? = some lo → ptr[b + 1]? = some hi → lo ≤ hi

/-- Node `v` is listed in block `b`. -/
def InLevel (ptr nodes : List Nat) (b v : Nat) : Prop :=
  ∃ k, InBlock ptr b k ∧ nodes[k]? = some v

/-- A coarse schedule as used by the executors: coarse level `l` consists of the parts
`levelPtr[l] .. levelPtr[l+1]`, part `q` of the positions `partPtr[q] .. partPtr[q+1]`, and
position `k` of the node `nodes[k]`. -/
structure Sched where
  levels : Nat
  levelPtr : List Nat
  partPtr : List Nat
  nodes : List Nat
deriving DecidableEq, Repr

namespace Sched

/-- The pointer arrays are well formed for `n` positions. -/
def PtrsOk (s : Sched) (n : Nat) : Prop :=
  ∃ parts, PtrOk s.levelPtr s.levels parts ∧ PtrOk s.partPtr parts n

/-- Every node `0..n-1` is listed exactly once. -/
def Complete (s : Sched) (n : Nat) : Prop := (s.nodes.take n).Perm (List.range n)

/-- `v` is scheduled in coarse level `l`, part `q`, at position `k`. -/
def At (s : Sched) (v l q k : Nat) : Prop :=
  l < s.levels ∧ InBlock s.levelPtr l q ∧ InBlock s.partPtr q k ∧ s.nodes[k]? = some v

/-- Every dependence goes to a later coarse level, or to a later position of the same part. -/
def Respects (s : Sched) (dep : Nat → Nat → Prop) : Prop :=
  ∀ u v, dep u v → ∀ l q k l' q' k', s.At u l q k → s.At v l' q' k' →
    l < l' ∨ (l = l' ∧ q = q' ∧ k < k')

/-- Every dependence goes to a later coarse level or stays inside a part: what a schedule still
guarantees when the order inside its parts is given up. -/
def Together (s : Sched) (dep : Nat → Nat → Prop) : Prop :=
  ∀ u v, dep u v → ∀ l q k l' q' k', s.At u l q k → s.At v l' q' k' →
    l < l' ∨ (l = l' ∧ q = q')

/-- A complete schedule that respects the dependences `dep` on `0..n-1`. -/
structure Valid (s : Sched) (n : Nat) (dep : Nat → Nat → Prop) : Prop where
  ptrs : s.PtrsOk n
  complete : s.Complete n
  respects : s.Respects dep

end Sched
end Verif

namespace Verif

/-- The rows of group `gr`: `groupSet[groupPtr[gr] .. groupPtr[gr+1])`. -/
def groupRows (groupPtr groupSet : List Nat) (gr : Nat) : List Nat :=
  (groupSet.drop (groupPtr.getD gr 0)).take (groupPtr.getD (gr + 1) 0 - groupPtr.getD gr 0)

/-- The row schedule described by a schedule of groups: every listed group is replaced by its
rows. -/
def Sched.expand (s : Sched) (groupPtr groupSet : List Nat) : Sched where
  levels := s.levels
  levelPtr := s.levelPtr
  partPtr := s.partPtr.map fun k =>
    ((s.nodes.take k).flatMap (groupRows groupPtr groupSet)).length
  nodes := s.nodes.flatMap (groupRows groupPtr groupSet)

/-- A level set seen as a coarse schedule in which every listed item is a part of its own. -/
def Sched.ofLevels (levels : Nat) (levelPtr levelSet : List Nat) : Sched where
  levels := levels
  levelPtr := levelPtr
  partPtr := List.range (levelSet.length + 1)
  nodes := levelSet

end Verif
