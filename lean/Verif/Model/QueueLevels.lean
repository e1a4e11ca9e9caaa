import Verif.Model.LevelSet

/-!
# Model of `buildLevelSet_CSC_Queue`

utils/sparse_inspector.cpp lines 63-123.  The parameter `nnz` and the variables `begin` and `end`
are not used by the code.
-/

namespace Verif.QLevel
open Res

/-- `inDegree`, `levelSet`, `levelPtr`, `curLevelCol`, `curLevel` and `dq`. -/
structure St where
  deg : List Int
  set : List Nat
  ptr : List Nat
  cnt : Nat
  cur : Nat
  dq : List Nat
deriving DecidableEq, Repr

/-- sparse_inspector.cpp:90-94: the nodes of in-degree 1 are put into the queue. -/
def initQueue (n : Nat) (deg : List Int) : Res (List Nat) :=
  forRange 0 n (fun i dq => do
    let d ← rd deg i
    ok (if d = 1 then dq ++ [i] else dq)) []

/-- sparse_inspector.cpp:98-103: `front`, `pop_front`, and the node goes to the level set; the state
is the level set, `curLevelCol` and the queue.  `front` of an empty queue is undefined. -/
def popStep (_ : Nat) (s : List Nat × Nat × List Nat) : Res (List Nat × Nat × List Nat) :=
  match s.2.2 with
  | [] => Res.ub
  | idx :: dq => do
    let set ← wr s.1 s.2.1 idx
    ok (set, s.2.1 + 1, dq)

/-- sparse_inspector.cpp:111-116: one edge is removed; the state is `inDegree` and the queue. -/
def edgeStep (v : Nat) (s : List Int × List Nat) : Res (List Int × List Nat) := do
  let d ← rd s.1 v
  let deg ← wr s.1 v (d - 1)
  ok (deg, if d - 1 = 1 then s.2 ++ [v] else s.2)

/-- sparse_inspector.cpp:108-117: the edges of one level are removed. -/
def removeLevel (Lp Li set : List Nat) (lo hi : Nat) (s : List Int × List Nat) :
    Res (List Int × List Nat) :=
  forRange lo hi (fun l s => do
    let cc ← rd set l
    let a ← rd Lp cc
    let b ← rd Lp (cc + 1)
    forRange (a + 1) b (fun j s => do
      let v ← rd Li j
      edgeStep v s) s) s

/-- sparse_inspector.cpp:96-118, body of `while (dq.size() != 0)`. -/
def step (Lp Li : List Nat) (s : St) : Res St := do
  let t ← forRange 0 s.dq.length popStep (s.set, s.cnt, s.dq)
  let ptr ← wr s.ptr (s.cur + 1) t.2.1
  let lo ← rd ptr s.cur
  let hi ← rd ptr (s.cur + 1)
  let u ← removeLevel Lp Li t.1 lo hi (s.deg, t.2.2)
  ok ⟨u.1, t.1, ptr, t.2.1, s.cur + 1, u.2⟩

/-- `buildLevelSet_CSC_Queue`, sparse_inspector.cpp:63-123: the number of levels, `levelPtr` and
`levelSet`.  `ptr` and `set` are the arrays passed by the caller.  `n + 1` rounds of fuel suffice
(proved). -/
def build (n : Nat) (Lp Li ptr set : List Nat) : Res (Nat × List Nat × List Nat) := do
  let deg ← LevelSet.countInDegree n Lp Li (List.replicate n 0)
  let dq ← initQueue n deg
  let s ← whileF (n + 1) (fun s => ok (s.dq.length != 0)) (step Lp Li) ⟨deg, set, ptr, 0, 0, dq⟩
  ok (s.cur, s.ptr, s.set)

end Verif.QLevel
