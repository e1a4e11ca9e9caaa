import Verif.Model.MultiLevels
import Verif.Model.Inspector

/-!
# Models of `level_set_bn` and `bcsc_csc_bcsc_levelset`

utils/sparse_inspector.cpp lines 272-456 and 589-733: level sets over supernodes, of several copies of one
kernel and of two kernels with a matrix between them.  A supernode is represented by its first column (in the
branch for upper triangular matrices by its last column); in copy `q` it has the number `column + n * q`.
The variable `ptr_num` is only written by the code.  Counters are unbounded integers.
-/

namespace Verif.FLevel
open Res MLevel

/-- sparse_inspector.cpp:286-293 and 609-616: every column gets the first column of its supernode. -/
def supersFirst (n nodes : Nat) (super : List Nat) : Res (List Nat) := do
  let st ← forRange 0 nodes (fun i (st : List Nat × Nat) => do
    let a ← rd super i
    let b ← rd super (i + 1)
    whileF (n + 1) (fun st => ok (decide (a ≤ st.2 ∧ st.2 < b))) (fun st => do
      let s ← wr st.1 st.2 a
      ok (s, st.2 + 1)) st) (List.replicate n 0, 0)
  ok st.1

/-- sparse_inspector.cpp:366-373: the supernodes are listed from the last to the first, `super[i]` is the
last column of a supernode and `super[i + 1]` the column before its first one. -/
def supersLast (n nodes : Nat) (super : List Int) : Res (List Nat) := do
  let st ← forRange 0 nodes (fun i (st : List Nat × Int) => do
    let a ← rd super i
    let b ← rd super (i + 1)
    whileF (n + 1) (fun st => ok (decide (st.2 ≤ a ∧ b < st.2))) (fun st => do
      let s ← wrZ st.1 st.2 a.toNat
      ok (s, st.2 - 1)) st) (List.replicate n 0, (n : Int) - 1)
  ok st.1

/-- The rows of the column `c` after its first entry: sparse_inspector.cpp:298, 338, 623, 630, 678, 707. -/
def overBelow {σ : Type _} (Lp Li sup : List Nat) (c : Nat) (f : Nat → σ → Res σ) (s : σ) : Res σ := do
  let lo ← rd Lp c
  let hi ← rd Lp (c + 1)
  forRange (lo + 1) hi (fun p s => do
    let r ← rd Li p
    let x ← rd sup r
    f x s) s

/-- The rows of the column `c` from the last to the first: sparse_inspector.cpp:378 and 418.  The loop
variable runs from `hi - 1` down to `lo`. -/
def overAll {σ : Type _} (Lp Li sup : List Nat) (c : Nat) (f : Nat → σ → Res σ) (s : σ) : Res σ := do
  let hi ← rd Lp (c + 1)
  let lo ← rd Lp c
  forRange 0 (hi - lo) (fun k s => do
    let r ← rd Li (hi - 1 - k)
    let x ← rd sup r
    f x s) s

/-- `degrees[x]++`. -/
def inc (x : Nat) (deg : List Int) : Res (List Int) := do
  let d ← rd deg x
  wr deg x (d + 1)

/-- sparse_inspector.cpp:296-306 and 376-386: the edges between different supernodes are counted in every
copy.  `over` runs through the rows of a column. -/
def countBn (n K nodes : Nat) (super : List Nat)
    (over : Nat → (Nat → List Int → Res (List Int)) → List Int → Res (List Int)) (deg : List Int) :
    Res (List Int) :=
  forRange 0 nodes (fun i deg => do
    let index ← rd super i
    over index (fun x deg =>
      if index ≠ x then forRange 0 K (fun q deg => inc (x + q * n) deg) deg else ok deg) deg) deg

/-- sparse_inspector.cpp:309-315, 389-395 and 651-657: the sources are put into the queue. -/
def initQueue (nodes : Nat) (super : List Nat) (deg : List Int) (inq : List Bool) :
    Res (List Nat × List Bool) :=
  forRange 0 nodes (fun i s => do
    let v ← rd super i
    let d ← rd deg v
    if d = 0 then
      let inq ← wr s.2 v true
      ok (s.1 ++ [v], inq)
    else ok s) ([], inq)

/-- sparse_inspector.cpp:339-347 (also 419-427, 679-686, 695-701, 708-715): the edge to `x` is followed. -/
def visit (deg : List Int) (x : Nat) (s : St) : Res St := do
  let c ← rd s.vis x
  let vis ← wr s.vis x (c + 1)
  let d ← rd deg x
  let inq ← rd s.inq x
  if c + 1 = d ∧ inq = false then
    let inq ← wr s.inq x true
    ok { s with queue := s.queue ++ [x], vis := vis, inq := inq, next := s.next + 1 }
  else ok { s with vis := vis }

/-- sparse_inspector.cpp:326-335 (also 406-415, 667-675): the front of the queue is taken out and listed;
`body kern index` is the rest of the loop.  A division by zero is undefined. -/
def popFront (n : Nat) (body : Nat → Nat → St → Res St) (s : St) : Res St :=
  match s.queue with
  | [] => Res.ub
  | x :: q => do
    let c ← rd s.vis x
    let vis ← wr s.vis x (c + 1)
    let inq ← wr s.inq x false
    let levels ← wr s.levels s.num x
    if n = 0 then Res.ub
    else body (x / n) (x - x / n * n) ⟨q, vis, inq, levels, s.num + 1, s.next⟩

/-- sparse_inspector.cpp:323-361 (also 403-441, 664-722): one level. -/
def level (pop : St → Res St) (s : Lv) : Res Lv := do
  let a ← rd s.ptr s.cur
  let ptr ← wr s.ptr (s.cur + 1) (a + s.curN)
  let t ← forRange 0 s.curN (fun _ t => pop t) s.st
  ok ⟨{ t with next := 0 }, ptr, s.cur + 1, t.next⟩

/-- The loop over the levels and the copy of `cur_level + 1` entries.  `N` is the size of the arrays `visited`
and `inqueue`, `P` that of `levelPtr` and `S` that of `levels`. -/
def run (N P S : Nat) (q : List Nat × List Bool) (pop : St → Res St) :
    Res (Nat × List Nat × List Nat) := do
  let s ← whileF (N + 1) (fun s => ok (!s.st.queue.isEmpty)) (level pop)
    ⟨⟨q.1, List.replicate N 0, q.2, List.replicate S 0, 0, 0⟩, List.replicate P 0, 0, q.1.length⟩
  ok (s.cur, s.ptr.take (s.cur + 1), s.st.levels)

/-- `level_set_bn` with `isLower`, sparse_inspector.cpp:272-363 and 445-456. -/
def bnLower (n : Nat) (Lp Li : List Nat) (super : List Nat) (nodes K : Nat) :
    Res (Nat × List Nat × List Nat) :=
  if K = 0 then Res.ub
  else do
    let sup ← supersFirst n nodes super
    let deg ← countBn n K nodes super (overBelow Lp Li sup) (initDegrees n K)
    let q ← initQueue nodes super deg (List.replicate (K * n) false)
    run (K * n) (K * nodes + 1) (K * nodes) q (popFront n (fun kern v s => do
      let s ← overBelow Lp Li sup v (fun x s => visit deg (x + n * kern) s) s
      nextCopy n K kern v s))

/-- `level_set_bn` without `isLower`, sparse_inspector.cpp:272-283 and 364-456.  `super` ends with -1, which is
not used as a column; a negative column would be an access outside of the arrays. -/
def bnUpper (n : Nat) (Lp Li : List Nat) (super : List Int) (nodes K : Nat) :
    Res (Nat × List Nat × List Nat) :=
  if K = 0 then Res.ub
  else if (super.take nodes).any (fun c => decide (c < 0)) then Res.ub
  else do
    let sup ← supersLast n nodes super
    let deg ← countBn n K nodes (super.map Int.toNat) (overAll Lp Li sup) (initDegrees n K)
    let q ← initQueue nodes (super.map Int.toNat) deg (List.replicate (K * n) false)
    run (K * n) (K * nodes + 1) (K * nodes) q (popFront n (fun kern v s => do
      let s ← overAll Lp Li sup v (fun x s => visit deg (x + n * kern) s) s
      nextCopy n K kern v s))

/-- The rows of all columns of the supernode that starts in column `index` and ends before column `stop`:
sparse_inspector.cpp:644 and 693. -/
def overBlock {σ : Type _} (p i sup : List Nat) (index stop : Nat) (f : Nat → σ → Res σ) (s : σ) : Res σ := do
  let lo ← rd p index
  let hi ← rd p stop
  forRange lo hi (fun k s => do
    let r ← rd i k
    let x ← rd sup r
    f x s) s

/-- `bcsc_csc_bcsc_levelset`, sparse_inspector.cpp:589-733: a kernel on the supernodes with matrix `A`, a
multiplication with `B` that is done with the supernode of the first kernel, and a kernel with matrix `C`.
The assertions compare the sizes of the matrices, which are the same here. -/
def fused (n : Nat) (A B C : Csc) (nodes : Nat) (super : List Nat) : Res (Nat × List Nat × List Nat) := do
  let sup ← supersFirst n nodes super
  let deg ← forRange 0 nodes (fun i deg => do
    let index ← rd super i
    let deg ← overBelow A.p A.i sup index (fun x deg => if index ≠ x then inc x deg else ok deg) deg
    overBelow C.p C.i sup index (fun x deg => if index ≠ x then inc (x + n) deg else ok deg) deg)
    (List.replicate (2 * n) 0)
  let deg ← forRange 0 nodes (fun i deg => do
    let index ← rd super i
    let stop ← rd super (i + 1)
    overBlock B.p B.i sup index (index + (stop - index)) (fun x deg => inc (x + n) deg) deg) deg
  let q ← initQueue nodes super deg (List.replicate (2 * n) false)
  run (2 * n) (2 * n + 1) (2 * nodes) q (popFront n (fun kern index s =>
    if kern = 0 then do
      let s ← overBelow A.p A.i sup index (visit deg) s
      let start ← Inspect.find super index (nodes + 1) 0 nodes
      let a ← rd super (start + 1)
      let b ← rd super start
      overBlock B.p B.i sup index (index + (a - b)) (fun x s => visit deg (x + n) s) s
    else overBelow C.p C.i sup index (fun x s => visit deg (x + n) s) s))

end Verif.FLevel
