import Verif.Res

/-!
# Model of `level_set_multi_graphs`

utils/sparse_inspector.cpp lines 184-268: the level sets of `n_kern` copies of one graph.  Node `v`
of copy `q` is numbered `v + n * q`.  The variable `ptr_num` is only written by the code.
-/

namespace Verif.MLevel
open Res

/-- `queue`, `visited`, `inqueue`, `levels`, `lev_num` and `next_n`. -/
structure St where
  queue : List Nat
  vis : List Int
  inq : List Bool
  levels : List Nat
  num : Nat
  next : Nat
deriving DecidableEq, Repr

/-- `St` with `levelPtr`, `cur_level` and `cur_n`. -/
structure Lv where
  st : St
  ptr : List Nat
  cur : Nat
  curN : Nat
deriving DecidableEq, Repr

/-- sparse_inspector.cpp:191: `memset(degrees + n, 1, sizeof(int) * n * (n_kern - 1))` stores the
byte 1, so every entry of the copies after the first is `0x01010101`. -/
def memsetOne : Int := 16843009

/-- sparse_inspector.cpp:187 and 191. -/
def initDegrees (n K : Nat) : List Int :=
  List.replicate n 0 ++ List.replicate (n * (K - 1)) memsetOne

/-- sparse_inspector.cpp:195-201: the off-diagonal entries are counted in every copy. -/
def countDegrees (n K : Nat) (Lp Li : List Nat) (deg : List Int) : Res (List Int) :=
  forRange 0 n (fun i deg => do
    let lo ← rd Lp i
    let hi ← rd Lp (i + 1)
    forRange (lo + 1) hi (fun p deg => do
      let v ← rd Li p
      forRange 0 K (fun q deg => do
        let d ← rd deg (v + n * q)
        wr deg (v + n * q) (d + 1)) deg) deg) deg

/-- sparse_inspector.cpp:202-207: the sources of the first copy are put into the queue. -/
def initQueue (n : Nat) (deg : List Int) (inq : List Bool) : Res (List Nat × List Bool) :=
  forRange 0 n (fun i s => do
    let d ← rd deg i
    if d = 0 then
      let inq ← wr s.2 i true
      ok (s.1 ++ [i], inq)
    else ok s) ([], inq)

/-- sparse_inspector.cpp:231-240: one out-going edge, to node `v` of copy `kern`. -/
def edge (n kern : Nat) (deg : List Int) (v : Nat) (s : St) : Res St := do
  let vis ← rd s.vis (v + n * kern)
  let d ← rd deg (v + n * kern)
  let inq ← rd s.inq (v + n * kern)
  if vis = d - 1 ∧ inq = false then
    let inq ← wr s.inq (v + n * kern) true
    ok { s with queue := s.queue ++ [v + n * kern], inq := inq, next := s.next + 1 }
  else
    let vis ← wr s.vis (v + n * kern) (vis + 1)
    ok { s with vis := vis }

/-- sparse_inspector.cpp:244-248: the node of the next copy is put into the queue. -/
def nextCopy (n K kern v : Nat) (s : St) : Res St :=
  if kern < K - 1 then do
    let inq ← wr s.inq (v + n * (kern + 1)) true
    ok { s with queue := s.queue ++ [v + n * (kern + 1)], inq := inq, next := s.next + 1 }
  else ok s

/-- sparse_inspector.cpp:217-248, body of the loop over one level.  `front` of an empty queue and a
division by zero are undefined. -/
def pop (n K : Nat) (Lp Li : List Nat) (deg : List Int) (s : St) : Res St :=
  match s.queue with
  | [] => Res.ub
  | x :: q => do
    let c ← rd s.vis x
    let vis ← wr s.vis x (c + 1)
    let inq ← wr s.inq x false
    let levels ← wr s.levels s.num x
    if n = 0 then Res.ub
    else
      let kern := x / n
      let v := x - kern * n
      let lo ← rd Lp v
      let hi ← rd Lp (v + 1)
      let s ← forRange (lo + 1) hi (fun p s => do
        let w ← rd Li p
        edge n kern deg w s) ⟨q, vis, inq, levels, s.num + 1, s.next⟩
      nextCopy n K kern v s

/-- sparse_inspector.cpp:213-256, body of `while (!queue.empty())`. -/
def level (n K : Nat) (Lp Li : List Nat) (deg : List Int) (s : Lv) : Res Lv := do
  let a ← rd s.ptr s.cur
  let ptr ← wr s.ptr (s.cur + 1) (a + s.curN)
  let t ← forRange 0 s.curN (fun _ t => pop n K Lp Li deg t) s.st
  ok ⟨{ t with next := 0 }, ptr, s.cur + 1, t.next⟩

/-- `level_set_multi_graphs`, sparse_inspector.cpp:184-268: the number of levels, `levelptr`
(a copy of exactly `cur_level + 1` entries) and `levels`.  Without a copy (`n_kern = 0`) the
`memset` writes outside the array.  `n * K + 1` rounds of fuel suffice (proved). -/
def build (n : Nat) (Lp Li : List Nat) (K : Nat) : Res (Nat × List Nat × List Nat) :=
  if K = 0 then Res.ub
  else do
    let deg ← countDegrees n K Lp Li (initDegrees n K)
    let q ← initQueue n deg (List.replicate (K * n) false)
    let s ← whileF (K * n + 1) (fun s => ok (!s.st.queue.isEmpty)) (level n K Lp Li deg)
      ⟨⟨q.1, List.replicate (K * n) 0, q.2, List.replicate (K * n) 0, 0, 0⟩,
        List.replicate (K * n + 1) 0, 0, q.1.length⟩
    ok (s.cur, s.ptr.take (s.cur + 1), s.st.levels)

end Verif.MLevel
