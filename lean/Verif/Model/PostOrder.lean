import Verif.Res

/-! # Model: `computePostOrder` (src/hdagg/hdagg.cpp:215-264) -/

namespace Verif.PostOrder
open Res

/-- hdagg.cpp:219-225: in-degrees; the first slot of a column (the diagonal) is skipped. -/
def inDegree (n : Nat) (p ix : List Nat) : Res (List Nat) :=
  forRange 0 n (fun u deg => do
    let lo ← rd p u
    let hi ← rd p (u + 1)
    forRange (lo + 1) hi (fun j deg => do
      let c ← rd ix j
      let d ← rd deg c
      wr deg c (d + 1)) deg) (List.replicate n 0)

/-- hdagg.cpp:227-232: nodes of in-degree 0, in increasing order. -/
def leaves (n : Nat) (deg : List Nat) : Res (List Nat) :=
  forRange 0 n (fun u acc => do
    let d ← rd deg u
    if d = 0 then ok (acc ++ [u]) else ok acc) []

/-- Variables of the search; the top of the stack is the first element of `stack`. -/
structure St where
  visited : List Bool
  stack : List Nat
  head : Nat
  cnt : Nat
  post : List Nat
deriving DecidableEq, Repr

/-- hdagg.cpp:246-255: the children of `head` from the last slot down to the slot after the first;
stops at the first one that is not visited. -/
def findChild (p ix : List Nat) (s : St) : Res (Ctl Unit Nat) := do
  let hi ← rd p (s.head + 1)
  let lo ← rd p s.head
  forRangeB 0 (hi - 1 - lo) (fun k _ => do
    let c ← rd ix (hi - 1 - k)
    let v ← rd s.visited c
    if v then ok (.next ()) else ok (.brk c)) ()

/-- One iteration of `while(!stack.empty())`, hdagg.cpp:244-262.  The code reads `stack.back()` after
the last element was popped (line 260).  With `strict` this is undefined behaviour; otherwise
`head` keeps its value, which is not used before it is overwritten. -/
def stepDfs (strict : Bool) (n : Nat) (p ix : List Nat) (s : St) : Res St := do
  let r ← findChild p ix s
  match r with
  | .brk c =>
      let visited ← wr s.visited c true
      ok { s with visited := visited, stack := c :: s.stack, head := c }
  | .next _ =>
      match s.stack with
      | [] => ub
      | t :: rest =>
          let post ← wrZ s.post ((n : Int) - 1 - s.cnt) t
          let head ← match rest with
            | [] => if strict then ub else ok s.head
            | h :: _ => ok h
          ok { s with post := post, cnt := s.cnt + 1, stack := rest, head := head }

/-- The search from one leaf, hdagg.cpp:238-262. -/
def dfs (strict : Bool) (n : Nat) (p ix : List Nat) (leaf : Nat) (s : St) : Res St := do
  let visited ← wr s.visited leaf true
  whileF (2 * n + 1) (fun s => ok (!s.stack.isEmpty)) (stepDfs strict n p ix)
    { s with head := leaf, visited := visited, stack := leaf :: s.stack }

/-- `computePostOrder`, hdagg.cpp:215-264; leaves from the last to the first. -/
def computePostOrder (strict : Bool) (n : Nat) (p ix : List Nat) : Res (List Nat) := do
  let deg ← inDegree n p ix
  let lv ← leaves n deg
  let s ← forEach lv.reverse (dfs strict n p ix)
    { visited := List.replicate n false, stack := [], head := 0, cnt := 0,
      post := List.replicate n 0 }
  ok s.post

end Verif.PostOrder
