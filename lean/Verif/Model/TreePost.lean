import Verif.Res

/-!
# Model: post order of a forest

`tree_post_order` (utils/lfactor_creation.cpp 17-93) and `dfs_tree` (utils/sparse_inspector.cpp
909-932).  The value -1 (`EMPTY`) is `none`, as in Verif/Model/Etree.lean.  `Head` (`n + 1` elements),
`Next` and `Pstack` (`n` elements each) are parts of one array; here they are separate, and an access
outside of a part is undefined.  `Pstack` is a stack (top first) of at most `n` elements.
-/

namespace Verif.TreePost
open Res

/-- `Head`, `Next`. -/
structure Links where
  head : List (Option Nat)
  next : List (Option Nat)
deriving DecidableEq, Repr

/-- Node `j` is put in front of the children of `p`, lfactor_creation.cpp:37-38 and 72-73. -/
def link (p j : Nat) (s : Links) : Res Links := do
  let h ← rd s.head p
  let next ← wr s.next j h
  let head ← wr s.head p (some j)
  ok ⟨head, next⟩

/-- The lists of children without weights, lfactor_creation.cpp:33-40; iteration `t` is
`j = n - 1 - t`. -/
def linkPlain (n : Nat) (parent : List (Option Nat)) (s : Links) : Res Links :=
  forRange 0 n (fun t s => do
    let j := n - 1 - t
    let p ← rd parent j
    match p with
    | some p => if p < n then link p j s else ok s
    | none => ok s) s

/-- `w = MIN (MAX (0, w), n - 1)`, lfactor_creation.cpp:57-59. -/
def clamp (n : Nat) (w : Int) : Nat := (min (max 0 w) ((n : Int) - 1)).toNat

/-- The buckets of the weights, lfactor_creation.cpp:53-64; the state is `Whead` and `Next`. -/
def fillBuckets (n : Nat) (parent : List (Option Nat)) (weight : List Int)
    (s : List (Option Nat) × List (Option Nat)) : Res (List (Option Nat) × List (Option Nat)) :=
  forRange 0 n (fun j s => do
    let p ← rd parent j
    match p with
    | some p =>
      if p < n then do
        let w ← rd weight j
        let w := clamp n w
        let h ← rd s.1 w
        let next ← wr s.2 j h
        let whead ← wr s.1 w (some j)
        ok (whead, next)
      else ok s
    | none => ok s) s

/-- One bucket, lfactor_creation.cpp:67-75; every node is in one bucket, so `n` rounds of fuel
suffice (proved). -/
def emptyBucket (debug : Bool) (n : Nat) (parent : List (Option Nat)) (h : Option Nat) (s : Links) :
    Res Links := do
  let r ← whileF n (fun (s : Option Nat × Links) => ok s.1.isSome) (fun s =>
    match s.1 with
    | none => ub
    | some j => do
      let nextj ← rd s.2.next j
      let p ← rd parent j
      match p with
      | none => if debug then exn else ub
      | some p =>
        if debug = true ∧ ¬ p < n then exn else do
        let s ← link p j s.2
        ok (nextj, s)) (h, s)
  ok r.2

/-- The lists of children with weights, lfactor_creation.cpp:44-77; iteration `t` of the second loop
is `w = n - 1 - t`. -/
def linkWeighted (debug : Bool) (n : Nat) (parent : List (Option Nat)) (weight : List Int) (s : Links) :
    Res Links := do
  let b ← fillBuckets n parent weight (List.replicate n none, s.next)
  forRange 0 n (fun t s => do
    let h ← rd b.1 (n - 1 - t)
    emptyBucket debug n parent h s) ⟨s.head, b.2⟩

/-- The stack, `Head`, `Post` and `k`. -/
structure Dfs where
  stack : List Nat
  head : List (Option Nat)
  post : List Nat
  k : Nat
deriving DecidableEq, Repr

/-- The body of `while (phead >= 0)`, sparse_inspector.cpp:916-929. -/
def dfsStep (n : Nat) (next : List (Option Nat)) (s : Dfs) : Res Dfs :=
  match s.stack with
  | [] => ub
  | p :: st => do
    let j ← rd s.head p
    match j with
    | none => do
      let post ← wr s.post s.k p
      ok ⟨st, s.head, post, s.k + 1⟩
    | some j => do
      let h ← rd next j
      let head ← wr s.head p h
      if n ≤ s.stack.length then ub else ok ⟨j :: s.stack, head, s.post, s.k⟩

/-- `dfs_tree`, sparse_inspector.cpp:909-932.  Every node is pushed and popped at most once, so
`2 * n` rounds of fuel suffice (proved). -/
def dfsTree (n p : Nat) (next : List (Option Nat)) (s : Dfs) : Res Dfs :=
  if n = 0 then ub else
  whileF (2 * n) (fun s => ok (!s.stack.isEmpty)) (dfsStep n next) { s with stack := [p] }

/-- `tree_post_order`, lfactor_creation.cpp:17-93: the returned number and `Post`. -/
def treePostOrder (debug : Bool) (n : Nat) (parent : List (Option Nat)) (weight : Option (List Int))
    (post : List Nat) : Res (Nat × List Nat) := do
  if debug = true ∧ n = 0 then exn else do
  let s : Links := ⟨List.replicate (n + 1) none, List.replicate n (some 0)⟩
  let s ← (match weight with
    | none => linkPlain n parent s
    | some w => linkWeighted debug n parent w s)
  let r ← forRange 0 n (fun j (r : Dfs) => do
    let p ← rd parent j
    if p = none then dfsTree n j s.next r else ok r) ⟨[], s.head, post, 0⟩
  ok (r.k, r.post)

end Verif.TreePost
