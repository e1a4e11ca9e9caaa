import Verif.Res

/-!
# Model: `aggressiveSupernodeGrouping`

src/hdagg/hdagg.cpp 1138-1232.  The function looks for supernodes inside the parts of a schedule of
groups and returns their average size.  The printed lines are left out.  The returned quotient of two
doubles is modelled by numerator and denominator (both are integers).
-/

namespace Verif.Aggr
open Res

/-- hdagg.cpp:1150-1164, `node_assigned`: the part of its level ("core") and the level of every node. -/
def assign (n levels : Nat) (levelPtr partPtr nodes groupPtr groupSet : List Nat) : Res (List (Nat × Nat)) :=
  forRange 0 levels (fun lvl a => do
    let lo ← rd levelPtr lvl
    let hi ← rd levelPtr (lvl + 1)
    let t ← forRange lo hi (fun q t => do
      let plo ← rd partPtr q
      let phi ← rd partPtr (q + 1)
      let a ← forRange plo phi (fun k a => do
        let group ← rd nodes k
        let glo ← rd groupPtr group
        let ghi ← rd groupPtr (group + 1)
        forRange glo ghi (fun x a => do
          let node ← rd groupSet x
          wr a node (t.1, lvl)) a) t.2
      ok (t.1 + 1, a)) ((0 : Nat), a)
    ok t.2) (List.replicate n (0, 0))

/-- `grouped`, `supernode_ptr`, `supernode_set`. -/
structure St where
  grouped : List Bool
  ptr : List Nat
  set : List Nat
deriving DecidableEq, Repr

/-- hdagg.cpp:1197-1203, the comparison of the patterns of `col` (from entry `diff` on) and `iter`. -/
def samePattern (p ix : List Nat) (col it : Nat) (off : Int) : Res Bool := do
  let r ← forRangeB 0 off.toNat (fun row (_ : Unit) => do
    let a ← rd p col
    let x ← rdZ ix ((a : Int) + row + ((it : Int) - col))
    let b ← rd p it
    let y ← rd ix (b + row)
    if x ≠ y then ok (.brk ()) else ok (.next ())) ()
  match r with
  | .next _ => ok true
  | .brk _ => ok false

/-- hdagg.cpp:1205-1209: `supernode_ptr.back()++; supernode_set.push_back(iter); grouped[iter] = true;`. -/
def join (it : Nat) (s : St) : Res St := do
  let b ← back s.ptr
  let grouped ← wr s.grouped it true
  ok ⟨grouped, s.ptr.set (s.ptr.length - 1) (b + 1), s.set ++ [it]⟩

/-- hdagg.cpp:1177-1210, the loop over the candidates. -/
def scan (p ix : List Nat) (assigned : List (Nat × Nat)) (col : Nat) : List Nat → St → Res St
  | [], s => ok s
  | it :: rest, s => do
    let a ← rd assigned col
    let b ← rd assigned it
    if a ≠ b then scan p ix assigned col rest s else do
    let gr ← rd s.grouped it
    if gr then scan p ix assigned col rest s else do
    let hi ← rd p (it + 1)
    let lo ← rd p it
    let chi ← rd p (col + 1)
    let clo ← rd p col
    let first := (chi : Int) - clo - ((it : Int) - col)
    if first ≠ (hi : Int) - lo then ok s else do
    let same ← samePattern p ix col it first
    if same then do
      let s ← join it s
      scan p ix assigned col rest s
    else scan p ix assigned col rest s

/-- hdagg.cpp:1173, the vector constructed from two pointers; a range with its end before its
beginning is undefined. -/
def candidates (p ix : List Nat) (col : Nat) : Res (List Nat) := do
  let lo ← rd p col
  let hi ← rd p (col + 1)
  if hi < lo + 1 then ub else
    forRange (lo + 1) hi (fun k c => do
      let v ← rd ix k
      ok (c ++ [v])) []

/-- hdagg.cpp:1173-1210: one supernode. -/
def oneNode (p ix : List Nat) (assigned : List (Nat × Nat)) (col : Nat) (s : St) : Res St := do
  let cand ← candidates p ix col
  let grouped ← wr s.grouped col true
  let b ← back s.ptr
  scan p ix assigned col cand ⟨grouped, s.ptr ++ [b + 1], s.set ++ [col]⟩

/-- hdagg.cpp:1212-1217: the next node that is in no supernode (the code tests `col == num_nodes`
after every step; `col` is a node at the start). -/
def advance (n : Nat) (grouped : List Bool) (col : Nat) : Res Nat :=
  whileF n (fun c => if c = n then ok false else rd grouped c) (fun c => ok (c + 1)) col

/-- hdagg.cpp:1166-1218. -/
def supernodes (n : Nat) (p ix : List Nat) (assigned : List (Nat × Nat)) : Res St := do
  let t ← whileF n (fun t : Nat × St => ok (decide (t.1 < n)))
    (fun t => do
      let s ← oneNode p ix assigned t.1 t.2
      let c ← advance n s.grouped t.1
      ok (c, s)) (0, ⟨List.replicate n false, [0], []⟩)
  ok t.2

/-- hdagg.cpp:1220-1226: sum of the sizes and number of supernodes. -/
def average (ptr : List Nat) : Res (Int × Nat) :=
  forRange 0 (ptr.length - 1) (fun i t => do
    let hi ← rd ptr (i + 1)
    let lo ← rd ptr i
    ok (t.1 + ((hi : Int) - lo), t.2 + 1)) (0, 0)

/-- `aggressiveSupernodeGrouping`, hdagg.cpp:1138-1232: the supernodes and the two numbers whose
quotient is returned. -/
def aggressive (n levels : Nat) (levelPtr partPtr nodes groupPtr groupSet p ix : List Nat) :
    Res (St × Int × Nat) := do
  let a ← assign n levels levelPtr partPtr nodes groupPtr groupSet
  let s ← supernodes n p ix a
  let r ← average s.ptr
  ok (s, r)

end Verif.Aggr
