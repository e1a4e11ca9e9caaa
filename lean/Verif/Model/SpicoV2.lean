import Verif.Model.RunGroup

/-!
# Model: `group::inspection_spicocsc_v2` (src/group.cpp 55-152, the same code in src/Group/Group.cpp)

Chains of columns are built with the arrays `next` and `pre`; `status` is 1 or 3 for the columns of the middle part of a
chain.  The loop over columns without child reads `child[ncol]` if a chain reaches the last column.  The array has `ncol`
entries, so this is undefined; the parameter `extra` lists the integers that follow the array in memory, `[]` is the
semantics of the language.  With another `extra` one sees what the compiled program does.
-/

namespace Verif.SpicoV2
open Res RunGroup

/-- The members `visited`, `status`, `next`, `pre`. -/
structure Arr where
  visited : List Bool
  status : List Nat
  next : List Nat
  pre : List Nat
deriving DecidableEq, Repr

/-- group.cpp:70-72, 76 (with `st = 1`) and 80-83, 92-95 (with `st = 3`): column `b` is put after column `a`. -/
def link (a b st : Nat) (s : Arr) : Res Arr := do
  let visited ← wr s.visited b true
  let pre ← wr s.pre b a
  let next ← wr s.next a b
  let status ← wr s.status b st
  ok ⟨visited, status, next, pre⟩

/-- group.cpp:78-86: the columns that follow each other; the state is the arrays, `curIdx` and `chIdx`. -/
def run (n : Nat) (child : List Int) (s : Arr × Nat × Int) : Res (Arr × Nat × Int) :=
  whileF n
    (fun s => if s.2.2 ≠ -1 ∧ s.2.2 - s.2.1 = 1 then do
        let v ← rdZ s.1.visited s.2.2
        ok (!v)
      else ok false)
    (fun s => do
      let a ← link s.2.1 s.2.2.toNat 3 s.1
      let c ← rd child s.2.2.toNat
      ok (a, s.2.2.toNat, c)) s

/-- group.cpp:88-99: at most `ncol/12` columns without child; the state is the arrays, `tcurIdx` and `len`. -/
def leaves (n : Nat) (child : List Int) (s : Arr × Nat × Nat) : Res (Arr × Nat × Nat) :=
  whileF n
    (fun s => do
      let c ← rd child s.2.1
      if c ≠ -1 then ok false
      else do
        let v ← rd s.1.visited s.2.1
        ok (!v && decide (s.2.2 < n / 12)))
    (fun s => do
      let a ← link (s.2.1 - 1) s.2.1 3 s.1
      ok (a, s.2.1 + 1, s.2.2 + 1)) s

/-- group.cpp:68-100: a new chain that starts with column `i`, whose child is `c`. -/
def newChain (n : Nat) (child : List Int) (i c : Nat) (s : Arr) : Res Arr := do
  let s ← link i c 1 s
  let d ← rd child c
  let t ← run n child (s, c, d)
  let u ← leaves n child (t.1, t.2.1 + 1, 0)
  ok u.1

/-- group.cpp:102-108, 111-117: column `i` is put before its child `c`.  The statement `status[curIdx]==2;` has no
effect. -/
def insert (i c : Nat) (s : Arr) : Res Arr := do
  let visited ← wr s.visited c true
  let next ← wr s.next i c
  let tp ← rd s.pre c
  let pre ← wr s.pre c i
  let pre ← wr pre i tp
  let next ← wr next tp i
  ok ⟨visited, s.status, next, pre⟩

/-- group.cpp:61-120: body of the loop over the columns. -/
def step (n : Nat) (child : List Int) (i : Nat) (s : Arr) : Res Arr := do
  let c ← rd child i
  if c = -1 then ok s
  else do
    let v ← rd s.visited i
    if v then ok s
    else do
      let visited ← wr s.visited i true
      let si ← rd s.status i
      let sc ← rdZ s.status c
      if si = 0 ∧ sc = 0 then newChain n child i c.toNat { s with visited := visited }
      else if sc = 1 ∧ si = 0 then insert i c.toNat { s with visited := visited }
      else if sc = 3 ∧ si = 0 then insert i c.toNat { s with visited := visited }
      else ok { s with visited := visited }

/-- The chains, group.cpp:61-122.  The constructor sets the arrays to zero. -/
def chains (n : Nat) (child : List Int) : Res Arr :=
  forRange 0 n (step n child) ⟨List.replicate n false, List.replicate n 0, List.replicate n 0, List.replicate n 0⟩

/-- `group::inspection_spicocsc_v2`, group.cpp:55-152; the last part is the same as in the first version. -/
def spicoCscV2 (extra : List Int) (n : Nat) (p ix ptr set inv : List Nat) : Res Out := do
  let child ← childCsc n p ix
  let s ← chains n (child ++ extra)
  collect n s.next ptr set inv

end Verif.SpicoV2
