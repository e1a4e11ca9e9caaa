import Verif.Model.LevelSet
import Verif.Model.Symm

/-!
# Model of `compute_depth`, `find` and `sup2node_gen`

utils/sparse_inspector.cpp lines 556-585 and 888-908.
-/

namespace Verif.Inspect
open Res Sp

variable {V : Type}

/-- sparse_inspector.cpp:898-903: every node gets the number of its level.  A negative `level_num`
means no iteration. -/
def writeLevels (ret : Int) (levelPtr levelSet degrees : List Nat) : Res (List Nat) :=
  forRange 0 ret.toNat (fun i d => do
    let lo ← rd levelPtr i
    let hi ← rd levelPtr (i + 1)
    forRange lo hi (fun j d => do
      let cn ← rd levelSet j
      wr d cn i) d) degrees

/-- `compute_depth`, sparse_inspector.cpp:888-908: the array `degrees` after the call.  `nnz` and `pat`
are fields of `A`; `dbg` switches on the assertions.  The result of `transpose_general` is used
without a test for `NULL`. -/
def computeDepth [Zero V] (dbg : Bool) (A : Sp V) (nnz : Nat) (pat : Bool) (degrees : List Nat) :
    Res (List Nat) := do
  let t ← transposeGeneral dbg A nnz pat >>= Symm.deref
  let a ← rd A.p A.cols
  let b ← rd t.p t.cols
  if dbg && (a != b) then exn
  else do
    let o ← LevelSet.buildLevelSet A.cols t.p t.i
    writeLevels o.ret o.levelPtr o.levelSet degrees

/-- `find`, sparse_inspector.cpp:556-573: binary search.  Every call of the code that does not
return makes one recursive call; here `fuel` bounds the number of calls. -/
def find (sup : List Nat) (target : Nat) : Nat → Nat → Nat → Res Nat
  | 0, _, _ => nofuel
  | fuel + 1, start, stop => do
    let s ← (if start = stop then do
        let x ← rd sup start
        ok (if x = target then some start else none)
      else ok none)
    match s with
    | some r => ok r
    | none => do
      let t ← (if stop - start = 1 then do
          let x ← rd sup start
          if x = target then ok (some start)
          else do
            let y ← rd sup stop
            ok (if y = target then some stop else none)
        else ok none)
      match t with
      | some r => ok r
      | none => do
        let x ← rd sup ((stop + start) / 2)
        if x = target then ok ((stop + start) / 2)
        else if target < x then find sup target fuel start ((stop + start) / 2)
        else find sup target fuel ((stop + start) / 2) stop

/-- `sup2node_gen`, sparse_inspector.cpp:575-585: for every entry of `levels` the index of its
supernode.  `n` is the number of columns; a division by zero is undefined. -/
def sup2nodeGen (fuel n size : Nat) (levels : List Nat) (nodes : Nat) (sup : List Nat) :
    Res (List Nat) :=
  forRange 0 size (fun i out => do
    let s ← rd levels i
    if n = 0 then ub
    else do
      let r ← find sup (s - s / n * n) fuel 0 nodes
      wr out i r) (List.replicate size 0)

end Verif.Inspect
