import Verif.Res

/-!
# Model: `merge_inner_part`

src/lbc_utils.cpp 122-142 (declared in include/aggregation/lbc_utils.h, not called in the
repository).  The list of parts is passed by value, `merged` and `out` are the objects of the caller,
`out` the array behind the pointer `outCost`.  Costs are unbounded integers.
-/

namespace Verif.Inner
open Res

/-- Variables of the outer loop: `i`, `lClusterCnt`, `mergedLeveledParList`, `outCost`. -/
structure St where
  i : Nat
  cnt : Nat
  merged : List (List Nat)
  out : List Int
deriving DecidableEq, Repr

/-- lbc_utils.cpp:130-136, the inner loop; `i`, `curCost` and the clusters. -/
def fill (parts : List (List Nat)) (cost : List Int) (th : Int) (cnt : Nat)
    (s : Nat × Int × List (List Nat)) : Res (Nat × Int × List (List Nat)) :=
  whileF parts.length (fun s => ok (decide (s.2.1 < th ∧ s.1 < parts.length)))
    (fun s => do
      let c ← rd cost s.1
      let m ← rd s.2.2 cnt
      let p ← rd parts s.1
      let merged ← wr s.2.2 cnt (m ++ p)
      ok (s.1 + 1, s.2.1 + c, merged)) s

/-- lbc_utils.cpp:128-139, body of the outer loop. -/
def cluster (parts : List (List Nat)) (cost : List Int) (th : Int) (s : St) : Res St := do
  let t ← fill parts cost th s.cnt (s.i, 0, s.merged)
  let out ← wr s.out (s.cnt + 1) t.2.1
  ok ⟨t.1, s.cnt + 1, t.2.2, out⟩

/-- `merge_inner_part`, lbc_utils.cpp:122-142; the returned value is `cnt`. -/
def mergeInner (fuel : Nat) (parts : List (List Nat)) (cost : List Int) (merged : List (List Nat))
    (out : List Int) (th : Int) : Res St :=
  whileF fuel (fun s => ok (decide (s.i < parts.length))) (cluster parts cost th) ⟨0, 0, merged, out⟩

end Verif.Inner
