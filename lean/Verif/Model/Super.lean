import Verif.Model.Hdagg

/-!
# Model: supernodes and blocked matrices

The class `SuperNodal` (utils/SuperNodalTools.cpp 286-481) and the class `BCSCMatrix`
(utils/BCSCMatrix.cpp, include/aggregation/BCSCMatrix.h; the copies in
utils/SuperNodalTools.cpp 5-284 are the same functions).  Pointers and indices of a matrix are natural numbers;
differences of them are integers, as in the code.
-/

namespace Verif.Super
open Res

/-! ## `SuperNodal` -/

/-- The loop that compares `cnt` row (column) indices starting at the positions `a` and `b`;
SuperNodalTools.cpp:346-352 and 401-407, BCSCMatrix.cpp:41-50. -/
def sameIdx (ix : List Nat) (a b cnt : Nat) : Res Bool := do
  let r ← forRangeB 0 cnt (fun t (_ : Unit) => do
    let u ← rd ix (a + t)
    let v ← rd ix (b + t)
    if u ≠ v then ok (Ctl.brk ()) else ok (Ctl.next ())) ()
  match r with
  | .next _ => ok true
  | .brk _ => ok false

/-- The body of `while (last < n && width < limit)` for rows, SuperNodalTools.cpp:336-352: can row
`last` be added to the supernode that starts with row `first`? -/
def sameCsr (debug : Bool) (p ix : List Nat) (first last : Nat) : Res Bool := do
  let diff := last - first
  let l1 ← rd p (last + 1)
  let l0 ← rd p last
  let f1 ← rd p (first + 1)
  let f0 ← rd p first
  let offLast : Int := (l1 : Int) - l0 - diff
  let offFirst : Int := (f1 : Int) - f0
  if offFirst ≠ offLast then ok false
  else if debug = true ∧ ¬ (0 < offFirst ∧ 0 < offLast) then exn
  else sameIdx ix f0 l0 offFirst.toNat

/-- The same for columns, SuperNodalTools.cpp:391-407. -/
def sameCsc (debug : Bool) (p ix : List Nat) (first last : Nat) : Res Bool := do
  let diff := last - first
  let l1 ← rd p (last + 1)
  let l0 ← rd p last
  let f1 ← rd p (first + 1)
  let f0 ← rd p first
  let offLast : Int := (l1 : Int) - l0
  let offFirst : Int := (f1 : Int) - f0 - diff
  if offFirst ≠ offLast then ok false
  else if debug = true ∧ ¬ (0 < offFirst ∧ 0 < offLast) then exn
  else sameIdx ix (f0 + diff) l0 offFirst.toNat

/-- `while (last < n && width < limit)`, SuperNodalTools.cpp:335-362 and 390-417; `last` is
`first + width`. -/
def runWidth (n limit : Nat) (same : Nat → Nat → Res Bool) (first : Nat) : Res Nat :=
  loopF (n + 1) (fun width =>
    if first + width < n ∧ width < limit then do
      let m ← same first (first + width)
      if m then ok (.next (width + 1)) else ok (.brk width)
    else ok (.brk width)) 1

/-- `supernodes_ptr` and `off_diag_size`. -/
structure Runs where
  ptr : List Nat
  off : List Int
deriving DecidableEq, Repr

/-- The outer loop of `createCSRSupernode` and `createCSCSupernode`, SuperNodalTools.cpp:331-370 and
386-425.  `offOf` is the pushed value of `off_diag_size` and the asserted one. -/
def runs (debug : Bool) (n limit : Nat) (same : Nat → Nat → Res Bool)
    (offOf : Nat → Nat → Res (Int × Int)) : Res Runs := do
  let s ← whileF n (fun (s : Nat × Runs) => ok (decide (s.1 < n))) (fun s => do
    let width ← runWidth n limit same s.1
    let next := s.1 + width
    if debug = true ∧ ¬ next ≤ n then exn else do
    let o ← offOf s.1 width
    if debug = true ∧ ¬ 0 ≤ o.2 then exn else
    ok (next, ⟨s.2.ptr ++ [next], s.2.off ++ [o.1]⟩)) (0, ⟨[0], []⟩)
  let b ← back s.2.ptr
  if debug = true ∧ b ≠ n then exn else ok s.2

/-- `createCSRSupernode` without the last loop, SuperNodalTools.cpp:323-374. -/
def csrRuns (debug : Bool) (n limit : Nat) (p ix : List Nat) : Res Runs :=
  runs debug n limit (sameCsr debug p ix) (fun first _ => do
    let f1 ← rd p (first + 1)
    let f0 ← rd p first
    ok ((f1 : Int) - f0 - 1, (f1 : Int) - f0 - 1))

/-- `createCSCSupernode` without the last loop, SuperNodalTools.cpp:378-429. -/
def cscRuns (debug : Bool) (n limit : Nat) (p ix : List Nat) : Res Runs :=
  runs debug n limit (sameCsc debug p ix) (fun first width => do
    let f1 ← rd p (first + 1)
    let f0 ← rd p first
    ok ((f1 : Int) - f0 - width - 1, (f1 : Int) - f0 - width))

/-- `node_to_sup`, SuperNodalTools.cpp:376-380 and 431-435. -/
def nodeToSup (n : Nat) (ptr : List Nat) : Res (List Nat) :=
  forRange 0 (ptr.length - 1) (fun sup inv => do
    let lo ← rd ptr sup
    let hi ← rd ptr (sup + 1)
    forRange lo hi (fun node inv => wr inv node sup) inv) (List.replicate n 0)

/-- `unordered_set::insert`; the list is in the order of the insertions. -/
def insertSet (v : Nat) (l : List Nat) : List Nat := if v ∈ l then l else l ++ [v]

/-- The set `child_buffer`, SuperNodalTools.cpp:462-467. -/
def childSet (ix inv : List Nat) (lo hi sEnd : Nat) : Res (List Nat) :=
  forRange lo hi (fun c buf => do
    let v ← rd ix c
    if sEnd ≤ v then do
      let h ← rd inv v
      ok (insertSet h buf)
    else ok buf) []

/-- `std::copy` to the positions from `at_` on. -/
def copyTo (l : List Nat) (at_ : Nat) (set : List Nat) : Res (List Nat) :=
  forRange 0 l.length (fun t set => do
    let v ← rd l t
    wr set (at_ + t) v) set

/-- `createDepDAG`, SuperNodalTools.cpp:447-481.  `csrNnz` is `A_CSR->nnz`, or `none` for a null
pointer; `hash l` is the order in which the hash set with the elements `l` is copied. -/
def createDepDAG (debug : Bool) (hash : List Nat → List Nat) (csrNnz : Option Nat) (ptr inv p ix : List Nat) :
    Res (List Nat × List Nat) :=
  match csrNnz with
  | none => ub
  | some nnz => do
    let num := ptr.length - 1
    let s ← forRange 0 num (fun sup (s : List Nat × List Nat) => do
      let sBegin ← rd ptr sup
      let sEnd ← rd ptr (sup + 1)
      let lo ← rd p sBegin
      let hi ← rd p sEnd
      if debug = true ∧ ¬ lo < hi then exn else do
      let buf ← childSet ix inv lo hi sEnd
      let buf := insertSet sup buf
      let b ← back s.1
      let dag := s.1 ++ [b + buf.length]
      let start ← rd dag sup
      let stop ← rd dag (sup + 1)
      let set ← copyTo (hash buf) start s.2
      let set ← Hdagg.sortRange set start stop
      ok (dag, set)) ([0], List.replicate nnz 0)
    if debug = true ∧ s.1.length ≠ num + 1 then exn else do
    let total ← back s.1
    ok (s.1, s.2.take total ++ List.replicate (total - s.2.length) 0)

/-- The argument `type`. -/
inductive MatType where
  | csc
  | csr
deriving DecidableEq, Repr

/-- The results of the constructor: `supernodes_ptr`, `off_diag_size`, `DAG_ptr`, `DAG_set`. -/
structure Out where
  ptr : List Nat
  off : List Int
  dagPtr : List Nat
  dagSet : List Nat
deriving DecidableEq, Repr

/-- The constructor `SuperNodal::SuperNodal`, SuperNodalTools.cpp:286-321.  `none` is a null pointer.
A matrix is given by its arrays and its number of non-zeros; a limit below 1 is replaced by `n`.  The argument `Dep_DAG` is
not used by the code (line 291). -/
def superNodal (debug : Bool) (hash : List Nat → List Nat) (type : MatType) (csc csr : Option Csc)
    (csrNnz : Nat) (limit : Int) : Res Out :=
  match csc with
  | none => if debug then exn else ub
  | some A =>
    let mat := match type with
      | .csc => some A
      | .csr => csr
    match mat with
    | none => if debug then exn else ub
    | some B => do
      let lim := if limit < 1 then B.n else limit.toNat
      let r ← (match type with
        | .csc => cscRuns debug B.n lim B.p B.i
        | .csr => csrRuns debug B.n lim B.p B.i)
      let inv ← nodeToSup B.n r.ptr
      let d ← createDepDAG debug hash (csr.map fun _ => csrNnz) r.ptr inv A.p A.i
      ok ⟨r.ptr, r.off, d.1, d.2⟩

/-! ## `BCSCMatrix` -/

/-- The comparison of column `cur` with the first column `pre` of a block in a lower triangular matrix,
BCSCMatrix.cpp:32-51. -/
def blockSame (p ix : List Nat) (pre cur : Nat) : Res Bool := do
  let diff := cur - pre
  let f1 ← rd p (pre + 1)
  let f0 ← rd p pre
  let c1 ← rd p (cur + 1)
  let c0 ← rd p cur
  if (f1 : Int) - f0 - diff ≠ (c1 : Int) - c0 then ok false
  else sameIdx ix (f0 + diff) c0 (c1 - c0)

/-- The comparison for an upper triangular matrix, BCSCMatrix.cpp:76-95; the indices are compared from
the end of the columns. -/
def blockSameUp (p ix : List Nat) (pre cur : Nat) : Res Bool := do
  let diff := pre - cur
  let f1 ← rd p (pre + 1)
  let f0 ← rd p pre
  let c1 ← rd p (cur + 1)
  let c0 ← rd p cur
  if (f1 : Int) - f0 - diff ≠ (c1 : Int) - c0 then ok false
  else do
    let r ← forRangeB 0 (c1 - c0) (fun t (_ : Unit) => do
      let u ← rdZ ix ((f1 : Int) - diff - t - 1)
      let v ← rdZ ix ((c1 : Int) - t - 1)
      if u ≠ v then ok (Ctl.brk ()) else ok (Ctl.next ())) ()
    match r with
    | .next _ => ok true
    | .brk _ => ok false

/-- `sim`, BCSCMatrix.cpp:29-57. -/
def simLower (n : Nat) (limit : Int) (p ix : List Nat) (pre : Nat) : Res Nat :=
  loopF (n + 1) (fun (sim : Nat) =>
    if pre + 1 + sim < n ∧ (sim : Int) < limit then do
      let m ← blockSame p ix pre (pre + 1 + sim)
      if m then ok (.next (sim + 1)) else ok (.brk sim)
    else ok (.brk sim)) 0

/-- `sim`, BCSCMatrix.cpp:73-101. -/
def simUpper (n : Nat) (limit : Int) (p ix : List Nat) (pre : Nat) : Res Nat :=
  loopF (n + 1) (fun (sim : Nat) =>
    if sim + 1 ≤ pre ∧ (sim : Int) < limit then do
      let m ← blockSameUp p ix pre (pre - 1 - sim)
      if m then ok (.next (sim + 1)) else ok (.brk sim)
    else ok (.brk sim)) 0

/-- `supernodes`, BCSCMatrix.cpp:8-115: the array `M->supernodes`.  `temp_nodes` has `n` elements; only
the bound is kept from it.  In the upper case the loop counts down; the model keeps `i + 1`. -/
def supernodes (n : Nat) (limit : Int) (isLower : Bool) (p ix : List Nat) : Res (List Int) := do
  let limit := if limit = 0 then (n : Int) else limit
  if isLower then do
    let s ← whileF n (fun (s : Nat × List Int) => ok (decide (s.1 < n))) (fun s =>
      if n ≤ s.2.length then ub else do
      let sim ← simLower n limit p ix s.1
      ok (s.1 + sim + 1, s.2 ++ [(s.1 : Int)])) (0, [])
    ok (s.2 ++ [(n : Int)])
  else do
    let s ← whileF n (fun (s : Nat × List Int) => ok (decide (0 < s.1))) (fun s =>
      if n ≤ s.2.length then ub else do
      let sim ← simUpper n limit p ix (s.1 - 1)
      ok (s.1 - 1 - sim, s.2 ++ [(s.1 : Int) - 1])) (n, [])
    ok (s.2 ++ [-1])

end Verif.Super
