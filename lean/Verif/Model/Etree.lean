import Verif.Model.Utils
import Verif.Spec.Graph

/-!
# Model: elimination trees (src/hdagg/hdagg.cpp 1279-1325, utils/etree.cpp)

The value -1 (`EMPTY`) is `none`.  `int` is not bounded.
-/

namespace Verif.Etree
open Res

/-- The arrays `parents` and `ancestor`. -/
structure Arrs where
  par : List (Option Nat)
  anc : List (Option Nat)
deriving DecidableEq, Repr

/-- Body of the climbing loop of `computeParents`, hdagg.cpp:1287-1294; the state is `i` and the two
arrays. -/
def climbStep (debug : Bool) (n k : Nat) (s : Option Nat × Arrs) : Res (Option Nat × Arrs) :=
  match s.1 with
  | none => ub
  | some i =>
    if debug = true ∧ ¬ i < n then exn else do
    let inext ← rd s.2.anc i
    let anc ← wr s.2.anc i (some k)
    if inext = none then do
      let par ← wr s.2.par i (some k)
      ok (inext, ⟨par, anc⟩)
    else ok (inext, ⟨s.2.par, anc⟩)

/-- The condition of that loop, hdagg.cpp:1287. -/
def below (k : Nat) : Option Nat → Bool
  | none => false
  | some i => decide (i < k)

/-- The climbing loop for one entry, hdagg.cpp:1287-1294. -/
def climb (debug : Bool) (n k entry : Nat) (s : Arrs) : Res Arrs := do
  let r ← whileF k (fun (s : Option Nat × Arrs) => ok (below k s.1)) (climbStep debug n k)
    (some entry, s)
  ok r.2

/-- `computeParents`, hdagg.cpp:1279-1298, with an empty vector `parents` passed in. -/
def computeParents (debug : Bool) (n : Nat) (p ix : List Nat) : Res (List (Option Nat)) := do
  let s ← forRange 0 n (fun k (s : Arrs) => do
    let par ← wr s.par k none
    let anc ← wr s.anc k none
    let lo ← rd p k
    let hi ← rd p (k + 1)
    forRange lo hi (fun q s => do
      let i ← rd ix q
      climb debug n k i s) ⟨par, anc⟩) ⟨List.replicate n (some 0), List.replicate n (some 0)⟩
  ok s.par

/-- `buildETree`, hdagg.cpp:1300-1325: `tree_ptr` and `tree_set`. -/
def buildETree (debug : Bool) (n : Nat) (p ix : List Nat) : Res (List Nat × List Nat) := do
  let par ← computeParents debug n p ix
  let s ← forRange 0 n (fun i (s : List Nat × List Nat) => do
    let q ← rd par i
    match q with
    | none => ok (s.1 ++ [s.2.length], s.2 ++ [i])
    | some q =>
      if debug = true ∧ ¬ i < q then exn
      else ok (s.1 ++ [s.2.length], s.2 ++ [i, q])) ([], [])
  ok (s.1 ++ [s.2.length], s.2)

/-- `update_etree`, etree.cpp:9-36: the edge between `k` and `i`; the loop state is `k` and the
arrays. -/
def updateEtree (fuel k i : Nat) (s : Arrs) : Res Arrs :=
  loopF fuel (fun (s : Nat × Arrs) => do
    let a ← rd s.2.anc s.1
    if a = some i then ok (Ctl.brk s.2)
    else do
      let anc ← wr s.2.anc s.1 (some i)
      match a with
      | none => do
        let par ← wr s.2.par s.1 (some i)
        ok (Ctl.brk ⟨par, anc⟩)
      | some a => ok (Ctl.next (a, ⟨s.2.par, anc⟩))) (k, s)

/-- The symmetric case of `compute_etree`, etree.cpp:71-84. -/
def etreeSym (n : Nat) (p ix : List Nat) (s : Arrs) : Res Arrs :=
  forRange 0 n (fun j s => do
    let lo ← rd p j
    let hi ← rd p (j + 1)
    forRange lo hi (fun q s => do
      let i ← rd ix q
      if i < j then updateEtree (n + 1) i j s else ok s) s) s

/-- One row index `i` of column `j` in the unsymmetric case, etree.cpp:104-109; the state is the two
arrays and `Prev`. -/
def unsymStep (n j i : Nat) (s : Arrs × List (Option Nat)) : Res (Arrs × List (Option Nat)) := do
  let jprev ← rd s.2 i
  match jprev with
  | none => do
    let prev ← wr s.2 i (some j)
    ok (s.1, prev)
  | some jp => do
    let a ← updateEtree (n + 1) jp j s.1
    let prev ← wr s.2 i (some j)
    ok (a, prev)

/-- The unsymmetric case of `compute_etree`, etree.cpp:86-112; `Prev` is the second part of the work
space. -/
def etreeUnsym (m n : Nat) (p ix : List Nat) (s : Arrs) : Res Arrs := do
  let r ← forRange 0 n (fun j (s : Arrs × List (Option Nat)) => do
    let lo ← rd p j
    let hi ← rd p (j + 1)
    forRange lo hi (fun q (s : Arrs × List (Option Nat)) => do
      let i ← rd ix q
      unsymStep n j i s) s) (s, List.replicate m none)
  ok r.1

/-- `compute_etree`, etree.cpp:39-119: the returned flag and `Parent`; `m` rows, `n` columns.  In the
symmetric case the work space has `m` elements and `Ancestor` needs `n`; the sizes are added
without overflow. -/
def computeEtree (stype : Int) (m n : Nat) (p ix : List Nat) (parent : List (Option Nat)) :
    Res (Bool × List (Option Nat)) :=
  if 0 < stype then
    if m < n then ub
    else if parent.length < n then ub
    else do
      let s ← etreeSym n p ix ⟨List.replicate n none ++ parent.drop n, List.replicate n none⟩
      ok (true, s.par)
  else if stype = 0 then
    if parent.length < n then ub
    else do
      let s ← etreeUnsym m n p ix ⟨List.replicate n none ++ parent.drop n, List.replicate n none⟩
      ok (true, s.par)
  else ok (false, List.replicate n none ++ parent.drop n)

end Verif.Etree
