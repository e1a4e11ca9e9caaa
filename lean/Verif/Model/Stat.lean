import Verif.Res

/-!
# Model: the statistics of the solvers

`fs_csr_stat`, `ic0_csc_stat`, `fs_csr_levelset_stat`, `sptrsv_csr_lbc_stat` and
`sptrsv_csr_group_lbc_stat` (example/sptrsv_src/executor.cpp 34-265).  Numbers are unbounded; `int`
overflow is not modelled.  An `omp parallel for` is run iteration by iteration in an arbitrary order, each iteration
by an arbitrary thread; an iteration writes only the entry of `cost` of its own thread.
-/

namespace Verif.Stat
open Res

/-- `fs_csr_stat`, executor.cpp:34-65: `flops`, `access_nnz`, `reuse_nnz`. -/
def fsCsr (n : Nat) (Lp Li : List Nat) : Res (Nat × Nat × Nat) := do
  let s ← forRange 0 n (fun i (s : Nat × Nat) => do
    let a ← rd Lp i
    let b ← rd Lp (i + 1)
    let s ← forRange a (b - 1) (fun _ (s : Nat × Nat) => ok (s.1 + 2, s.2 + 3)) s
    ok (s.1 + 1, s.2 + 2)) (0, 0)
  let r ← forRange 1 n (fun i r => do
    let a ← rd Lp i
    let b ← rd Lp (i + 1)
    forRange a (b - 1) (fun j r => do
      let c ← rd Li j
      if c = i - 1 then ok (r + 1) else ok r) r) 0
  ok (s.1, s.2, r)

/-- `ic0_csc_stat`, executor.cpp:68-101. -/
def ic0Csc (n : Nat) (colPtr rowIdx : List Nat) : Res (Nat × Nat × Nat) := do
  let s ← forRange 0 n (fun i (s : Nat × Nat) => do
    let a ← rd colPtr i
    let b ← rd colPtr (i + 1)
    forRange (a + 1) b (fun m s => do
      let r ← rd rowIdx m
      let c ← rd colPtr r
      let d ← rd colPtr (r + 1)
      forRange c d (fun k s =>
        forRange m b (fun l (s : Nat × Nat) => do
          let x ← rd rowIdx l
          let y ← rd rowIdx k
          if x = y then ok (s.1 + 2, s.2 + 1 + 3) else ok (s.1, s.2 + 1)) s) s)
      (s.1 + (b - a + 1), s.2 + (b - a))) (0, 0)
  ok (s.1, s.2, 0)

/-- `len`, `tidx` of an iteration of a level, and the order in which the iterations are run. -/
structure Threads where
  len : Nat
  tid : Nat → Nat → Nat
  order : Nat → Nat → Nat → List Nat

/-- Without OpenMP, executor.cpp:113, 127, 171, 183, 224, 235: `len = 1` and `tidx = 1`. -/
def Threads.noOpenMP : Threads := ⟨1, fun _ _ => 1, fun _ a b => List.range' a (b - a)⟩

/-- `cost[tidx] += Lp[j1 + 1] - Lp[j1]`, executor.cpp:135, 187, 242. -/
def addRow (Lp : List Nat) (t i : Nat) (cost : List Int) : Res (List Int) := do
  let c ← rd cost t
  let b ← rd Lp (i + 1)
  let a ← rd Lp i
  wr cost t (c + ((b : Int) - (a : Int)))

/-- executor.cpp:130-140, one group of a level. -/
def iterLevelSet (Lp groupPtr groupSet levelSet : List Nat) (t li : Nat) (cost : List Int) :
    Res (List Int) := do
  let lidx ← rd levelSet li
  let a ← rd groupPtr lidx
  let b ← rd groupPtr (lidx + 1)
  forRange a b (fun k c => do
    let j ← rd groupSet k
    addRow Lp t j c) cost

/-- executor.cpp:185-192, one part of a coarse level. -/
def iterLbc (Lp parPtr part : List Nat) (t q : Nat) (cost : List Int) : Res (List Int) := do
  let a ← rd parPtr q
  let b ← rd parPtr (q + 1)
  forRange a b (fun k c => do
    let i ← rd part k
    addRow Lp t i c) cost

/-- executor.cpp:238-244, one part of groups of a coarse level. -/
def iterGroupLbc (Lp parPtr part groupPtr groupSet : List Nat) (t q : Nat) (cost : List Int) :
    Res (List Int) := do
  let a ← rd parPtr q
  let b ← rd parPtr (q + 1)
  forRange a b (fun k c => do
    let p ← rd part k
    let a ← rd groupPtr p
    let b ← rd groupPtr (p + 1)
    forRange a b (fun k c => do
      let i ← rd groupSet k
      addRow Lp t i c) c) cost

/-- executor.cpp:144-156, 197-208, 249-260: the differences of all pairs, sorted downwards, and the
first of them. -/
def spread (len : Nat) (cost : List Int) : Res Int := do
  let temp ← forRange 0 len (fun i (l : List Int) =>
    forRange (i + 1) len (fun j l => do
      let a ← rd cost i
      let b ← rd cost j
      ok (l ++ [((a - b).natAbs : Int)])) l) []
  match temp.mergeSort (fun a b => decide (b ≤ a)) with
  | [] => ok 0
  | x :: _ => ok x

/-- executor.cpp:121-161, 176-211, 228-263, the loop over the levels; `iter` is the body of the
parallel loop.  Returns `lcost`. -/
def overLevels (T : Threads) (iter : Nat → Nat → List Int → Res (List Int)) (levels : Nat)
    (levelPtr : List Nat) (lcost : List Int) : Res (List Int) := do
  let s ← forRange 0 levels (fun l (s : List Int × List Int) => do
    let a ← rd levelPtr l
    let b ← rd levelPtr (l + 1)
    let cost ← forEach (T.order l a b) (fun li c => iter (T.tid l li) li c) s.1
    let v ← spread T.len cost
    let lc ← wr s.2 l v
    ok (List.replicate T.len 0, lc)) (List.replicate T.len 0, lcost)
  ok s.2

/-- `fs_csr_levelset_stat`, executor.cpp:107-163 (the early return for null pointers is left out). -/
def levelSetStat (T : Threads) (Lp groupPtr groupSet : List Nat) (levels : Nat) (levelPtr levelSet : List Nat)
    (lcost : List Int) : Res (List Int) :=
  overLevels T (iterLevelSet Lp groupPtr groupSet levelSet) levels levelPtr lcost

/-- `sptrsv_csr_lbc_stat`, executor.cpp:165-214. -/
def lbcStat (T : Threads) (Lp : List Nat) (levels : Nat) (levelPtr parPtr part : List Nat)
    (lcost : List Int) : Res (List Int) :=
  overLevels T (iterLbc Lp parPtr part) levels levelPtr lcost

/-- `sptrsv_csr_group_lbc_stat`, executor.cpp:218-265. -/
def groupLbcStat (T : Threads) (Lp : List Nat) (levels : Nat) (levelPtr parPtr part groupPtr groupSet : List Nat)
    (lcost : List Int) : Res (List Int) :=
  overLevels T (iterGroupLbc Lp parPtr part groupPtr groupSet) levels levelPtr lcost

end Verif.Stat
