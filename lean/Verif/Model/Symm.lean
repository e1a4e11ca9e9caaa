import Verif.Model.Sparse
import Verif.Model.TransSym
import Verif.Model.Hdagg
import Verif.Model.Etree
import Verif.Model.LbcTree
import Verif.Model.LbcDemo
import Verif.Model.Cost

/-!
# Model: adding sparse matrices, symmetric patterns, LBC on the elimination tree

`scatter`, `add`, `make_symmetric` (utils/sparse_utilities.cpp 1070-1130) and
`get_coarse_levelSet_DAG_CSC_tree` (src/lbc_csc.cpp 299-349).  Conventions as in
Verif/Model/Sparse.lean.
-/

namespace Verif.Symm
open Res Sp

variable {V : Type}

/-- The arrays `w` and `x`, `C->i` and the number of entries stored. -/
structure AddSt (V : Type) where
  w : List Nat
  x : List V
  ci : List Nat
  nz : Nat
deriving DecidableEq, Repr

/-- The entry at position `p`, sparse_utilities.cpp:1077-1083; `pat` is `x == NULL`. -/
def scatterEntry [Add V] [Mul V] (A : Sp V) (pat : Bool) (beta : V) (mark p : Nat) (s : AddSt V) :
    Res (AddSt V) := do
  let i ← rd A.i p
  let wi ← rd s.w i
  if wi < mark then do
    let w ← wr s.w i mark
    let ci ← wr s.ci s.nz i
    let x ← (if pat then ok s.x else do
      let v ← rd A.x p
      wr s.x i (beta * v) : Res (List V))
    ok ⟨w, x, ci, s.nz + 1⟩
  else do
    let x ← (if pat then ok s.x else do
      let v ← rd A.x p
      let o ← rd s.x i
      wr s.x i (o + beta * v) : Res (List V))
    ok ⟨s.w, x, s.ci, s.nz⟩

/-- `scatter`, sparse_utilities.cpp:1071-1086. -/
def scatter [Add V] [Mul V] (A : Sp V) (pat : Bool) (j : Nat) (beta : V) (mark : Nat) (s : AddSt V) :
    Res (AddSt V) := do
  let lo ← rd A.p j
  let hi ← rd A.p (j + 1)
  forRange lo hi (scatterEntry A pat beta mark) s

/-- One column, sparse_utilities.cpp:1103-1108, called with `sort`; the state is `C->p`, `C->x` and the
rest. -/
def addCol [Add V] [Mul V] (pat : Bool) (A B : Sp V) (alpha beta : V) (j : Nat)
    (t : List Nat × List V × AddSt V) : Res (List Nat × List V × AddSt V) := do
  let p ← wr t.1 j t.2.2.nz
  let s ← scatter A pat j alpha (j + 1) t.2.2
  let s ← scatter B pat j beta (j + 1) s
  let lo ← rd p j
  let ci ← Hdagg.sortRange s.ci lo s.nz
  let cx ← (if pat then ok t.2.1 else
    forRange lo s.nz (fun q cx => do
      let i ← rd ci q
      let v ← rd s.x i
      wr cx q v) t.2.1 : Res (List V))
  ok (p, cx, ⟨s.w, s.x, ci, s.nz⟩)

/-- `add`, sparse_utilities.cpp:1089-1114, with `sort`: `NULL`, or the sum.  `stA`, `stB`, `patA` and
`patB` are the fields `stype` and `is_pattern`. -/
def add [Zero V] [Add V] [Mul V] (stA stB : Int) (patA patB : Bool) (A B : Sp V) (alpha beta : V) :
    Res (Option (Sp V)) :=
  if stA ≠ stB then ok none else do
  let anz ← rd A.p A.cols
  let bnz ← rd B.p B.cols
  let pat := patA || patB
  let t ← forRange 0 B.cols (addCol pat A B alpha beta)
    (List.replicate (newPtrLen B.cols) 0, newVals pat (anz + bnz),
      ⟨List.replicate A.rows 0, newVals pat A.rows, List.replicate (anz + bnz) 0, 0⟩)
  let p ← wr t.1 B.cols t.2.2.nz
  ok (some ⟨A.rows, B.cols, p, t.2.2.ci, t.2.1⟩)

/-- A result that is used without a test for `NULL`. -/
def deref {α : Type} : Option α → Res α
  | none => ub
  | some a => ok a

/-- `make_symmetric`, sparse_utilities.cpp:1116-1130: `NULL`, or the matrix and its `stype`; `nnz` and
`pat` are fields of `A`, `half` is the number 0.5.  In the first case the result is `A` itself, not a
copy. -/
def makeSymmetric [Zero V] [Add V] [Mul V] (dbg : Bool) (half : V) (A : Sp V) (stype : Int) (nnz : Nat)
    (pat lower : Bool) : Res (Option (Sp V × Int)) :=
  if (0 < stype ∧ lower = false) ∨ (stype < 0 ∧ lower = true) then ok (some (A, stype))
  else if (stype < 0 ∧ lower = false) ∨ (0 < stype ∧ lower = true) then
    TransSym.transposeSymmetric A stype nnz pat none
  else do
    let at' ← transposeGeneral dbg A nnz pat >>= deref
    let c ← add stype 0 pat pat A at' half half >>= deref
    let h ← makeHalf c pat lower
    ok (some (h, if lower then -1 else 1))

/-- The numbers of an array of parents, -1 for no parent. -/
def parInt : Option Nat → Int
  | none => -1
  | some p => p

/-- The elimination tree, lbc_csc.cpp:313-330.  The matrix `A` has no values (the constructor of
def.h:155-165).  For `stype > 1` the result of `make_symmetric` is `A` itself, which is then deleted twice
(lines 326 and 347). -/
def dagEtree (dbg : Bool) (n : Nat) (lC lR : List Nat) (stype : Int) : Res (List Int) := do
  let nnz ← rd lC n
  let A : Sp Nat := ⟨n, n, lC, lR, []⟩
  let r ← (if stype ≠ 1 then do
      let s ← makeSymmetric dbg 0 A stype nnz true false >>= deref
      let r ← Etree.computeEtree s.2 s.1.rows s.1.cols s.1.p s.1.i (List.replicate n (some 0))
      if 0 < stype then ub else ok r
    else Etree.computeEtree stype n n lC lR (List.replicate n (some 0)) : Res (Bool × List (Option Nat)))
  ok (r.2.map parInt)

/-- `get_coarse_levelSet_DAG_CSC_tree`, lbc_csc.cpp:299-349.  The timers have no effect. -/
def coarsenDagTree {K : Type} [Add K] [LT K] [DecidableLT K] (P : Lbc.Params K) (past : Bool) (n : Nat)
    (lC lR : List Nat) (stype minDist divRate : Int) (nodeCost : List K) (zero : K) : Res Sched := do
  let etree ← dagEtree P.debug n lC lR stype
  LbcTree.coarsenTree P past n etree minDist divRate nodeCost zero

/-- `SptrsvLBC::build_set`, example/sptrsv_demo_utils.h:119-133.  `rp` are the row pointers of `L1_csr_`,
`cp`, `ci`, `stype` belong to `L1_csc_`. -/
def lbcTreeDemo {K : Type} [Add K] [LT K] [DecidableLT K] (P : Lbc.Params K) (past : Bool) (conv : Int → K)
    (zero : K) (n : Nat) (rp cp ci : List Nat) (stype minDist divRate : Int) : Res Sched := do
  let cost ← Lbc.rowCosts conv zero n rp
  coarsenDagTree P past n cp ci stype minDist divRate cost zero

/-- `SpTrSv_LL_LBC::build_set`, example/SpTRSV_runtime.h:1646-1665.  `cp`, `ci` belong to `L1_csc_`, `rp`, `ri` to
`L1_csr_`; `order` is the order in which the parallel loop computes the costs. -/
def lbcTreeRuntime {K : Type} [Add K] [LT K] [DecidableLT K] (P : Lbc.Params K) (past : Bool) (conv : Nat → K)
    (zero : K) (order : List Nat) (n : Nat) (cp ci rp ri : List Nat) (minDist divRate : Int) : Res Sched := do
  let cost ← Cost.costComputation order n cp ci rp ri .spTrSvLL [] [] false (List.replicate n 0)
  coarsenDagTree P past n cp ci (-1) minDist divRate (cost.map conv) zero

end Verif.Symm
