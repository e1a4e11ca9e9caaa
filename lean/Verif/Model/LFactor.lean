import Verif.Model.TransSym
import Verif.Model.Etree
import Verif.Model.TreePost

/-!
# Model: symbolic Cholesky factorization

utils/lfactor_creation.cpp and `ereach` (utils/sparse_inspector.cpp 935-954).  The value -1 (`EMPTY`)
is `none`; counters and marks are unbounded integers.
-/

namespace Verif.LFactor
open Res

/-- An `int` with -1 for `none`. -/
def code : Option Nat → Int
  | none => -1
  | some k => k

/-! ### `ereach` -/

/-- `CS_MARK (w, j)`, include/aggregation/def.h:32-34. -/
def mark (w : List Int) (j : Nat) : Res (List Int) := do
  let v ← rd w j
  wr w j (-v - 2)

/-- State of the climb: `i`, `len`, `s`, `w`. -/
structure Climb where
  i : Option Nat
  len : Nat
  s : List Nat
  w : List Int

/-- The climb to a marked node, sparse_inspector.cpp:944-948.  A parent -1 would be used as an
index. -/
def climb (n : Nat) (parent : List (Option Nat)) (c : Climb) : Res Climb :=
  whileF (n + 1) (fun c =>
    match c.i with
    | none => ub
    | some i => do
      let v ← rd c.w i
      ok (decide (¬ v < 0))) (fun c =>
    match c.i with
    | none => ub
    | some i => do
      let s ← wr c.s c.len i
      let w ← mark c.w i
      let p ← rd parent i
      ok ⟨p, c.len + 1, s, w⟩) c

/-- `while (len > 0) s[--top] = s[--len];`, sparse_inspector.cpp:949: the new `top` and `s`. -/
def pushPath (n len top : Nat) (s : List Nat) : Res (Nat × List Nat) := do
  let r ← whileF (n + 1) (fun (c : Nat × Nat × List Nat) => ok (decide (0 < c.1))) (fun c => do
    let v ← rd c.2.2 (c.1 - 1)
    if c.2.1 = 0 then ub else do
      let s ← wr c.2.2 (c.2.1 - 1) v
      ok (c.1 - 1, c.2.1 - 1, s)) (len, top, s)
  ok r.2

/-- `ereach`, sparse_inspector.cpp:935-954, with valid pointers: the returned `top`, `s` and `w`. -/
def ereach (n : Nat) (ap ai : List Nat) (k : Nat) (parent : List (Option Nat)) (s : List Nat)
    (w : List Int) : Res (Nat × List Nat × List Int) := do
  let w ← mark w k
  let lo ← rd ap k
  let hi ← rd ap (k + 1)
  let r ← forRange lo hi (fun p (r : Nat × List Nat × List Int) => do
    let i ← rd ai p
    if k < i then ok r else do
      let c ← climb n parent ⟨some i, 0, r.2.1, r.2.2⟩
      let t ← pushPath n c.len r.1 c.s
      ok (t.1, t.2, c.w)) (n, s, w)
  let w ← forRange r.1 n (fun p w => do
    let x ← rd r.2.1 p
    mark w x) r.2.2
  let w ← mark w k
  ok (r.1, r.2.1, w)

/-! ### The pattern of the factor from column counts -/

/-- `compute_cost_per_col`, lfactor_creation.cpp:311-326; `xi` is split into its two halves `s` and
`w`.  Returns the number of entries, `top`, `s`, `w`. -/
def costPerCol (n colNo : Nat) (parent : List (Option Nat)) (ap ai : List Nat) (s : List Nat)
    (w : List Int) : Res (Nat × Nat × List Nat × List Int) := do
  let r ← ereach n ap ai colNo parent s w
  let total ← forRange r.1 n (fun i total => do
    let c ← rd r.2.1 i
    let hi ← rd ap (c + 1)
    let lo ← rd ap c
    ok (total + (hi - lo))) 0
  let hi ← rd ap (colNo + 1)
  let lo ← rd ap colNo
  ok (total + (hi - lo), r)

/-- `Li`, `finger`, `accessed_nnz`, the two halves of `xi`. -/
structure Build where
  li : List Nat
  finger : List Nat
  acc : List Nat
  s : List Nat
  w : List Int

/-- Row `r` of the factor is written into the columns it reaches, lfactor_creation.cpp:342-355. -/
def buildRow (debug : Bool) (n nnz : Nat) (ap ai lp : List Nat) (parent : List (Option Nat)) (r : Nat)
    (b : Build) : Res Build := do
  let c ← costPerCol n r parent ap ai b.s b.w
  let acc ← wr b.acc r c.1
  let q ← rd lp r
  let li ← wr b.li q r
  let f ← rd b.finger r
  let finger ← wr b.finger r (f + 1)
  let t ← forRange c.2.1 n (fun i (t : List Nat × List Nat) => do
    let col ← rd c.2.2.1 i
    if debug = true ∧ ¬ col < n then exn else do
    let q ← rd lp col
    let f ← rd t.2 col
    if debug = true ∧ ¬ q + f < nnz then exn else do
    let li ← wr t.1 (q + f) r
    let finger ← wr t.2 col (f + 1)
    ok (li, finger)) (li, finger)
  ok ⟨t.1, t.2, acc, c.2.2.1, c.2.2.2⟩

/-- `build_L_pattern_from_col_counts`, lfactor_creation.cpp:328-361: the column pointer, the row
indices and `accessed_nnz` (exact numbers; doubles in the code).  The values of `L` are all zero.  `li0`
is the uninitialised array `Li`. -/
def buildPattern (debug : Bool) (n : Nat) (ap ai colCount : List Nat) (parent : List (Option Nat))
    (acc : List Nat) (garbage : Nat → Nat) : Res (List Nat × List Nat × List Nat) := do
  let lp ← forRange 1 (n + 1) (fun l lp => do
    let a ← rd lp (l - 1)
    let c ← rd colCount (l - 1)
    wr lp l (a + c)) (List.replicate (n + 1) 0)
  let nnz ← rd lp n
  let b ← forRange 0 n (buildRow debug n nnz ap ai lp parent)
    ⟨(List.range nnz).map garbage, List.replicate n 0, acc, List.replicate n 0, List.replicate n 0⟩
  ok (lp, b.li, b.acc)

/-! ### Row and column counts -/

/-- `First`, `Level`, `ColCount`. -/
structure Walk where
  first : List (Option Nat)
  level : List Int
  col : List Int
deriving DecidableEq, Repr

/-- The path from `r` to a node with `First` set, lfactor_creation.cpp:242-245: the end of the path,
`len` and `First`. -/
def setFirst (n : Nat) (parent : List (Option Nat)) (k : Nat)
    (a : Option Nat × Int × List (Option Nat)) : Res (Option Nat × Int × List (Option Nat)) :=
  whileF (n + 1) (fun a =>
    match a.1 with
    | none => ok false
    | some r => do
      let f ← rd a.2.2 r
      ok (decide (f = none))) (fun a =>
    match a.1 with
    | none => ub
    | some r => do
      let first ← wr a.2.2 r (some k)
      let p ← rd parent r
      ok (p, a.2.1 + 1, first)) a

/-- The path from `s` to `r` again, lfactor_creation.cpp:254-256: `s`, `len` and `Level`. -/
def setLevel (n : Nat) (parent : List (Option Nat)) (r : Option Nat)
    (b : Option Nat × Int × List Int) : Res (Option Nat × Int × List Int) :=
  whileF (n + 1) (fun b => ok (decide (b.1 ≠ r))) (fun b =>
    match b.1 with
    | none => ub
    | some x => do
      let level ← wr b.2.2 x b.2.1
      let p ← rd parent x
      ok (p, b.2.1 - 1, level)) b

/-- The level of the first node of a path that ends at `r`, lfactor_creation.cpp:246-252. -/
def pathLen (level : List Int) (r : Option Nat) (len : Int) : Res Int :=
  match r with
  | none => ok (len - 1)
  | some r => do
    let l ← rd level r
    ok (len + l)

/-- One step of the first traversal, lfactor_creation.cpp:233-257: the node `i` is number `k` in post
order. -/
def walkStep (n : Nat) (parent : List (Option Nat)) (post : List Nat) (k : Nat) (s : Walk) :
    Res Walk := do
  let i ← rd post k
  let f ← rd s.first i
  let col ← wr s.col i (if f = none then 1 else 0)
  let a ← setFirst n parent k (some i, 0, s.first)
  let len ← pathLen s.level a.1 a.2.1
  let b ← setLevel n parent a.1 (some i, len, s.level)
  ok ⟨a.2.2, b.2.2, col⟩

/-- `ColCount`, `PrevNbr`, `PrevLeaf`, `SetParent` and `RowCount` (`none`: null pointer). -/
structure Cnt where
  col : List Int
  nbr : List (Option Nat)
  leaf : List (Option Nat)
  sp : List Nat
  row : Option (List Int)
deriving DecidableEq, Repr

/-- `v[i] += d`. -/
def addAt (l : List Int) (i : Nat) (d : Int) : Res (List Int) := do
  let v ← rd l i
  wr l i (v + d)

/-- `initialize_node`, lfactor_creation.cpp:97-116: the node and the new state. -/
def initializeNode (parent : List (Option Nat)) (post : List Nat) (k : Nat) (s : Cnt) :
    Res (Nat × Cnt) := do
  let p ← rd post k
  let q ← rd parent p
  let col ← (match q with
    | none => ok s.col
    | some q => addAt s.col q (-1))
  let nbr ← wr s.nbr p (some k)
  ok (p, { s with col := col, nbr := nbr })

/-- FIND, lfactor_creation.cpp:157-158. -/
def find (n : Nat) (sp : List Nat) (x : Nat) : Res Nat :=
  whileF (n + 1) (fun q => do
    let v ← rd sp q
    ok (decide (q ≠ v))) (fun q => rd sp q) x

/-- Path compression, lfactor_creation.cpp:161-165. -/
def compress (n : Nat) (sp : List Nat) (x q : Nat) : Res (List Nat) := do
  let r ← whileF (n + 1) (fun (r : Nat × List Nat) => ok (decide (r.1 ≠ q))) (fun r => do
    let p ← rd r.2 r.1
    let sp ← wr r.2 r.1 q
    ok (p, sp)) (x, sp)
  ok r.2

/-- The root `q` of the set of the previous leaf (`u` if there is none), `SetParent` and `ColCount`,
lfactor_creation.cpp:147-171. -/
def leafRoot (n u : Nat) (pl : Option Nat) (sp : List Nat) (col : List Int) :
    Res (Nat × List Nat × List Int) :=
  match pl with
  | none => ok (u, sp, col)
  | some pl => do
    let q ← find n sp pl
    let sp ← compress n sp pl q
    let col ← addAt col q (-1)
    ok (q, sp, col)

/-- `RowCount`, lfactor_creation.cpp:172-176. -/
def addRow (level : List Int) (u p q : Nat) (row : Option (List Int)) : Res (Option (List Int)) :=
  match row with
  | none => ok none
  | some row => do
    let lp ← rd level p
    let lq ← rd level q
    let row ← addAt row u (lp - lq)
    ok (some row)

/-- `process_edge`, lfactor_creation.cpp:122-183. -/
def processEdge (n : Nat) (first : List (Option Nat)) (level : List Int) (p u k : Nat) (s : Cnt) :
    Res Cnt := do
  let f ← rd first p
  let b ← rd s.nbr u
  let s ← (if code b < code f then do
      let col ← addAt s.col p 1
      let pl ← rd s.leaf u
      let t ← leafRoot n u pl s.sp col
      let row ← addRow level u p t.1 s.row
      let leaf ← wr s.leaf u (some p)
      ok { s with col := t.2.2, leaf := leaf, sp := t.2.1, row := row }
    else ok s)
  let nbr ← wr s.nbr u (some k)
  ok { s with nbr := nbr }

/-- `finalize_node`, lfactor_creation.cpp:187-197. -/
def finalizeNode (parent : List (Option Nat)) (p : Nat) (s : Cnt) : Res Cnt := do
  let q ← rd parent p
  match q with
  | none => ok s
  | some q => do
    let sp ← wr s.sp p q
    ok { s with sp := sp }

/-- One node of the second traversal, lfactor_creation.cpp:272-289. -/
def countStep (n : Nat) (ap ai : List Nat) (parent : List (Option Nat)) (post : List Nat)
    (first : List (Option Nat)) (level : List Int) (k : Nat) (s : Cnt) : Res Cnt := do
  let r ← initializeNode parent post k s
  let j := r.1
  let lo ← rd ap j
  let hi ← rd ap (j + 1)
  let s ← forRange lo hi (fun p s => do
    let i ← rd ai p
    if j < i then processEdge n first level j i k s else ok s) r.2
  finalizeNode parent j s

/-- The outputs of `row_col_counts_symmetric`: `ColCount`, `RowCount`, `First`, `Level` and the
number of operations. -/
structure Counts where
  col : List Int
  row : Option (List Int)
  first : List (Option Nat)
  level : List Int
  fl : Int
deriving DecidableEq, Repr

/-- The row counts start at 1, if they are computed, lfactor_creation.cpp:260-264. -/
def rowOnes (n : Nat) (row : Option (List Int)) : Res (Option (List Int)) :=
  match row with
  | none => ok none
  | some row => do
    let row ← forRange 0 n (fun i row => wr row i 1) row
    ok (some row)

/-- The weights are added up, lfactor_creation.cpp:290-296. -/
def accumulate (n : Nat) (parent : List (Option Nat)) (col : List Int) : Res (List Int) :=
  forRange 0 n (fun j col => do
    let p ← rd parent j
    match p with
    | none => ok col
    | some p => do
      let c ← rd col j
      addAt col p c) col

/-- `row_col_counts_symmetric`, lfactor_creation.cpp:199-309, for a square matrix with `n` rows;
`none` is the result `false`.  The three output arrays and the optional array `row` are passed in. -/
def rowColCounts (n : Nat) (stype : Int) (ap ai : List Nat) (parent : List (Option Nat))
    (post : List Nat) (row : Option (List Int)) (col : List Int) (first : List (Option Nat))
    (level : List Int) : Res (Option Counts) :=
  if 0 ≤ stype then ok none else do
  let first ← forRange 0 n (fun i first => wr first i none) first
  let w ← forRange 0 n (walkStep n parent post) ⟨first, level, col⟩
  let row ← rowOnes n row
  let s ← forRange 0 n (countStep n ap ai parent post w.first w.level)
    ⟨w.col, List.replicate n none, List.replicate n none, List.range n, row⟩
  let col ← accumulate n parent s.col
  let fl ← forRange 0 n (fun j fl => do
    let c ← rd col j
    ok (fl + c * c)) 0
  ok (some ⟨col, s.row, w.first, w.level, fl⟩)

/-! ### The symbolic factorization -/

/-- The parent of node `newchild` in the new numbering, lfactor_creation.cpp:367-370. -/
def reorderStep (parent : List (Option Nat)) (post ipost : List Nat) (newchild : Nat)
    (wi : List (Option Nat)) : Res (List (Option Nat)) := do
  let oldchild ← rd post newchild
  let oldparent ← rd parent oldchild
  match oldparent with
  | none => wr wi newchild none
  | some p => do
    let q ← rd ipost p
    wr wi newchild (some q)

/-- `reorder_tree`, lfactor_creation.cpp:363-375: `parent` and `Wi`. -/
def reorderTree (n : Nat) (parent : List (Option Nat)) (post ipost : List Nat) (wi : List (Option Nat)) :
    Res (List (Option Nat) × List (Option Nat)) := do
  let wi ← forRange 0 n (reorderStep parent post ipost) wi
  let parent ← forRange 0 n (fun k parent => do
    let v ← rd wi k
    wr parent k v) parent
  ok (parent, wi)

/-- A pointer that is dereferenced. -/
def deref {α : Type} : Option α → Res α
  | none => ub
  | some a => ok a

/-- The first `n` counts used as sizes; a negative one would lead to an invalid index. -/
def sizes (n : Nat) (col : List Int) : Res (List Nat) :=
  if ∀ c ∈ col.take n, 0 ≤ c then ok (col.map Int.toNat) else ub

/-- The members of `LFactorSymbolicInfo`, include/aggregation/lfactor_creation.h:11-29, apart from the
unused `row_counts`; `lp` and `li` are the index arrays of `L`. -/
structure SymInfo where
  col : List Int
  perm : List Nat
  iperm : List Nat
  post : List Nat
  ipost : List Nat
  parent : List (Option Nat)
  acc : List Nat
  lp : List Nat
  li : List Nat
  flops : Int
deriving DecidableEq, Repr

/-- The elimination tree, the column counts, the weighted post order and the flops,
lfactor_creation.cpp:405-413, for `At_ord` and `A_ord` with their `stype`. -/
def analyse {V : Type} (debug : Bool) (n : Nat) (at' ao : Sp V × Int) :
    Res (List (Option Nat) × List Int × List Nat × Int) := do
  let e ← Etree.computeEtree at'.2 at'.1.rows at'.1.cols at'.1.p at'.1.i (List.replicate n (some 0))
  let r ← TreePost.treePostOrder debug n e.2 none (List.replicate n 0)
  if debug = true ∧ r.1 ≠ n then exn else do
  let c ← rowColCounts ao.1.rows ao.2 ao.1.p ao.1.i e.2 r.2 none (List.replicate n 0)
    (List.replicate n (some 0)) (List.replicate n 0)
  let cf : List Int × Int := match c with
    | none => (List.replicate n 0, 0)
    | some c => (c.col, c.fl)
  let r ← TreePost.treePostOrder debug n e.2 (some cf.1) r.2
  if debug = true ∧ r.1 ≠ n then exn else
  ok (e.2, cf.1, r.2, cf.2)

/-- `build_symbolic_simplicial_lfactor`, lfactor_creation.cpp:377-431, for a valid pointer `A`.  `metis`
is the permutation computed by METIS, or `none` if the library is built without METIS.  `A_ord` and
`At_ord` are passed by value in the code, so that the caller does not see them.  Array `ws` is
uninitialised in the code; `reorder_array` and `reorder_tree` write it before they read it (C30). -/
def symbolicFactor {V : Type} [Zero V] (debug : Bool) (A : Sp V) (stype : Int) (nnz : Nat) (pat : Bool)
    (metis : Option (List Nat)) (garbage : Nat → Nat) : Res SymInfo := do
  let n := A.cols
  let at' ← TransSym.transposeSymmetric A stype nnz pat metis >>= deref
  let ao ← TransSym.transposeSymmetric at'.1 at'.2 nnz false none >>= deref
  let a ← analyse debug n at' ao
  let post := a.2.2.1
  let perm ← Util.reorderArray n (metis.getD (List.range n)) post (List.replicate n 0)
  let col ← Util.reorderArray n a.2.1 post (List.replicate n 0)
  let ipost ← Util.invPerm n post (List.replicate n 0)
  let iperm ← Util.invPerm n perm.1 (List.replicate n 0)
  let parent ← reorderTree n a.1 post ipost (List.replicate n none)
  let u ← TransSym.transposeSymmetric A stype nnz pat (some perm.1) >>= deref
  let count ← sizes n col.1
  let l ← buildPattern debug n u.1.p u.1.i count parent.1 (List.replicate n 0) garbage
  ok ⟨col.1, perm.1, iperm, post, ipost, parent.1, l.2.2, l.1, l.2.1, a.2.2.2⟩

end Verif.LFactor
