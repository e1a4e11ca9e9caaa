import Verif.Res
import Mathlib.Data.List.Sort
import Verif.Spec.Mat

/-!
# Model of the blocked matrix format (utils/BCSCMatrix.cpp, include/aggregation/BCSCMatrix.h)

`V` is the type of the values, `zero` stands for `0.0`.  Arrays of freshly allocated numbers are
zero-initialised lists; an access outside a list is undefined behaviour.
-/

namespace Verif.Bcsc
open Res

/-- The struct `BCSC` (include/aggregation/def.h:256-280) without the dimensions. -/
structure Blocked (V : Type _) where
  nodes : Nat
  super : List Nat
  nrows : List Nat
  p : List Nat
  i : List Nat
  x : List V
deriving DecidableEq, Repr

/-- utils/BCSCMatrix.cpp:130-143 and :174-185: collect the rows of the columns `lo, ..., hi - 1`, each
row once, in the order in which they are met.  `inb` is `in_block`.  The rows are kept in the array
`temprows` of `n` entries in `calcSize` (`cap = some n`) and in a priority queue in `createFormat`
(`cap = none`). -/
def collect (cap : Option Nat) (p ix : List Nat) (lo hi : Nat) (inb : List Bool) :
    Res (List Bool × List Nat) :=
  forRange lo hi (fun j (st : List Bool × List Nat) => do
    let a ← rd p j
    let b ← rd p (j + 1)
    forRange a b (fun k (st : List Bool × List Nat) => do
      let r ← rd ix k
      let seen ← rd st.1 r
      if seen then ok st
      else do
        let inb ← wr st.1 r true
        match cap with
        | some c => if st.2.length < c then ok (inb, st.2 ++ [r]) else ub
        | none => ok (inb, st.2 ++ [r])) st) (inb, [])

/-- utils/BCSCMatrix.cpp:144-145 -/
def clear (rows : List Nat) (inb : List Bool) : Res (List Bool) :=
  forEach rows (fun r inb => wr inb r false) inb

/-- utils/BCSCMatrix.cpp:118-153 (`calcSize`): the offsets of the blocks and the number of stored
entries. -/
def calcSize (n nodes : Nat) (super p ix : List Nat) : Res (List Nat × Nat) := do
  let st ← forRange 0 nodes (fun i (st : List Nat × Nat × List Bool) => do
    let mp ← wr st.1 i st.2.1
    let a ← rd super i
    let b ← rd super (i + 1)
    let (inb, rows) ← collect (some n) p ix a b st.2.2
    let inb ← clear rows inb
    ok (mp, st.2.1 + rows.length * (b - a), inb)) (List.replicate (n + 1) 0, 0, List.replicate n false)
  let mp ← wr st.1 nodes st.2.1
  ok (mp, st.2.1)

/-- utils/BCSCMatrix.cpp:188-195: empty the priority queue.  The rows leave it in increasing order. -/
def drain (rows : List Nat) (inb : List Bool) (temp : List Nat) : Res (List Bool × List Nat × Nat) :=
  forEach (rows.insertionSort (· ≤ ·)) (fun r (st : List Bool × List Nat × Nat) => do
    let inb ← wr st.1 r false
    let temp ← wr st.2.1 st.2.2 r
    ok (inb, temp, st.2.2 + 1)) (inb, temp, 0)

/-- State of the loop over a column: `index`, `counter`, `M->i`, `M->x`. -/
structure Fill (V : Type _) where
  index : Nat
  counter : Nat
  mi : List Nat
  mx : List V

/-- utils/BCSCMatrix.cpp:199-212: fill one column of a block.  `Ai[index]` is read before `index` is
compared with the end of the column. -/
def fillColumn {V : Type _} (zero : V) (temp : List Nat) (cnt : Nat) (ix : List Nat) (ax : List V)
    (lo hi : Nat) (counter : Nat) (mi : List Nat) (mx : List V) : Res (Fill V) :=
  forRange 0 cnt (fun k (st : Fill V) => do
    let r ← rd temp k
    let mi ← wr st.mi st.counter r
    let r' ← rd ix st.index
    if r = r' ∧ st.index < hi then do
      let v ← rd ax st.index
      let mx ← wr st.mx st.counter v
      ok ⟨st.index + 1, st.counter + 1, mi, mx⟩
    else do
      let mx ← wr st.mx st.counter zero
      ok ⟨st.index, st.counter + 1, mi, mx⟩) ⟨lo, counter, mi, mx⟩

/-- State of `createFormat`. -/
structure Fmt (V : Type _) where
  counter : Nat
  inb : List Bool
  temp : List Nat
  nrows : List Nat
  mi : List Nat
  mx : List V

/-- utils/BCSCMatrix.cpp:171-214: one block. -/
def formatBlock {V : Type _} (zero : V) (super p ix : List Nat) (ax : List V) (i : Nat) (st : Fmt V) :
    Res (Fmt V) := do
  let a ← rd super i
  let b ← rd super (i + 1)
  let (inb, rows) ← collect none p ix a b st.inb
  let nrows ← wr st.nrows i rows.length
  let (inb, temp, cnt) ← drain rows inb st.temp
  let f ← forRange a b (fun j (f : Fill V) => do
    let lo ← rd p j
    let hi ← rd p (j + 1)
    fillColumn zero temp cnt ix ax lo hi f.counter f.mi f.mx) ⟨0, st.counter, st.mi, st.mx⟩
  ok ⟨f.counter, inb, temp, nrows, f.mi, f.mx⟩

/-- utils/BCSCMatrix.cpp:156-220 (`createFormat`). -/
def createFormat {V : Type _} (zero : V) (n nodes nnz : Nat) (super p ix : List Nat) (ax : List V) :
    Res (List Nat × List Nat × List V) := do
  let st ← forRange 0 nodes (formatBlock zero super p ix ax)
    ⟨0, List.replicate n false, List.replicate n 0, List.replicate nodes 0, List.replicate nnz 0,
      List.replicate nnz zero⟩
  ok (st.nrows, st.mi, st.mx)

/-- include/aggregation/BCSCMatrix.h:29-35 (`generateBCSC`) with :44-50, the constructor that takes the
supernodes. -/
def generate {V : Type _} (zero : V) (m : Mat V) (nodes : Nat) (super : List Nat) : Res (Blocked V) := do
  let (mp, nnz) ← calcSize m.n nodes super m.p m.i
  let (nrows, mi, mx) ← createFormat zero m.n nodes nnz super m.p m.i m.x
  ok ⟨nodes, super, nrows, mp, mi, mx⟩

/-- utils/BCSCMatrix.cpp:228-236: the supernode of every column; `counter` never decreases. -/
def supers (n nodes : Nat) (super : List Nat) : Res (List Nat) := do
  let st ← forRange 0 nodes (fun i (st : List Nat × Nat) => do
    let a ← rd super i
    let b ← rd super (i + 1)
    whileF (n + 1) (fun st => ok (decide (a ≤ st.2 ∧ st.2 < b))) (fun st => do
      let s ← wr st.1 st.2 i
      ok (s, st.2 + 1)) st) (List.replicate n 0, 0)
  ok st.1

/-- utils/BCSCMatrix.cpp:245-254 and :268-280: the distinct supernodes of the rows of block `j`; `out` is
what is done with a new one. -/
def blockSupers {V : Type _} {σ : Type _} (B : Blocked V) (sup : List Nat) (j : Nat) (out : Nat → σ → Res σ)
    (inplace : List Bool) (s : σ) : Res (List Bool × σ) := do
  let nr ← rd B.nrows j
  let off ← rd B.p j
  let st ← forRange 0 nr (fun r (st : List Bool × List Nat × σ) => do
    let c ← rd B.i (off + r)
    let row ← rd sup c
    let seen ← rd st.1 row
    if seen then ok st
    else do
      let ip ← wr st.1 row true
      if st.2.1.length < B.nodes then do
        let s ← out row st.2.2
        ok (ip, st.2.1 ++ [row], s)
      else ub) (inplace, [], s)
  let ip ← clear st.2.1 st.1
  ok (ip, st.2.2)

/-- utils/BCSCMatrix.cpp:223-296 (`compressed_BCSC_to_CSC`); `n` is the number of columns. -/
def compress {V : Type _} (n : Nat) (B : Blocked V) : Res (List Nat × List Nat) := do
  let sup ← supers n B.nodes B.super
  let st ← forRange 0 B.nodes (fun j (st : List Bool × Nat) =>
    blockSupers B sup j (fun _ c => ok (c + 1)) st.1 st.2) (List.replicate B.nodes false, 0)
  let nnz := st.2
  let out ← forRange 0 B.nodes (fun j (o : List Bool × List Nat × List Nat × Nat) => do
    let e ← rd o.2.1 j
    let ap ← wr o.2.1 (j + 1) e
    let (ip, ap, ai, i) ← blockSupers B sup j (fun row (t : List Nat × List Nat × Nat) => do
      let c ← rd t.1 (j + 1)
      let ap ← wr t.1 (j + 1) (c + 1)
      let ai ← wr t.2.1 t.2.2 row
      ok (ap, ai, t.2.2 + 1)) o.1 (ap, o.2.2.1, o.2.2.2)
    let ai ← wr ai i (j + B.nodes)
    let c ← rd ap (j + 1)
    let ap ← wr ap (j + 1) (c + 1)
    ok (ip, ap, ai, i + 1)) (st.1, List.replicate (B.nodes + 1) 0, List.replicate nnz 0, 0)
  ok (out.2.1, out.2.2.1)

end Verif.Bcsc
