import Verif.Model.Bcsc
import Verif.Model.Sparse

/-!
# Model of `merge_graphs`

utils/sparse_inspector.cpp lines 736-886: the graph of three kernels one after the other, two of them on
matrices stored in blocks.  The counter `p` of the code, which runs through the columns of the result, is
written as the number of the column plus one.
-/

namespace Verif.MergeG
open Res Bcsc

/-- sparse_inspector.cpp:763-776 (and 780-793, 797-810, 820-838, 845-865, 868-884): the supernodes of the
rows `ix[pos 0], …, ix[pos (nr - 1)]`, each once, in the order in which they are met; `out` is what is
done with a new one.  The marks are cleared at the end.  `temp` has `nodes` entries. -/
def once {σ : Type _} (nodes : Nat) (sup ix : List Nat) (nr : Nat) (pos : Nat → Nat)
    (out : Nat → σ → Res σ) (inplace : List Bool) (s : σ) : Res (List Bool × σ) := do
  let st ← forRange 0 nr (fun r (st : List Bool × List Nat × σ) => do
    let c ← rd ix (pos r)
    let row ← rd sup c
    let seen ← rd st.1 row
    if seen then ok st
    else do
      let ip ← wr st.1 row true
      if st.2.1.length < nodes then do
        let s ← out row st.2.2
        ok (ip, st.2.1 ++ [row], s)
      else ub) (inplace, [], s)
  let ip ← clear st.2.1 st.1
  ok (ip, st.2.2)

/-- The rows of block `j` of `A` and of `C`: `A->i[A->p[j] + r]`. -/
def rowsAll {V : Type _} {σ : Type _} (nodes : Nat) (sup : List Nat) (M : Blocked V) (j : Nat)
    (out : Nat → σ → Res σ) (inplace : List Bool) (s : σ) : Res (List Bool × σ) := do
  let nr ← rd M.nrows j
  let off ← (if 0 < nr then rd M.p j else ok 0)
  once nodes sup M.i nr (fun r => off + r) out inplace s

/-- The rows of block `j` of `nB`: the code reads `nB->i[nB->p[j]]`, without `+ r`
(sparse_inspector.cpp:782 and 850). -/
def rowsFirst {V : Type _} {σ : Type _} (nodes : Nat) (sup : List Nat) (M : Blocked V) (j : Nat)
    (out : Nat → σ → Res σ) (inplace : List Bool) (s : σ) : Res (List Bool × σ) := do
  let nr ← rd M.nrows j
  let off ← (if 0 < nr then rd M.p j else ok 0)
  once nodes sup M.i nr (fun _ => off) out inplace s

/-- `Mp`, `Mi` and `i`. -/
structure Out where
  p : List Nat
  i : List Nat
  pos : Nat
deriving DecidableEq, Repr

/-- `Mp[p]++; Mi[i] = v; i++` for column `c`. -/
def push (c v : Nat) (o : Out) : Res Out := do
  let e ← rd o.p (c + 1)
  let p ← wr o.p (c + 1) (e + 1)
  let i ← wr o.i o.pos v
  ok ⟨p, i, o.pos + 1⟩

/-- `Mp[p] = Mp[p - 1]` for column `c`. -/
def startCol (c : Nat) (o : Out) : Res Out := do
  let e ← rd o.p c
  let p ← wr o.p (c + 1) e
  ok { o with p := p }

/-- `merge_graphs`, sparse_inspector.cpp:736-886; `B` is in compressed columns, `A` and `C` in blocks.
`n` is `A->n`.  The columns and the row indices of the result are returned. -/
def merge {V : Type _} (zero : V) (n : Nat) (A : Blocked V) (B : Mat V) (C : Blocked V) :
    Res (List Nat × List Nat) := do
  let nodes := A.nodes
  let nB ← generate zero B nodes A.super
  let sup ← supers n nodes A.super
  let st ← forRange 0 nodes (fun i (st : List Bool × Nat) => do
    let t ← rowsAll nodes sup A i (fun _ c => ok (c + 1)) st.1 st.2
    ok (t.1, t.2 + 1)) (List.replicate nodes false, 0)
  let st ← forRange 0 nodes (fun i (st : List Bool × Nat) => do
    let t ← rowsFirst nodes sup nB i (fun _ c => ok (c + 1)) st.1 st.2
    ok (t.1, t.2 + 1)) st
  let st ← forRange 0 nodes (fun i (st : List Bool × Nat) =>
    rowsAll nodes sup C i (fun _ c => ok (c + 1)) st.1 st.2) st
  let p ← wr (List.replicate (Sp.newPtrLen (3 * nodes)) 0) 0 0
  let o ← forRange 0 nodes (fun j (o : List Bool × Out) => do
    let s ← startCol j o.2
    let t ← rowsAll nodes sup A j (fun row s => push j row s) o.1 s
    let s ← push j (j + nodes) t.2
    ok (t.1, s)) (st.1, ⟨p, List.replicate st.2 0, 0⟩)
  let o ← forRange 0 nodes (fun j (o : List Bool × Out) => do
    let s ← startCol (nodes + j) o.2
    let s ← push (nodes + j) (j + nodes) s
    rowsFirst nodes sup nB j (fun row s => push (nodes + j) (row + 2 * nodes) s) o.1 s) o
  let o ← forRange 0 nodes (fun j (o : List Bool × Out) => do
    let s ← startCol (2 * nodes + j) o.2
    rowsAll nodes sup C j (fun row s => push (2 * nodes + j) (row + 2 * nodes) s) o.1 s) o
  ok (o.2.p, o.2.i)

end Verif.MergeG
