import Verif.Model.LFactor

/-!
# Model: `computeNoneZeroPatternOfRowK` (src/hdagg/hdagg.cpp:1327-1347)

`parent` is `-1` (here `none`) for roots; using it as an index is undefined behaviour.  The loops get
the fuel of the loops of `ereach`, which have the same shape.
-/

namespace Verif.RowPat
open Res

/-- State of the climb: `i`, `len`, `s`, `w`. -/
structure Climb where
  i : Option Nat
  len : Nat
  s : List Nat
  w : List Bool
deriving DecidableEq, Repr

/-- The climb to a marked node, hdagg.cpp:1335-1338. -/
def climb (n : Nat) (parent : List (Option Nat)) (c : Climb) : Res Climb :=
  whileF (n + 1) (fun c =>
    match c.i with
    | none => ub
    | some i => do
      let v ← rd c.w i
      ok (!v)) (fun c =>
    match c.i with
    | none => ub
    | some i => do
      let s ← wr c.s c.len i
      let w ← wr c.w i true
      let p ← rd parent i
      ok ⟨p, c.len + 1, s, w⟩) c

/-- `computeNoneZeroPatternOfRowK`, hdagg.cpp:1327-1347: the returned `top`, `s` and `w`.  The loop
`while(len > 0) s[--top] = s[--len]` (1339) is the one of `ereach`. -/
def pattern (debug : Bool) (n : Nat) (ap ai : List Nat) (k : Nat) (parent : List (Option Nat))
    (s : List Nat) (w : List Bool) : Res (Nat × List Nat × List Bool) :=
  if debug = true ∧ n = 1 then exn else do
  let w ← wr w k true
  let lo ← rd ap k
  let hi ← rd ap (k + 1)
  let r ← forRange lo hi (fun p (r : Nat × List Nat × List Bool) => do
    let i ← rd ai p
    let c ← climb n parent ⟨some i, 0, r.2.1, r.2.2⟩
    let t ← LFactor.pushPath n c.len r.1 c.s
    ok (t.1, t.2, c.w)) (n - 1, s, w)
  let w ← forRange r.1 n (fun p w => do
    let x ← rd r.2.1 p
    wr w x false) r.2.2
  let w ← wr w k false
  let s ← wr r.2.1 (n - 1) k
  ok (r.1, s, w)

end Verif.RowPat
