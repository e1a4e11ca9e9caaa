import Verif.Model.MtxRead

/-!
# Model: the functions of utils/external/mmio.cpp that work on coordinates

Simplifications: `int` is not bounded, allocation does not fail, a file is its text; the sizes that are written are not
negative.  `none` stands for any error code of a reader.
-/

namespace Verif.Mmio
open Res Mtx

/-- `mm_is_valid`, mmio.cpp:79-87. -/
def isValid (c : Code) : Bool :=
  if c.c0 ≠ 'M' then false
  else if c.c1 = 'A' ∧ c.c2 = 'P' then false
  else if c.c2 = 'R' ∧ c.c3 = 'H' then false
  else if c.c2 = 'P' ∧ (c.c3 = 'H' ∨ c.c3 = 'K') then false
  else true

/-- The branches of `mm_read_mtx_crd_data` and `mm_write_mtx_crd`: the number of values of an entry, `none` for other
types. -/
def kind (c : Code) : Option Nat :=
  if c.c2 = 'C' then some 2 else if c.c2 = 'R' then some 1 else if c.c2 = 'P' then some 0 else none

variable {V : Type}

/-- `k` times `%lg`. -/
def scanVals (scanVal : Text → Scan V) : Nat → Text → Option (List V × Text)
  | 0, s => some ([], s)
  | k + 1, s =>
    match scanVal s with
    | .ok v r => (scanVals scanVal k r).map fun q => (v :: q.1, q.2)
    | _ => none

/-- `mm_read_mtx_crd_entry`, mmio.cpp:267-285, and one pass of a loop of `mm_read_mtx_crd_data`: `none` if not all
conversions succeed.  The format of real entries ends with white space. -/
def scanLine (scanVal : Text → Scan V) (k : Nat) (f : Text) : Option ((Int × Int × List V) × Text) :=
  match scanInts 2 f with
  | ([a, b], r, _) =>
    match scanVals scanVal k r with
    | none => none
    | some (vs, r) => some ((a, b, vs), if k = 1 then r.dropWhile blank else r)
  | _ => none

/-- `mm_read_mtx_crd_data`, mmio.cpp:240-265, for a type with `k` values. -/
def scanLines (scanVal : Text → Scan V) (k : Nat) : Nat → Text → Option (List (Int × Int × List V))
  | 0, _ => some []
  | nz + 1, f =>
    match scanLine scanVal k f with
    | none => none
    | some (e, r) => (scanLines scanVal k nz r).map fun l => e :: l

/-- What `mm_read_mtx_crd` returns; `data = none`: the arrays are allocated but nothing is stored in them. -/
structure Crd (V : Type) where
  code : Code
  m : Int
  n : Int
  nz : Int
  data : Option (List (Int × Int × List V))

/-- `mm_read_mtx_crd`, mmio.cpp:296-338, on the text of the file. -/
def readCrd (scanVal : Text → Scan V) (fuel : Nat) (f : Text) : Res (Option (Crd V)) := do
  let b ← readBanner f
  match b with
  | none => ok none
  | some (c, r) =>
    if (isValid c && decide (c.c1 = 'C') && decide (c.c0 = 'M')) = false then ok none
    else do
      let z ← readSize fuel r
      match z with
      | none => ok none
      | some ((m, n, nz), r) =>
        match kind c with
        | none => ok (some ⟨c, m, n, nz, none⟩)
        | some k =>
          match scanLines scanVal k nz.toNat r with
          | none => ok none
          | some l => ok (some ⟨c, m, n, nz, some l⟩)

/-- `mm_read_unsymmetric_sparse`, mmio.cpp:16-77: the results of `fscanf` are not looked at, so an entry that cannot be
read leaves indeterminate values, which are then decremented. -/
def readUnsymmetric (scanVal : Text → Scan V) (fuel : Nat) (f : Text) :
    Res (Option (Int × Int × Int × List (Int × Int × List V))) := do
  let b ← readBanner f
  match b with
  | none => ok none
  | some (c, r) =>
    if (decide (c.c2 = 'R') && decide (c.c0 = 'M') && decide (c.c1 = 'C')) = false then ok none
    else do
      let z ← readSize fuel r
      match z with
      | none => ok none
      | some ((m, n, nz), r) =>
        match scanLines scanVal 1 nz.toNat r with
        | none => ub
        | some l => ok (some (m, n, nz, l.map fun e => (e.1 - 1, e.2.1 - 1, e.2.2)))

/-- `%d`. -/
def intText (v : Int) : Text := if v < 0 then '-' :: decimal v.natAbs else decimal v.natAbs

/-- One pass of a loop of `mm_write_mtx_crd`, mmio.cpp:370-381. -/
def writeLine (fmt : V → Text) (k : Nat) (I J : List Int) (val : List V) (i : Nat) (s : Text) : Res Text := do
  let a ← rd I i
  let b ← rd J i
  let s ← forRange 0 k (fun j s => do
    let v ← rd val (k * i + j)
    ok (s ++ (' ' :: fmt v))) (s ++ (intText a ++ ' ' :: intText b))
  ok (s ++ ['\n'])

/-- `mm_write_mtx_crd`, mmio.cpp:353-390: the text that is written, and whether 0 is returned.  A type code that has no
name is a null pointer for `%s`. -/
def writeCrd (fmt : V → Text) (c : Code) (m n nz : Nat) (I J : List Int) (val : List V) : Res (Text × Bool) :=
  match codeStr c with
  | none => ub
  | some str => do
    let s := "%%MatrixMarket ".toList ++ str ++ ['\n'] ++ sizeText m n nz
    match kind c with
    | none => ok (s, false)
    | some k => do
      let s ← forRange 0 nz (writeLine fmt k I J val) s
      ok (s, true)

/-- `mm_write_banner`, mmio.cpp:341-351: the text, and whether 0 is returned, which depends on the number of characters
that `fprintf` returns. -/
def writeBanner (c : Code) : Res (Text × Bool) :=
  match codeStr c with
  | none => ub
  | some str =>
    let s := "%%MatrixMarket ".toList ++ str ++ ['\n']
    ok (s, decide (s.length = 2))

/-- `mm_write_mtx_crd_size`, mmio.cpp:166-171. -/
def writeSize (m n nz : Nat) : Text × Bool := (sizeText m n nz, decide ((sizeText m n nz).length = 3))

/-- `mm_write_mtx_array_size`, mmio.cpp:225-230. -/
def writeArraySize (m n : Nat) : Text × Bool :=
  let s := decimal m ++ ' ' :: decimal n ++ ['\n']
  (s, decide (s.length = 2))

end Verif.Mmio
