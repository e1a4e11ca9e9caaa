import Verif.Model.MtxRead
import Verif.Model.Utils

/-!
# Model: `read_mtx_csc_real` on the text of the file (utils/sparse_io.cpp:279-424)

The reader made with C++ streams: `read_header`, `read_triplets_real`, `compress_triplets_to_csc`.
Simplifications as in `MtxRead`; `std::sort` is a parameter.
-/

namespace Verif.Mtx
open Res

/-! ### Streams -/

/-- An `ifstream`: what has not been read, `eofbit` and `failbit`. -/
structure Str where
  rest : Text
  eof : Bool
  fail : Bool
deriving DecidableEq, Repr

/-- `good()`. -/
def Str.good (s : Str) : Bool := !s.eof && !s.fail

/-- `std::getline`: a stream that is not good leaves the line as it is. -/
def getline (s : Str) (line : Text) : Text × Str :=
  if s.good then
    match s.rest.dropWhile (fun c => !(c == '\n')) with
    | [] => (s.rest, ⟨[], true, decide (s.rest = [])⟩)
    | _ :: r => (s.rest.takeWhile (fun c => !(c == '\n')), ⟨r, false, false⟩)
  else (line, { s with fail := true })

/-- The stream after a conversion that left `r`. -/
def Str.after (r : Text) : Str := ⟨r, decide (r = []), false⟩

/-- `in >> v` for a number, by the conversion `scan`; `old` is the value of `v` before.  If there is nothing to
convert, `v` is 0. -/
def extract {α : Type} [Zero α] (scan : Text → Scan α) (s : Str) (old : α) : α × Str :=
  if s.good then
    match scan s.rest with
    | .ok v r => (v, Str.after r)
    | .bad r => (0, ⟨r, decide (r = []), true⟩)
    | .eof => (old, ⟨[], true, true⟩)
  else (old, { s with fail := true })

/-- `trim`, include/aggregation/utils.h:82-102. -/
def trim (s : Text) : Text := ((s.dropWhile blank).reverse.dropWhile blank).reverse

/-- The words of `iss >> banner >> mtx >> crd >> arith >> sym`, sparse_io.cpp:286. -/
def fiveWords (s : Text) : Option (Text × Text × Text × Text × Text) := do
  let (a, s) ← scanStr s
  let (b, s) ← scanStr s
  let (c, s) ← scanStr s
  let (d, s) ← scanStr s
  let (e, _) ← scanStr s
  some (a, b, c, d, e)

/-! ### `read_header` -/

/-- `enum TYPE` and `enum SHAPE`, sparse_io.h:113-119 (`UPPER` is never made from a file). -/
inductive Arith where
  | real | int | complex | pattern
deriving DecidableEq, Repr

/-- What `read_header` returns. -/
structure Head where
  rows : Int
  cols : Int
  nnz : Int
  arith : Arith
  symmetric : Bool
  array : Bool
deriving DecidableEq, Repr

/-- sparse_io.cpp:295-301. -/
def formatOf (s : Text) : Option Bool :=
  if s = "coordinate".toList then some false else if s = "array".toList then some true else none

/-- sparse_io.cpp:302-313. -/
def arithOf (s : Text) : Option Arith :=
  if s = "real".toList then some .real else if s = "integer".toList then some .int
  else if s = "complex".toList then some .complex else if s = "pattern".toList then some .pattern else none

/-- sparse_io.cpp:314-320. -/
def shapeOf (s : Text) : Option Bool :=
  if s = "symmetric".toList then some true else if s = "general".toList then some false else none

/-- The five words, sparse_io.cpp:289-320; `none` is an exception. -/
def checkWords (banner mtx crd arith sym : Text) : Option (Bool × Arith × Bool) :=
  if banner = "%%matrixmarket".toList then
    if mtx = "matrix".toList then do
      let f ← formatOf crd
      let a ← arithOf arith
      let y ← shapeOf sym
      some (f, a, y)
    else none
  else none

/-- The first line, sparse_io.cpp:283-320, already trimmed and in small letters; `none` is an exception. -/
def headWords (line : Text) : Option (Bool × Arith × Bool) :=
  (fiveWords line).bind fun w => checkWords w.1 w.2.1 w.2.2.1 w.2.2.2.1 w.2.2.2.2

/-- One pass of the loop over the comments, sparse_io.cpp:321-325. -/
def commentLine (t : Text × Str) : Res (Text × Str) :=
  ok (trim (getline t.2 t.1).1, (getline t.2 t.1).2)

/-- The line with the sizes, sparse_io.cpp:326-337; `none` is an exception. -/
def dims (array : Bool) (line : Text) : Option (Int × Int × Int) :=
  if array then
    match scanInts 2 line with
    | ([m, n], _) => some (m, n, m * n)
    | _ => none
  else
    match scanInts 3 line with
    | ([m, n, z], _) => some (m, n, z)
    | _ => none

/-- `throw`, or the value. -/
def orThrow {α : Type} : Option α → Res α
  | none => exn
  | some a => ok a

/-- `read_header`, sparse_io.cpp:279-338: what the header says, and the stream behind it.  `fuel` bounds the
loop over the comments. -/
def readHeader (fuel : Nat) (s : Str) : Res (Head × Str) := do
  let t := getline s []
  let line := lower (trim t.1)
  let w ← orThrow (headWords line)
  let u ← whileF fuel (fun u : Text × Str => ok (decide (u.1.head? = some '%'))) commentLine (line, t.2)
  let d ← orThrow (dims w.1 u.1)
  ok (⟨d.1, d.2.1, d.2.2, w.2.1, w.2.2, w.1⟩, u.2)

/-! ### `read_mtx_csc_real` -/

variable {V : Type} [Zero V]

/-- One triplet, sparse_io.cpp:363-374, before the indices are decremented; `one` is the value `1.0`. -/
def readTriplet (scanVal : Text → Scan V) (one : V) (readVal : Bool) (s : Str) : (Int × Int × V) × Str :=
  let r := extract scanInt s 0
  let c := extract scanInt r.2 0
  if readVal then
    let v := extract scanVal c.2 0
    ((r.1, c.1, v.1), v.2)
  else ((r.1, c.1, one), c.2)

/-- `read_triplets_real`, sparse_io.cpp:359-376. -/
def readTriplets (scanVal : Text → Scan V) (one : V) (readVal : Bool) : Nat → Str → List (Int × Int × V)
  | 0, _ => []
  | k + 1, s =>
    let t := readTriplet scanVal one readVal s
    t.1 :: readTriplets scanVal one readVal k t.2

/-- The triplets are sorted and compressed, sparse_io.cpp:378-402, 418-420.  A column before the first one is
an access outside of `count` (line 385).  `sort` is `std::sort` of lines 381-382. -/
def compress (sort : List (Util.Trip V) → List (Util.Trip V)) (dbg insertDiag sym : Bool) (m n : Nat)
    (es : List (Int × Int × V)) : Res (Loaded V) :=
  if es.all (fun e => decide (1 ≤ e.2.1)) = false then ub
  else if es.all (fun e => decide (1 ≤ e.1)) = false then ok .negative
  else do
    let A ← Util.compressSorted dbg insertDiag m n es.length
      (sort (es.map fun e => ((e.1 - 1).toNat, (e.2.1 - 1).toNat, e.2.2)))
    ok (.matrix A (if sym then -1 else 0))

/-- `read_mtx_csc_real` after the header, sparse_io.cpp:411-422. -/
def readCscBody (scanVal : Text → Scan V) (one : V) (sort : List (Util.Trip V) → List (Util.Trip V))
    (dbg insertDiag : Bool) (h : Head) (s : Str) : Res (Loaded V) :=
  if h.arith = .complex then exn
  else if h.array then exn
  else if h.rows < 0 ∨ h.cols < 0 ∨ h.nnz < 0 then exn
  else compress sort dbg insertDiag h.symmetric h.rows.toNat h.cols.toNat
    (readTriplets scanVal one (decide (h.arith ≠ .pattern)) h.nnz.toNat s)

/-- `read_mtx_csc_real`, sparse_io.cpp:404-424. -/
def readMtxCsc (scanVal : Text → Scan V) (one : V) (sort : List (Util.Trip V) → List (Util.Trip V))
    (dbg insertDiag : Bool) (fuel : Nat) (f : Text) : Res (Loaded V) := do
  let t ← readHeader fuel ⟨f, false, false⟩
  readCscBody scanVal one sort dbg insertDiag t.1 t.2

/-! ### Dense matrices -/

/-- The loop of lines 437-439: `m * n` values. -/
def readValues (scanVal : Text → Scan V) : Nat → Str → List V
  | 0, _ => []
  | k + 1, s =>
    let v := extract scanVal s 0
    v.1 :: readValues scanVal k v.2

/-- `read_mtx_array_real` after the header, sparse_io.cpp:432-439. -/
def readArrayBody (scanVal : Text → Scan V) (h : Head) (s : Str) : Res (Nat × Nat × List V) :=
  if h.arith ≠ .real then exn
  else if h.array = false then exn
  else if h.rows < 0 ∨ h.cols < 0 then exn
  else ok (h.rows.toNat, h.cols.toNat, readValues scanVal (h.rows * h.cols).toNat s)

/-- `read_mtx_array_real`, sparse_io.cpp:427-442: rows, columns and the values in the order of the file. -/
def readMtxArray (scanVal : Text → Scan V) (fuel : Nat) (f : Text) : Res (Nat × Nat × List V) := do
  let t ← readHeader fuel ⟨f, false, false⟩
  readArrayBody scanVal t.1 t.2

/-! ### `print_csc_templated` and `print_csc` -/

omit [Zero V] in
/-- `print_csc_templated`, include/aggregation/sparse_io.h:138-156: the text that is written. -/
def printCsc (fmt : V → Text) (indent beg : Text) (A : Sp V) : Res Text := do
  let nnz ← (if 0 < A.cols then rd A.p A.cols else ok 0)
  forRange 0 A.cols (fun c s => do
    let lo ← rd A.p c
    let hi ← rd A.p (c + 1)
    forRange lo hi (fun j s => do
      let r ← rd A.i j
      let v ← rd A.x j
      ok (s ++ (indent ++ (decimal (r + 1) ++ ' ' :: decimal (c + 1) ++ ' ' :: fmt v ++ ['\n'])))) s)
    (indent ++ beg ++ ['\n'] ++ indent ++ sizeText A.rows A.cols nnz)

omit [Zero V] in
/-- `print_csc` (and `print_csr`, with rows and columns exchanged in the lines), sparse_io.cpp:162-191: the end
of the last line is not written; `fmt` is the conversion `%.12f`. -/
def printCscFd (fmt : V → Text) (beg : Text) (A : Sp V) : Res Text := do
  let nnz ← (if 0 < A.cols then rd A.p A.cols else ok 0)
  forRange 0 A.cols (fun c s => do
    let lo ← rd A.p c
    let hi ← rd A.p (c + 1)
    forRange lo hi (fun j s => do
      let r ← rd A.i j
      let v ← rd A.x j
      let last ← rd A.p A.cols
      ok (s ++ ((decimal (r + 1) ++ ' ' :: decimal (c + 1) ++ ' ' :: fmt v)
        ++ (if j + 1 ≠ last then ['\n'] else [])))) s)
    (beg ++ ['\n'] ++ sizeText A.cols A.cols nnz)

end Verif.Mtx
