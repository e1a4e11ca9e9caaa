import Verif.Model.ReadMtx
import Verif.Spec.MtxText

/-!
# Model: `read_mtx` on the text of the file (utils/sparse_io.cpp:16-63, utils/external/mmio.cpp)

`ReadMtx` starts from the numbers of the file; here they are read from its characters, by the functions of
the C library that the code calls.  Simplifications: `int` is not bounded; the text holds no NUL character;
a file that cannot be opened (`exit(1)`, line 18) is not modelled; a negative size, with which the arrays are
allocated with a huge length, is the outcome `exn`.
-/

namespace Verif.Mtx
open Res

/-! ### The C library -/

/-- The result of one conversion of `scanf`: a value, a matching failure or the end of the text. -/
inductive Scan (α : Type) where
  | ok (a : α) (rest : Text)
  | bad (rest : Text)
  | eof
deriving DecidableEq, Repr

/-- `%s`: white space is skipped, the next word is read. -/
def scanStr (s : Text) : Option (Text × Text) :=
  let t := s.dropWhile blank
  if t = [] then none
  else some (t.takeWhile (fun c => !blank c), t.dropWhile (fun c => !blank c))

/-- The digits of `%d`, after the sign. -/
def scanDigits (neg : Bool) (u : Text) : Scan Int :=
  let ds := u.takeWhile Char.isDigit
  if ds = [] then .bad u
  else .ok (if neg then -(numVal ds : Int) else (numVal ds : Int)) (u.dropWhile Char.isDigit)

/-- `%d`: white space is skipped, a sign and digits are read. -/
def scanInt (s : Text) : Scan Int :=
  match s.dropWhile blank with
  | [] => .eof
  | c :: t =>
    if c = '-' then scanDigits true t
    else if c = '+' then scanDigits false t
    else scanDigits false (c :: t)

/-- `k` times `%d`, until the first failure: the values that are stored, the rest of the text, and whether it
ended. -/
def scanInts : Nat → Text → List Int × Text × Bool
  | 0, s => ([], s, false)
  | k + 1, s =>
    match scanInt s with
    | .ok v r => (v :: (scanInts k r).1, (scanInts k r).2)
    | .bad r => ([], r, false)
    | .eof => ([], [], true)

/-- The characters that `fgets` takes: at most `k`, up to the end of the line. -/
def takeLine : Nat → Text → Text × Text
  | 0, s => ([], s)
  | _ + 1, [] => ([], [])
  | k + 1, c :: s => if c = '\n' then (['\n'], s) else (c :: (takeLine k s).1, (takeLine k s).2)

/-- `fgets(line, size, f)`: the line and the rest of the file, or the null pointer at the end of the file. -/
def fgets (size : Nat) (f : Text) : Option (Text × Text) :=
  if f = [] then none else some (takeLine (size - 1) f)

/-! ### mmio -/

/-- `MM_typecode`. -/
structure Code where
  c0 : Char
  c1 : Char
  c2 : Char
  c3 : Char
deriving DecidableEq, Repr

/-- The words of `sscanf(line, "%s %s %s %s %s", ...)`, mmio.cpp:102; each array has 64 elements, the end of
the string included. -/
def scanWords : Nat → Text → Res (List Text)
  | 0, _ => ok []
  | k + 1, s =>
    match scanStr s with
    | none => ok []
    | some (w, r) => if 64 ≤ w.length then ub else do
      let l ← scanWords k r
      ok (w :: l)

/-- The second word, mmio.cpp:126-131. -/
def formatCode (s : Text) : Option Char :=
  if s = "coordinate".toList then some 'C' else if s = "array".toList then some 'A' else none

/-- The third word, mmio.cpp:136-145. -/
def arithCode (s : Text) : Option Char :=
  if s = "real".toList then some 'R' else if s = "complex".toList then some 'C'
  else if s = "pattern".toList then some 'P' else if s = "integer".toList then some 'I' else none

/-- The fourth word, mmio.cpp:150-159. -/
def shapeCode (s : Text) : Option Char :=
  if s = "general".toList then some 'G' else if s = "symmetric".toList then some 'S'
  else if s = "hermitian".toList then some 'H' else if s = "skew-symmetric".toList then some 'K' else none

/-- mmio.cpp:107-163: the words are checked one after the other; `none` is an error code. -/
def codeOf : List Text → Option Code
  | [banner, mtx, crd, data, storage] =>
    if "%%MatrixMarket".toList.isPrefixOf banner = false then none
    else if lower mtx ≠ "matrix".toList then none
    else do
      let c1 ← formatCode (lower crd)
      let c2 ← arithCode (lower data)
      let c3 ← shapeCode (lower storage)
      some ⟨'M', c1, c2, c3⟩
  | _ => none

/-- `mm_read_banner`, mmio.cpp:87-163: the code and the rest of the file; `none` is an error code. -/
def readBanner (f : Text) : Res (Option (Code × Text)) :=
  match fgets 1025 f with
  | none => ok none
  | some (line, rest) => do
    let ws ← scanWords 5 line
    match codeOf ws with
    | none => ok none
    | some c => ok (some (c, rest))

/-- One pass of the first loop, mmio.cpp:180-183. -/
def commentStep (f : Text) : Res (Ctl Text (Option (Text × Text))) :=
  match fgets 1025 f with
  | none => ok (.brk none)
  | some (line, rest) => if line.head? = some '%' then ok (.next rest) else ok (.brk (some (line, rest)))

/-- One pass of the second loop, mmio.cpp:190-193. -/
def sizeStep (f : Text) : Res (Ctl Text (Option ((Int × Int × Int) × Text))) :=
  match scanInts 3 f with
  | ([m, n, nz], r, _) => ok (.brk (some ((m, n, nz), r)))
  | ([], _, true) => ok (.brk none)
  | (_, r, _) => ok (.next r)

/-- mmio.cpp:185-195, after the comments. -/
def sizeOf (fuel : Nat) (line rest : Text) : Res (Option ((Int × Int × Int) × Text)) :=
  match scanInts 3 line with
  | ([m, n, nz], _, _) => ok (some ((m, n, nz), rest))
  | _ => loopF fuel sizeStep rest

/-- `mm_read_mtx_crd_size`, mmio.cpp:172-196: the sizes and the rest of the file; `none` is an error code. -/
def readSize (fuel : Nat) (f : Text) : Res (Option ((Int × Int × Int) × Text)) := do
  let l ← loopF (f.length + 1) commentStep f
  match l with
  | none => ok none
  | some (line, rest) => sizeOf fuel line rest

/-! ### `read_mtx` -/

variable {V : Type} [Zero V]

/-- The third conversion `%lg` of line 36, after the two integers; `scanVal` is the conversion.  If it fails,
`A->x[i]` keeps its value 0. -/
def scanThird (scanVal : Text → Scan V) (a b : Int) (r : Text) : (Int × Int × V) × Text :=
  match scanVal r with
  | .ok v r' => ((a, b, v), r'.dropWhile blank)
  | .bad r' => ((a, b, 0), r')
  | .eof => ((a, b, 0), [])

/-- `fscanf(mf, "%d %d %lg\n", ...)`, sparse_io.cpp:36: the entry and the rest of the file, `none` for `EOF`.
What is not read keeps the value 0. -/
def scanEntry (scanVal : Text → Scan V) (f : Text) : Option ((Int × Int × V) × Text) :=
  match scanInts 2 f with
  | (a :: b :: _, r, _) => some (scanThird scanVal a b r)
  | ([a], r, _) => some ((a, 0, 0), r)
  | ([], _, true) => none
  | ([], r, false) => some ((0, 0, 0), r)

/-- The loop of lines 35-44, the indices not yet decremented; `none` at the end of the file. -/
def scanEntries (scanVal : Text → Scan V) : Nat → Text → Option (List (Int × Int × V))
  | 0, _ => some []
  | k + 1, f => do
    let (e, r) ← scanEntry scanVal f
    let es ← scanEntries scanVal k r
    some (e :: es)

/-- What `read_mtx` returns: the null pointer, a matrix and its `stype`, or a matrix with a negative index. -/
inductive Loaded (V : Type) where
  | null
  | negative
  | matrix (A : Sp V) (stype : Int)
deriving DecidableEq, Repr

/-- Lines 43-62: the indices are decremented, the column pointers are built. -/
def build (sym : Bool) (m n : Nat) (es : List (Int × Int × V)) : Res (Loaded V) :=
  if es.all (fun e => decide (1 ≤ e.1) && decide (1 ≤ e.2.1)) then do
    let A ← ReadMtx.assemble m n (es.map fun e => ((e.1 - 1).toNat, (e.2.1 - 1).toNat, e.2.2))
    ok (.matrix A (if sym then -1 else 0))
  else ok .negative

/-- `read_mtx`, sparse_io.cpp:16-63, on the text of the file.  `exit(1)` is the outcome `exn`. -/
def readMtxText (scanVal : Text → Scan V) (fuel : Nat) (f : Text) : Res (Loaded V) := do
  let b ← readBanner f
  match b with
  | none => ok .null
  | some (c, r) => do
    let z ← readSize fuel r
    match z with
    | none => exn
    | some ((m, n, nnz), r) =>
      if m < 0 ∨ n < 0 ∨ nnz < 0 then exn
      else
        match scanEntries scanVal nnz.toNat r with
        | none => ok .null
        | some es => build (decide (c.c3 = 'S')) m.toNat n.toNat es

/-! ### `CSC_to_mtx` and the other writers -/

/-- A digit. -/
def digitChar (d : Nat) : Char := Char.ofNat (48 + d)

/-- `%d` of a number that is not negative. -/
def decimal (n : Nat) : Text :=
  if n < 10 then [digitChar n] else decimal (n / 10) ++ [digitChar (n % 10)]

/-- `mm_typecode_to_str`, mmio.cpp:405-449, for the codes that are written here. -/
def codeStr (c : Code) : Option Text := do
  let t1 ← (if c.c1 = 'C' then some "coordinate".toList else if c.c1 = 'A' then some "array".toList else none)
  let t2 ← (if c.c2 = 'R' then some "real".toList else if c.c2 = 'C' then some "complex".toList
    else if c.c2 = 'P' then some "pattern".toList else if c.c2 = 'I' then some "integer".toList else none)
  let t3 ← (if c.c3 = 'G' then some "general".toList else if c.c3 = 'S' then some "symmetric".toList
    else if c.c3 = 'H' then some "hermitian".toList else if c.c3 = 'K' then some "skew-symmetric".toList else none)
  if c.c0 = 'M' then some ("matrix ".toList ++ t1 ++ ' ' :: t2 ++ ' ' :: t3) else none

/-- The banner that `CSC_to_mtx` writes, sparse_io.cpp:70-76 and mmio.cpp:333-344: the code is initialised to
`"   G"` and set to a real matrix in coordinate form. -/
def bannerText : Text :=
  match codeStr ⟨'M', 'C', 'R', 'G'⟩ with
  | none => []
  | some s => "%%MatrixMarket ".toList ++ s ++ ['\n']

/-- `mm_write_mtx_crd_size`, mmio.cpp:165-170. -/
def sizeText (m n nnz : Nat) : Text := decimal m ++ ' ' :: decimal n ++ ' ' :: decimal nnz ++ ['\n']

/-- The line of one entry, sparse_io.cpp:81; `fmt` is the conversion `%10.3g`. -/
def entryText (fmt : V → Text) (r c : Nat) (v : V) : Text :=
  decimal (r + 1) ++ ' ' :: decimal (c + 1) ++ ' ' :: fmt v ++ ['\n']

omit [Zero V] in
/-- `CSC_to_mtx`, sparse_io.cpp:67-83: the text that is written; `nnz` is the field of `A`. -/
def cscToMtx (fmt : V → Text) (nnz : Nat) (A : Sp V) : Res Text :=
  forRange 0 A.cols (fun c s => do
    let lo ← rd A.p c
    let hi ← rd A.p (c + 1)
    forRange lo hi (fun j s => do
      let r ← rd A.i j
      let v ← rd A.x j
      ok (s ++ entryText fmt r c v)) s) (bannerText ++ sizeText A.rows A.cols nnz)

end Verif.Mtx
