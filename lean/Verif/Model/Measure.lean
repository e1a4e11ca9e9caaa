import Verif.Res

/-!
# Model: residual, norm, median of times, name of a file

utils/sparse_utilities.cpp 476-493, utils/utils.cpp 10-27, 166-173.
-/

namespace Verif.Measure
open Res

variable {V : Type}

/-- `residual(beg, end, x0, x1)` (utils/sparse_utilities.cpp 476-482); `dist a b` is `fabs(a - b)`, `gt` is `>`. -/
def residual [Zero V] (dist : V → V → V) (gt : V → V → Bool) (lo hi : Nat) (x0 x1 : List V) : Res V :=
  forRange lo hi (fun i mx => do
    let a ← rd x0 i
    let b ← rd x1 i
    ok (if gt (dist a b) mx then dist a b else mx)) 0

/-- `norm(size, vec)` (utils/sparse_utilities.cpp 485-492); `fabs` is the absolute value. -/
def norm [Zero V] (fabs : V → V) (gt : V → V → Bool) (size : Nat) (vec : List V) : Res V :=
  forRange 0 size (fun i mx => do
    let a ← rd vec i
    ok (if gt (fabs a) mx then fabs a else mx)) 0

/-- `time_median` (utils/utils.cpp 13-26), on the elapsed times; `srt` is `std::sort`, `minusOne` the result for no
measurement. -/
def timeMedian (srt : List V → List V) (minusOne : V) (ts : List V) : Res V :=
  if ts.length = 0 then ok minusOne
  else
    let s := srt ts
    if ts.length = 1 then rd s 0 else rd s (ts.length / 2)

/-- `std::string::rfind` of one character; `none` is `npos`. -/
def rfind (c : Char) : List Char → Option Nat
  | [] => none
  | a :: l => match rfind c l with
    | some k => some (k + 1)
    | none => if a = c then some 0 else none

/-- `std::string::npos`. -/
def npos : Nat := 2 ^ 64 - 1

/-- `s.substr(pos, count)`; an exception if `pos` is behind the end. -/
def substr (s : List Char) (pos count : Nat) : Res (List Char) :=
  if s.length < pos then exn else ok ((s.drop pos).take count)

/-- `strip_name` (utils/utils.cpp 166-173): `p2-p1-1` in 64-bit unsigned arithmetic. -/
def stripName (s : List Char) : Res (List Char) :=
  let p1 := (rfind '/' s).getD npos
  let p2 := (rfind '.' s).getD npos
  substr s (if p1 ≠ npos then p1 + 1 else 0)
    (if p2 ≠ npos then (p2 + 2 * 2 ^ 64 - p1 - 1) % 2 ^ 64 else npos)

end Verif.Measure
