import Verif.Model.MtxStream

/-!
# Model: `print_dense` and `print_constant` (include/aggregation/sparse_io.h:162-193), `read_real_constant`
(utils/sparse_io.cpp:473-475) and `print_dense` to a file descriptor (utils/sparse_io.cpp:201-208)

`read_mtx_array_real` is `Mtx.readMtxArray`.  Numbers that do not fit into `int` are left out; `lda` is not negative.
`fmt` is the output of a value with `print_precision` digits.
-/

namespace Verif.Mtx
open Res

variable {V : Type}

/-- One line, sparse_io.h:173-176. -/
def denseLine (fmt : V → Text) (indent : Text) (mat : List V) (i lda : Nat) (s : Text) : Res Text := do
  let s ← forRange i (i + lda) (fun k s => do
    let v ← rd mat k
    ok (s ++ (indent ++ fmt v))) s
  ok (s ++ ['\n'])

/-- `print_dense`, sparse_io.h:162-179: the text that is written. -/
def printDense (fmt : V → Text) (fuel : Nat) (indent header : Text) (rows cols lda : Nat) (mat : List V) : Res Text := do
  let r ← whileF fuel (fun s : Nat × Text => ok (decide (s.1 < cols * rows))) (fun s => do
    let t ← denseLine fmt indent mat s.1 lda s.2
    ok (s.1 + lda, t)) (0, indent ++ header ++ '\n' :: (indent ++ decimal rows ++ ' ' :: decimal cols ++ ['\n']))
  ok r.2

/-- `print_constant`, sparse_io.h:186-193. -/
def printConstant (fmt : V → Text) (indent : Text) (v : V) : Text := indent ++ fmt v ++ ['\n']

/-- `read_real_constant`, sparse_io.cpp:473-475. -/
def readConstant [Zero V] (scanVal : Text → Scan V) (s : Str) (old : V) : V × Str := extract scanVal s old

/-- `print_dense` to a file descriptor, sparse_io.cpp:201-208: the text that is written; `fmt` is `%f`. -/
def printDenseFd (fmt : V → Text) (rows cols : Nat) (a : List V) : Res Text :=
  forRange 0 rows (fun i txt => do
    let txt ← forRange 0 cols (fun j txt => do
      let v ← rd a (i + j * rows)
      ok (txt ++ (fmt v ++ [' ']))) txt
    ok (txt ++ ['\n'])) []

end Verif.Mtx
