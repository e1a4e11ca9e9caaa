import Verif.Model.Mmio

/-!
# Model: `mm_read_mtx_array_size` (utils/external/mmio.cpp:200-222)
-/

namespace Verif.Mmio
open Res Mtx

/-- One pass of the second loop, mmio.cpp:216-219. -/
def arraySizeStep (f : Text) : Res (Ctl Text (Option ((Int × Int) × Text))) :=
  match scanInts 2 f with
  | ([m, n], r, _) => ok (.brk (some ((m, n), r)))
  | ([], _, true) => ok (.brk none)
  | (_, r, _) => ok (.next r)

/-- mmio.cpp:212-221, after the comments. -/
def arraySizeOf (fuel : Nat) (line rest : Text) : Res (Option ((Int × Int) × Text)) :=
  match scanInts 2 line with
  | ([m, n], _, _) => ok (some ((m, n), rest))
  | _ => loopF fuel arraySizeStep rest

/-- `mm_read_mtx_array_size`, mmio.cpp:200-222: the sizes and the rest of the file; `none` is an error code.  The first
loop, mmio.cpp:207-210, is that of `mm_read_mtx_crd_size`. -/
def readArraySize (fuel : Nat) (f : Text) : Res (Option ((Int × Int) × Text)) := do
  let l ← loopF (f.length + 1) commentStep f
  match l with
  | none => ok none
  | some (line, rest) => arraySizeOf fuel line rest

end Verif.Mmio
