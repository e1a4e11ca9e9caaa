import Verif.Model.MtxStream

/-!
# Model: `print_string` and `read_string` (utils/sparse_io.cpp:266-276, 478-494)

Text blocks of a file, each line indented.  Simplifications as in `MtxRead`.
-/

namespace Verif.TextBlock
open Res Mtx

/-- `print_string`, sparse_io.cpp:266-276: what is written.  The loop ends when `getline` fails. -/
def printString (fuel : Nat) (indent context : Text) : Res Text :=
  loopF fuel (fun (s : Str × Text × Text) =>
    let g := getline s.1 s.2.1
    if g.2.fail then ok (.brk s.2.2)
    else ok (.next (g.2, g.1, s.2.2 ++ indent ++ g.1 ++ ['\n']))) (⟨context, false, false⟩, [], [])

/-- `in_file.seekg(oldpos)`: `eofbit` is cleared; a failed stream stays where it is. -/
def seekg (s : Str) (old : Text) : Str := if s.fail then { s with eof := false } else ⟨old, false, false⟩

/-- `ltrim`, include/aggregation/utils.h:90-94. -/
def ltrim (s : Text) : Text := s.dropWhile blank

/-- `read_string`, sparse_io.cpp:478-494: `context` and the stream afterwards.  `line[0]` of an empty line is the
character 0. -/
def readString (fuel : Nat) (indent : Text) (s : Str) (context : Text) : Res (Text × Str) :=
  loopF fuel (fun (s : Str × Text × Text) =>
    if s.1.eof then ok (.brk (s.2.2, s.1))
    else
      let g := getline s.1 s.2.1
      if g.1.take indent.length ≠ indent then
        if g.1.head? = some '-' then ok (.next (g.2, g.1, s.2.2))
        else ok (.brk (s.2.2, seekg g.2 s.1.rest))
      else ok (.next (g.2, g.1, s.2.2 ++ (ltrim g.1 ++ ['\n'])))) (s, [], context)

end Verif.TextBlock
