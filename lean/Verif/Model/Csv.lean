import Verif.Res
import Verif.Spec.Csv

/-!
# Model: `CSVManager` (include/aggregation/csv_utils.h) and its use in example/SpTRSV_runtime.cpp

The values are already strings (`toString`, lines 72-81, is not modelled); a file that cannot be opened is not
modelled; what is printed on the screen is left out.
-/

namespace Verif.Csv
open Res

/-- The members of the class, csv_utils.h:155-163, and the text of the file. -/
structure Mgr where
  cols : List Text
  record : List Text
  status : List Bool
  inProgress : Bool
  file : Text
deriving DecidableEq, Repr

/-- One line, csv_utils.h:53-57 and 129-133; `end() - 1` of an empty vector is undefined. -/
def writeLine (l : List Text) (file : Text) : Res Text :=
  if l = [] then ub
  else do
    let file ← forRange 0 (l.length - 1) (fun k s => do
      let e ← rd l k
      ok (s ++ e ++ [','])) file
    let e ← rd l (l.length - 1)
    ok (file ++ e ++ ['\n'])

/-- The constructor, csv_utils.h:28-69; `old` is the file that exists. -/
def create (cols : List Text) (old : Option Text) (force : Bool) : Res Mgr :=
  match old, force with
  | some t, false =>
    ok ⟨cols, List.replicate cols.length [], List.replicate cols.length false, false, t⟩
  | _, _ => do
    let file ← writeLine cols []
    ok ⟨cols, List.replicate cols.length [], List.replicate cols.length false, false, file⟩

/-- `addElementToRecord`, csv_utils.h:83-107. -/
def addElement (s : Mgr) (value name : Text) : Res Mgr := do
  let status := if s.inProgress then s.status else List.replicate s.status.length false
  let k := s.cols.idxOf name
  if k = s.cols.length then ok { s with status := status, inProgress := true }
  else do
    let status ← wr status k true
    let record ← wr s.record k value
    ok { s with status := status, record := record, inProgress := true }

/-- The loop that looks for a column without value, csv_utils.h:120-126. -/
def complete (s : Mgr) : Res (Ctl Unit Unit) :=
  forRangeB 0 s.cols.length (fun k _ => do
    let b ← rd s.status k
    ok (if b = false then .brk () else .next ())) ()

/-- `addRecord`, csv_utils.h:113-136. -/
def addRecord (s : Mgr) : Res Mgr :=
  if s.inProgress = false then ok s
  else do
    let c ← complete s
    match c with
    | .brk _ => ok s
    | .next _ => do
      let file ← writeLine s.record s.file
      ok { s with file := file, inProgress := false }

/-- A call. -/
def step (o : Op) (s : Mgr) : Res Mgr :=
  match o with
  | .add v name => addElement s v name
  | .record => addRecord s

/-- A sequence of calls. -/
def run (ops : List Op) (s : Mgr) : Res Mgr := forEach ops step s

/-! ### example/SpTRSV_runtime.cpp -/

/-- `Runtime_headers`, SpTRSV_runtime.cpp:113-121. -/
def headers : List Text :=
  ["Matrix_Name".toList, "Algorithm".toList, "Kernel".toList, "Core".toList, "Scheduling_Time".toList,
    "Executor_Runtime".toList, "nlevel".toList, "Profitable".toList]

/-- The calls for one measurement, SpTRSV_runtime.cpp:183-192 and ten times more (in the block of MKL, lines
516-517, the last two columns are exchanged). -/
def fullBlock (mat alg kernel core sched exec nlevel profit : Text) : List Op :=
  [.add mat "Matrix_Name".toList, .add alg "Algorithm".toList, .add kernel "Kernel".toList, .add core "Core".toList,
    .add sched "Scheduling_Time".toList, .add exec "Executor_Runtime".toList, .add nlevel "nlevel".toList,
    .add profit "Profitable".toList, .record]

/-- The calls for a measurement of dagP, SpTRSV_runtime.cpp:540-550. -/
def dagpBlock (mat alg kernel core sched exec nlevel : Text) : List Op :=
  [.add mat "Matrix_Name".toList, .add alg "Algorithm".toList, .add kernel "Kernel".toList, .add core "Core".toList,
    .add sched "Scheduling_Time".toList, .add exec "Executor_Runtime".toList, .add nlevel "nlevel".toList, .record]

/-- The name of the matrix, SpTRSV_runtime.cpp:123-133, if a file is given: from behind the first `/` to the
first `.`; a range that ends before it begins, or behind the string, is undefined. -/
def matName (path : Text) : Res Text :=
  let s := if path.idxOf '/' = path.length then 0 else path.idxOf '/' + 1
  let e := path.idxOf '.'
  if e = path.length then ub
  else if e < s then ub
  else ok ((path.take e).drop s)

end Verif.Csv
