import Mathlib.Data.List.Basic

/-!
# Specification: tables of measurements

What a sequence of calls of `addElementToRecord` and `addRecord` should write, independent of the class that
does it.
-/

namespace Verif.Csv

abbrev Text := List Char

/-- The two calls. -/
inductive Op where
  | add (value name : Text)
  | record
deriving DecidableEq, Repr

/-- The value of a column: the last one that was given since the last record was written. -/
def valueOf (p : List (Text × Text)) (name : Text) : Option Text :=
  ((p.filter fun e => e.2 = name).getLast?).map fun e => e.1

/-- The row, if every column has a value. -/
def rowOf (cols : List Text) (p : List (Text × Text)) : Option (List Text) := cols.mapM (valueOf p)

/-- The rows that are written and the values that wait; an incomplete record is not written, its values go on
waiting. -/
def tableStep (cols : List Text) (t : List (List Text) × List (Text × Text)) : Op →
    List (List Text) × List (Text × Text)
  | .add v name => (t.1, t.2 ++ [(v, name)])
  | .record =>
    match rowOf cols t.2 with
    | none => t
    | some row => (t.1 ++ [row], [])

/-- The rows written by a sequence of calls. -/
def table (cols : List Text) (ops : List Op) : List (List Text) :=
  (ops.foldl (tableStep cols) ([], [])).1

/-- A line of the file. -/
def line (row : List Text) : Text := [','].intercalate row ++ ['\n']

/-- How such a file is read: lines, and in them the fields between the commas. -/
def parse (txt : Text) : List (List Text) := (txt.splitOn '\n').dropLast.map fun l => l.splitOn ','

end Verif.Csv
