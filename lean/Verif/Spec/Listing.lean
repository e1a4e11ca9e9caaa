import Verif.Model.MtxRead

/-!
# Specification: a schedule written as text

`Mtx.decimal` (the digits of a number) is the only definition of the model that is used.
-/

namespace Verif.Listing
open Mtx

/-- A line: the nodes of a part, each followed by a comma. -/
def lineText (p : List Nat) : Text := (p.flatMap fun v => decimal v ++ [',']) ++ [';', ' ', '\n']

/-- Two empty lines behind each level. -/
def levelText (parts : List (List Nat)) : Text := parts.flatMap lineText ++ ['\n', '\n']

/-- Levels of parts of nodes. -/
def text (levels : List (List (List Nat))) : Text := levels.flatMap levelText

/-- `u` is in an earlier level than `v`, or earlier in the same line. -/
def Before (levels : List (List (List Nat))) (u v : Nat) : Prop :=
  (∃ A B, levels = A ++ B ∧ u ∈ A.flatten.flatten ∧ v ∈ B.flatten.flatten) ∨
    ∃ parts ∈ levels, ∃ p ∈ parts, ∃ a b, p = a ++ b ∧ u ∈ a ∧ v ∈ b

/-- Every node `0 .. n-1` is listed once, and dependences go from earlier levels to later ones or forwards in a line. -/
structure Good (n : Nat) (dep : Nat → Nat → Prop) (levels : List (List (List Nat))) : Prop where
  once : levels.flatten.flatten.Perm (List.range n)
  before : ∀ u v, dep u v → Before levels u v

end Verif.Listing
