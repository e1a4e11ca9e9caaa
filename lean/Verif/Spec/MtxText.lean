import Verif.Spec.Sparse

/-!
# Specification: Matrix Market text files

What it means that a text is a Matrix Market file of a sparse matrix, independent of the programs that read
and write such files.  The format: a first line of five words, comment lines that begin with `%`, a line with
the sizes, and the entries, counted from 1, separated by white space.  No line of the header has more than
1024 characters, the end of the line included.
-/

namespace Verif.Mtx

abbrev Text := List Char

/-- White space (`isspace` in the C locale). -/
def blank (c : Char) : Bool :=
  c = ' ' || c = '\t' || c = '\n' || c = '\x0b' || c = '\x0c' || c = '\r'

/-- Nothing but white space. -/
def Blanks (s : Text) : Prop := ∀ c ∈ s, blank c = true

/-- White space, at least one character. -/
def Gap (s : Text) : Prop := s ≠ [] ∧ Blanks s

/-- A word that is followed by this text ends there: the text is empty or begins with white space. -/
def Ends (s : Text) : Prop := ∀ c, s.head? = some c → blank c = true

/-- The value of a sequence of decimal digits. -/
def numVal (s : Text) : Nat := s.foldl (fun a c => 10 * a + (c.toNat - 48)) 0

/-- `s` is `n` written in decimal (leading zeros are allowed). -/
def Numeral (s : Text) (n : Nat) : Prop := s ≠ [] ∧ (∀ c ∈ s, c.isDigit = true) ∧ numVal s = n

/-- The same text with small letters. -/
def lower (s : Text) : Text := s.map Char.toLower

/-- A line without its end. -/
def OneLine (s : Text) : Prop := '\n' ∉ s ∧ s.length ≤ 1023

/-- A line that begins with five words, separated by white space. -/
def Words (b a₁ a₂ a₃ a₄ l : Text) : Prop :=
  ∃ w g₁ g₂ g₃ g₄ z, l = w ++ (b ++ (g₁ ++ (a₁ ++ (g₂ ++ (a₂ ++ (g₃ ++ (a₃ ++ (g₄ ++ (a₄ ++ z))))))))) ∧
    Blanks w ∧ Gap g₁ ∧ Gap g₂ ∧ Gap g₃ ∧ Gap g₄ ∧ Ends z

/-- The first line: `%%MatrixMarket matrix` and three words, of which the case does not matter. -/
def HeadLine (format arith shape l : Text) : Prop :=
  ∃ a₁ a₂ a₃ a₄, Words "%%MatrixMarket".toList a₁ a₂ a₃ a₄ l ∧
    lower a₁ = "matrix".toList ∧ lower a₂ = format ∧ lower a₃ = arith ∧ lower a₄ = shape

/-- The line with the sizes: rows, columns, entries. -/
def SizeLine (m n nnz : Nat) (l : Text) : Prop :=
  ∃ w s₁ g₁ s₂ g₂ s₃ z, l = w ++ (s₁ ++ (g₁ ++ (s₂ ++ (g₂ ++ (s₃ ++ z))))) ∧
    Blanks w ∧ Numeral s₁ m ∧ Gap g₁ ∧ Numeral s₂ n ∧ Gap g₂ ∧ Numeral s₃ nnz ∧ Ends z

variable {V : Type}

/-- The entries: row and column, counted from 1, and the value; `W v t` says that `t` is a way to write the
value `v`.  `rest` is what follows the last entry. -/
inductive Body (W : V → Text → Prop) (rest : Text) : List (Nat × Nat × V) → Text → Prop
  | nil : Body W rest [] rest
  | cons {r c : Nat} {v : V} {es : List (Nat × Nat × V)} {w s₁ g₁ s₂ g₂ t tail : Text}
      (hw : Blanks w) (h₁ : Numeral s₁ (r + 1)) (hg₁ : Gap g₁) (h₂ : Numeral s₂ (c + 1)) (hg₂ : Gap g₂)
      (hv : W v t) (he : Ends tail) (hr : Body W rest es tail) :
      Body W rest ((r, c, v) :: es) (w ++ (s₁ ++ (g₁ ++ (s₂ ++ (g₂ ++ (t ++ tail))))))

/-- The entries of a matrix of which only the pattern is stored. -/
inductive PatBody (rest : Text) : List (Nat × Nat) → Text → Prop
  | nil : PatBody rest [] rest
  | cons {r c : Nat} {es : List (Nat × Nat)} {w s₁ g₁ s₂ tail : Text}
      (hw : Blanks w) (h₁ : Numeral s₁ (r + 1)) (hg₁ : Gap g₁) (h₂ : Numeral s₂ (c + 1))
      (he : Ends tail) (hr : PatBody rest es tail) :
      PatBody rest ((r, c) :: es) (w ++ (s₁ ++ (g₁ ++ (s₂ ++ tail))))

/-- Everything before the entries: the text is the first line, the comments, the line with the sizes and
`body`. -/
def Header (arith : Text) (sym : Bool) (m n nnz : Nat) (txt body : Text) : Prop :=
  ∃ (head : Text) (comments : List Text) (size : Text), txt = head ++ '\n' :: (comments.flatMap (fun c => c ++ ['\n']) ++ (size ++ '\n' :: body)) ∧
    OneLine head ∧ HeadLine "coordinate".toList arith
      (if sym then "symmetric".toList else "general".toList) head ∧
    (∀ c ∈ comments, OneLine c ∧ c.head? = some '%') ∧
    OneLine size ∧ SizeLine m n nnz size

/-- `txt` is a Matrix Market file of the `m × n` matrix with the entries `es`, in this order; the values are
given, as real numbers or as integers.  Whatever follows the last entry does not matter. -/
def MtxText (W : V → Text → Prop) (sym : Bool) (m n : Nat) (es : List (Nat × Nat × V)) (txt : Text) : Prop :=
  ∃ arith body rest, (arith = "real".toList ∨ arith = "integer".toList) ∧
    Header arith sym m n es.length txt body ∧ Body W rest es body

end Verif.Mtx
