import Verif.Spec.MtxText

/-!
# Specification: Matrix Market texts with real, complex and pattern entries, and any indices
-/

namespace Verif.Mmio
open Mtx

/-- An integer in decimal, with `-` if it is negative. -/
def Signed (v : Int) (t : Text) : Prop :=
  (∃ n : Nat, v = n ∧ Numeral t n) ∨ ∃ (n : Nat) (s : Text), v = -(n : Int) ∧ t = '-' :: s ∧ Numeral s n

variable {V : Type}

/-- Values, each after white space; `W v t`: `t` is a way to write `v`. -/
inductive Vals (W : V → Text → Prop) : List V → Text → Prop
  | nil : Vals W [] []
  | cons {v : V} {vs : List V} {g t s : Text} (hg : Gap g) (hv : W v t) (hs : Vals W vs s) : Vals W (v :: vs) (g ++ (t ++ s))

/-- Entries: two integers and `k` values each. -/
inductive Lines (W : V → Text → Prop) (k : Nat) (rest : Text) : List (Int × Int × List V) → Text → Prop
  | nil : Lines W k rest [] rest
  | cons {i j : Int} {vs : List V} {es : List (Int × Int × List V)} {w s₁ g s₂ u tail : Text} (hw : Blanks w)
      (h₁ : Signed i s₁) (hg : Gap g) (h₂ : Signed j s₂) (hl : vs.length = k) (hv : Vals W vs u) (he : Ends tail)
      (hr : Lines W k rest es tail) :
      Lines W k rest ((i, j, vs) :: es) (w ++ (s₁ ++ (g ++ (s₂ ++ (u ++ tail)))))

/-- First line, comments, sizes; then `body`. -/
def Head (arith shape : Text) (m n nnz : Nat) (txt body : Text) : Prop :=
  ∃ (head : Text) (comments : List Text) (size : Text),
    txt = head ++ '\n' :: (comments.flatMap (fun c => c ++ ['\n']) ++ (size ++ '\n' :: body)) ∧
    OneLine head ∧ HeadLine "coordinate".toList arith shape head ∧
    (∀ c ∈ comments, OneLine c ∧ c.head? = some '%') ∧ OneLine size ∧ SizeLine m n nnz size

/-- How many values an entry has. -/
def Kind (arith : Text) (k : Nat) : Prop :=
  (arith = "real".toList ∧ k = 1) ∨ (arith = "complex".toList ∧ k = 2) ∨ (arith = "pattern".toList ∧ k = 0)

/-- The four words for the shape. -/
def Shape (shape : Text) : Prop :=
  shape = "general".toList ∨ shape = "symmetric".toList ∨ shape = "hermitian".toList ∨ shape = "skew-symmetric".toList

/-- What the format excludes: hermitian matrices that are not complex, skew-symmetric patterns. -/
def Excluded (arith shape : Text) : Prop :=
  (shape = "hermitian".toList ∧ arith ≠ "complex".toList) ∨ (shape = "skew-symmetric".toList ∧ arith = "pattern".toList)

end Verif.Mmio
