import Verif.Props.DenseText

/-!
# C137: the rows of a dense matrix, printed by `print_dense` to a file descriptor
-/

namespace Verif.DenseRows
open Res Mtx DenseText

variable {V : Type}

/-- `a` stores the matrix `M` column by column. -/
def ByColumns (M : Nat → Nat → V) (rows cols : Nat) (a : List V) : Prop :=
  a.length = rows * cols ∧ ∀ i < rows, ∀ j < cols, a[i + j * rows]? = some (M i j)

/-- The text of a row: each value and a space. -/
def rowText (fmt : V → Text) (row : List V) : Text := row.flatMap (fun v => fmt v ++ [' '])

/-- The text of a matrix: its rows, each with the end of the line. -/
def matrixText (fmt : V → Text) (rows : List (List V)) : Text := rows.flatMap (fun r => rowText fmt r ++ ['\n'])

/-- The rows of a matrix. -/
def rowsOf (M : Nat → Nat → V) (rows cols : Nat) : List (List V) :=
  (List.range rows).map (fun i => (List.range cols).map (fun j => M i j))

theorem forN_out (g : Nat → Text) {f : Nat → Text → Res Text} : ∀ (c lo : Nat) (s : Text),
    (∀ k, lo ≤ k → k < lo + c → ∀ s, f k s = ok (s ++ g k)) →
    forN c lo f s = ok (s ++ (List.range' lo c).flatMap g) := by
  intro c
  induction c with
  | zero => intro lo s _; simp [forN]
  | succ c ih =>
    intro lo s h
    rw [forN, h lo (Nat.le_refl _) (by omega), ok_bind, ih _ _ (fun k h1 h2 => h k (by omega) (by omega))]
    simp [List.range'_succ]

/-- **C137, writing.**  The matrix is printed row by row. -/
theorem C137_print (fmt : V → Text) {M : Nat → Nat → V} {rows cols : Nat} {a : List V} (h : ByColumns M rows cols a) :
    printDenseFd fmt rows cols a = ok (matrixText fmt (rowsOf M rows cols)) := by
  unfold printDenseFd forRange
  rw [Nat.sub_zero, forN_out (fun i => rowText fmt ((List.range cols).map (fun j => M i j)) ++ ['\n'])]
  · simp only [List.nil_append, matrixText, rowsOf, List.flatMap_map, List.range_eq_range']
  · intro i _ hi s
    rw [Nat.sub_zero, forN_out (fun j => fmt (M i j) ++ [' '])]
    · rw [ok_bind, rowText, List.flatMap_map, List.range_eq_range', List.append_assoc]
    · intro j _ hj s
      have e := h.2 i (by omega) j (by omega)
      have : rd a (i + j * rows) = ok (M i j) := by
        obtain ⟨hlt, hv⟩ := List.getElem?_eq_some_iff.1 e
        simp [rd, hlt, hv]
      rw [this, ok_bind]

theorem word_cancel {u v s t : Text} (hu : Word u) (hv : Word v) (h : u ++ ' ' :: s = v ++ ' ' :: t) : u = v ∧ s = t := by
  have key : ∀ {z : Text} (_ : Word z) (r : Text), (z ++ ' ' :: r).takeWhile (fun c => !blank c) = z := by
    intro z hz r
    rw [List.takeWhile_append_of_pos (by
      intro c hc
      simp [hz.2 c hc])]
    simp [show blank ' ' = true by decide]
  have h1 : u = v := by rw [← key hu s, h, key hv]
  subst h1
  have := List.append_cancel_left h
  exact ⟨rfl, by simpa using this⟩

theorem word_newline {u : Text} (hu : Word u) (s t : Text) : u ++ s ≠ '\n' :: t := by
  intro h
  cases u with
  | nil => exact hu.1 rfl
  | cons c u =>
    have hc : c = '\n' := by simpa using congrArg List.head? h
    have := hu.2 c List.mem_cons_self
    rw [hc] at this
    exact absurd this (by decide)

theorem rowText_cancel {fmt : V → Text} (hw : ∀ v, Word (fmt v)) : ∀ {p q : List V} {s t : Text},
    rowText fmt p ++ '\n' :: s = rowText fmt q ++ '\n' :: t → p.map fmt = q.map fmt ∧ s = t := by
  intro p
  induction p with
  | nil =>
    intro q s t h
    cases q with
    | nil => exact ⟨rfl, by simpa [rowText] using h⟩
    | cons v q =>
      simp only [rowText, List.flatMap_cons, List.flatMap_nil, List.nil_append, List.append_assoc] at h
      exact absurd h.symm (word_newline (hw v) _ _)
  | cons u p ih =>
    intro q s t h
    cases q with
    | nil =>
      simp only [rowText, List.flatMap_cons, List.flatMap_nil, List.nil_append, List.append_assoc] at h
      exact absurd h (word_newline (hw u) _ _)
    | cons v q =>
      simp only [rowText, List.flatMap_cons, List.append_assoc, List.cons_append, List.nil_append] at h
      obtain ⟨h1, h2⟩ := word_cancel (hw u) (hw v) h
      obtain ⟨h3, h4⟩ := ih h2
      exact ⟨by rw [List.map_cons, List.map_cons, h1, h3], h4⟩

theorem matrixText_inj {fmt : V → Text} (hw : ∀ v, Word (fmt v)) : ∀ {A B : List (List V)},
    matrixText fmt A = matrixText fmt B → A.map (List.map fmt) = B.map (List.map fmt) := by
  intro A
  induction A with
  | nil =>
    intro B h
    cases B with
    | nil => rfl
    | cons q B => simp [matrixText] at h
  | cons p A ih =>
    intro B h
    cases B with
    | nil => simp [matrixText] at h
    | cons q B =>
      simp only [matrixText, List.flatMap_cons, List.append_assoc, List.cons_append, List.nil_append] at h
      obtain ⟨h1, h2⟩ := rowText_cancel hw h
      rw [List.map_cons, List.map_cons, h1, ih h2]

/-- **C137, nothing is lost.**  Two matrices with the same text have the same number of rows and, if there is a row, of
columns; and the same digits are printed for each pair of entries at the same place. -/
theorem C137_determines {fmt : V → Text} (hw : ∀ v, Word (fmt v)) {M N : Nat → Nat → V} {r c r' c' : Nat} {a b : List V}
    (ha : ByColumns M r c a) (hb : ByColumns N r' c' b) {txt : Text} (h1 : printDenseFd fmt r c a = ok txt)
    (h2 : printDenseFd fmt r' c' b = ok txt) :
    r = r' ∧ (0 < r → c = c') ∧ ∀ i < r, ∀ j < c, fmt (M i j) = fmt (N i j) := by
  rw [C137_print fmt ha] at h1
  rw [C137_print fmt hb] at h2
  have e := matrixText_inj hw ((Res.ok.inj h1).trans (Res.ok.inj h2).symm)
  have hr : r = r' := by simpa [rowsOf] using congrArg List.length e
  subst hr
  have hrow : ∀ i < r, (List.range c).map (fun j => fmt (M i j)) = (List.range c').map (fun j => fmt (N i j)) := by
    intro i hi
    have := congrArg (fun l => l[i]?) e
    simpa [rowsOf, hi, Function.comp_def] using this
  refine ⟨rfl, fun h0 => by simpa using congrArg List.length (hrow 0 h0), fun i hi j hj => ?_⟩
  have hc : c = c' := by simpa using congrArg List.length (hrow i hi)
  subst hc
  have := congrArg (fun l => l[j]?) (hrow i hi)
  simpa [hj] using this

/-- **C137, from the file.**  The array format lists a matrix column by column; so what is printed after reading are the
rows of the matrix in the file. -/
theorem C137_file [Zero V] {W : V → Text → Prop} {scanVal : Text → Scan V} (hW : ScanOk W scanVal) (fmt : V → Text)
    {M : Nat → Nat → V} {m n : Nat} {rest txt : Text}
    (h : ArrayText W "real".toList false m n ((List.range n).flatMap (fun j => (List.range m).map (fun i => M i j))) rest txt)
    {fuel : Nat} (hf : txt.length ≤ fuel) :
    (do let A ← readMtxArray scanVal fuel txt
        printDenseFd fmt A.1 A.2.1 A.2.2) = ok (matrixText fmt (rowsOf M m n)) := by
  have hb : ∀ n, ByColumns M m n ((List.range n).flatMap (fun j => (List.range m).map (fun i => M i j))) := by
    intro n
    induction n with
    | zero => exact ⟨by simp, fun i _ j hj => absurd hj (by omega)⟩
    | succ n ih =>
      rw [List.range_succ, List.flatMap_append, List.flatMap_cons, List.flatMap_nil, List.append_nil]
      refine ⟨by rw [List.length_append, ih.1]; simp [Nat.mul_succ], fun i hi j hj => ?_⟩
      rcases Nat.lt_or_ge j n with hjn | hjn
      · have h2 := ih.2 i hi j hjn
        obtain ⟨hlt, -⟩ := List.getElem?_eq_some_iff.1 h2
        rw [List.getElem?_append_left hlt, h2]
      · have : j = n := by omega
        subst this
        rw [List.getElem?_append_right (by rw [ih.1, Nat.mul_comm]; omega), ih.1, Nat.mul_comm m j, Nat.add_sub_cancel]
        simp [hi]
  rw [C136_read hW h (by rw [(hb n).1]) hf, ok_bind]
  exact C137_print fmt (hb n)

/-! ### Examples -/

def exM (i j : Nat) : Int := 10 * i - j

theorem exM_columns : ByColumns exM 2 3 [0, 10, -1, 9, -2, 8] := ⟨by decide, by decide⟩

example : printDenseFd showInt 2 3 [0, 10, -1, 9, -2, 8] = ok (matrixText showInt (rowsOf exM 2 3)) :=
  C137_print showInt exM_columns

example : matrixText showInt (rowsOf exM 2 3) = "0 -1 -2 \n10 9 8 \n".toList := by decide +kernel

theorem showInt_word (v : Int) : Word (showInt v) := by
  unfold showInt
  split
  · refine ⟨by simp, fun c hc => ?_⟩
    rcases List.mem_cons.1 hc with rfl | hc
    · decide
    · exact (decimal_numeral _).word.2 c hc
  · exact (decimal_numeral _).word

example {N : Nat → Nat → Int} {r c : Nat} {b : List Int} (hb : ByColumns N r c b)
    (h : printDenseFd showInt r c b = ok (matrixText showInt (rowsOf exM 2 3))) :
    2 = r ∧ (0 < 2 → 3 = c) ∧ ∀ i < 2, ∀ j < 3, showInt (exM i j) = showInt (N i j) :=
  C137_determines showInt_word exM_columns hb (C137_print showInt exM_columns) h

/-- A file with the column 7, -8. -/
example : (do let A ← readMtxArray scanInt 100 "%%MatrixMarket matrix array real general\n2 1\n7 -8\n".toList
              printDenseFd showInt A.1 A.2.1 A.2.2)
    = ok (matrixText showInt (rowsOf (fun i _ => if i = 0 then 7 else -8) 2 1)) :=
  C137_file (M := fun i _ => if i = 0 then (7 : Int) else -8) scanInt_ok showInt (exCol_text "real"
    ⟨"matrix".toList, "array".toList, "real".toList, "general".toList,
      ⟨[], " ".toList, " ".toList, " ".toList, " ".toList, [], by decide, Blanks.nil, gap_space, gap_space,
        gap_space, gap_space, Ends.nil⟩, by decide, by decide, by decide, by decide⟩ (by unfold OneLine; decide))
    (by decide)

end Verif.DenseRows
