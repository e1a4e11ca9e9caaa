import Verif.Model.ArraySize
import Verif.Props.DenseText

/-!
# C138: the sizes of a dense matrix, read by `mm_read_mtx_array_size`
-/

namespace Verif.ArraySizes
open Res Mtx Mmio DenseText

/-- **C138, reading.**  Behind any comments the two numbers are read, and the file is at the next line. -/
theorem C138_read {comments : List Text} (hc : ∀ c ∈ comments, OneLine c ∧ c.head? = some '%') {size : Text}
    {m n : Nat} (h1 : OneLine size) (hs : ArraySize m n size) (body : Text) (fuel : Nat) :
    readArraySize fuel (comments.flatMap (fun c => c ++ ['\n']) ++ (size ++ '\n' :: body))
      = ok (some (((m : Int), (n : Int)), body)) := by
  unfold readArraySize
  rw [comments_loop hc h1 hs.head_ne body _ (by
    have := comments_length comments
    rw [List.length_append]; omega), ok_bind]
  dsimp only
  unfold arraySizeOf
  obtain ⟨w, s₁, g₁, s₂, z, rfl, hw, h₁, hg₁, h₂, hz⟩ := hs
  have e := scanInts_two hw h₁ hg₁ h₂ (hz.append (ends_newline []))
  simp only [List.append_assoc] at e ⊢
  rw [e]

theorem scanInts_blanks {w : Text} (h : Blanks w) : scanInts 2 w = ([], [], true) := by
  rw [scanInts, scanInt_blanks w h]

/-- **C138, empty lines.**  If the line behind the comments is blank, the two numbers are taken from the lines that
follow, and may stand on two lines; what follows the second number, `z`, is left in the file. -/
theorem C138_read_blank {comments : List Text} (hc : ∀ c ∈ comments, OneLine c ∧ c.head? = some '%') {line : Text}
    (h1 : OneLine line) (hb : Blanks line) {w s₁ g₁ s₂ z : Text} {m n : Nat} (hw : Blanks w) (hm : Numeral s₁ m) (hg : Gap g₁)
    (hn : Numeral s₂ n) (hz : Ends z) {fuel : Nat} (hf : 0 < fuel) :
    readArraySize fuel (comments.flatMap (fun c => c ++ ['\n']) ++ (line ++ '\n' :: (w ++ (s₁ ++ (g₁ ++ (s₂ ++ z))))))
      = ok (some (((m : Int), (n : Int)), z)) := by
  obtain ⟨k, rfl⟩ : ∃ k, fuel = k + 1 := ⟨fuel - 1, by omega⟩
  have hp : line.head? ≠ some '%' := by
    intro h
    cases line with
    | nil => simp at h
    | cons c l =>
      have hc : c = '%' := by simpa using h
      have := hb c List.mem_cons_self
      rw [hc] at this
      exact absurd this (by decide)
  have hbl : Blanks (line ++ ['\n']) := by
    intro c h
    rcases List.mem_append.1 h with h | h
    · exact hb c h
    · rw [List.mem_singleton.1 h]; decide
  unfold readArraySize
  rw [comments_loop hc h1 hp _ _ (by
    have := comments_length comments
    rw [List.length_append]; omega), ok_bind]
  dsimp only
  unfold arraySizeOf
  rw [scanInts_blanks hbl]
  dsimp only
  rw [loopF]
  unfold arraySizeStep
  rw [scanInts_two hw hm hg hn hz]
  rfl

/-- **C138, the end of the file.**  A file with comments only gives an error code. -/
theorem C138_end {comments : List Text} (hc : ∀ c ∈ comments, OneLine c ∧ c.head? = some '%') (fuel : Nat) :
    readArraySize fuel (comments.flatMap (fun c => c ++ ['\n'])) = ok none := by
  have key : ∀ (l : List Text), (∀ c ∈ l, OneLine c ∧ c.head? = some '%') → ∀ k, l.length < k →
      loopF k commentStep (l.flatMap (fun c => c ++ ['\n'])) = ok none := by
    intro l
    induction l with
    | nil =>
      intro _ k hk
      obtain ⟨k, rfl⟩ : ∃ j, k = j + 1 := ⟨k - 1, by simp at hk; omega⟩
      rw [loopF]
      rfl
    | cons c l ih =>
      intro h k hk
      obtain ⟨k, rfl⟩ : ∃ j, k = j + 1 := ⟨k - 1, by simp at hk; omega⟩
      have hcc := h c List.mem_cons_self
      rw [List.flatMap_cons, List.append_assoc, loopF]
      have := commentStep_comment hcc.1 hcc.2 (l.flatMap (fun c => c ++ ['\n']))
      rw [List.singleton_append, this, ok_bind]
      exact ih (fun d hd => h d (List.mem_cons_of_mem _ hd)) k (by simpa using hk)
  unfold readArraySize
  rw [key comments hc _ (Nat.lt_succ_of_le (comments_length comments)), ok_bind]

/-- **C138, the end of the file.**  So does a file with comments and white space. -/
theorem C138_end_blank {comments : List Text} (hc : ∀ c ∈ comments, OneLine c ∧ c.head? = some '%') {line : Text}
    (h1 : OneLine line) (hb : Blanks line) {w : Text} (hw : Blanks w) {fuel : Nat} (hf : 0 < fuel) :
    readArraySize fuel (comments.flatMap (fun c => c ++ ['\n']) ++ (line ++ '\n' :: w)) = ok none := by
  obtain ⟨k, rfl⟩ : ∃ k, fuel = k + 1 := ⟨fuel - 1, by omega⟩
  have hp : line.head? ≠ some '%' := by
    intro h
    cases line with
    | nil => simp at h
    | cons c l =>
      have hc : c = '%' := by simpa using h
      have := hb c List.mem_cons_self
      rw [hc] at this
      exact absurd this (by decide)
  have hbl : Blanks (line ++ ['\n']) := by
    intro c h
    rcases List.mem_append.1 h with h | h
    · exact hb c h
    · rw [List.mem_singleton.1 h]; decide
  unfold readArraySize
  rw [comments_loop hc h1 hp _ _ (by
    have := comments_length comments
    rw [List.length_append]; omega), ok_bind]
  dsimp only
  unfold arraySizeOf
  rw [scanInts_blanks hbl]
  dsimp only
  rw [loopF]
  unfold arraySizeStep
  rw [scanInts_blanks hw]
  rfl

theorem step_stuck {f : Text} {c : Char} {t : Text} (h : f.dropWhile blank = c :: t) (h1 : c ≠ '-') (h2 : c ≠ '+')
    (h3 : c.isDigit = false) : arraySizeStep f = ok (.next (c :: t)) := by
  have : scanInt f = .bad (c :: t) := by
    unfold scanInt
    rw [h]
    dsimp only
    rw [if_neg h1, if_neg h2]
    unfold scanDigits
    rw [List.takeWhile_cons_of_neg (by rw [h3]; simp)]
    rfl
  unfold arraySizeStep
  rw [scanInts, this]

/-- **C138, finding: no return.**  If the line behind the comments does not hold two numbers, and the next word of the
file is not a number, the function never returns. -/
theorem C138_hangs {comments : List Text} (hc : ∀ c ∈ comments, OneLine c ∧ c.head? = some '%') {line : Text}
    (h1 : OneLine line) (hp : line.head? ≠ some '%') (hl : (scanInts 2 (line ++ ['\n'])).1.length < 2)
    {w t : Text} {c : Char} (hw : Blanks w) (h0 : blank c = false) (hm : c ≠ '-') (hpl : c ≠ '+')
    (hd : c.isDigit = false) (fuel : Nat) :
    readArraySize fuel (comments.flatMap (fun c => c ++ ['\n']) ++ (line ++ '\n' :: (w ++ c :: t))) = nofuel := by
  have key : ∀ (fuel : Nat) (f t : Text), f.dropWhile blank = c :: t → loopF fuel arraySizeStep f = nofuel := by
    intro fuel
    induction fuel with
    | zero => intro f t _; rfl
    | succ k ih =>
      intro f t hf
      rw [loopF, step_stuck hf hm hpl hd, ok_bind]
      exact ih (c :: t) t (by rw [List.dropWhile_cons_of_neg (by rw [h0]; simp)])
  unfold readArraySize
  rw [comments_loop hc h1 hp (w ++ c :: t) _ (by
    have := comments_length comments
    simp only [List.length_append]; omega), ok_bind]
  dsimp only
  unfold arraySizeOf
  have hs := key fuel (w ++ c :: t) t (by
    rw [dropWhile_blanks hw, List.dropWhile_cons_of_neg (by rw [h0]; simp)])
  split
  · rename_i e
    rw [e] at hl
    simp at hl
  · exact hs

/-- **C138, round trip.**  What `mm_write_mtx_array_size` writes is read back, and the file is behind it. -/
theorem C138_round_trip {m n : Nat} (hm : m < 2 ^ 31) (hn : n < 2 ^ 31) (body : Text) (fuel : Nat) :
    readArraySize fuel ((writeArraySize m n).1 ++ body) = ok (some (((m : Int), (n : Int)), body)) := by
  have ho : OneLine (decimal m ++ ' ' :: decimal n) := by
    refine ⟨?_, ?_⟩
    · intro h
      rcases List.mem_append.1 h with h | h
      · exact decimal_newline _ h
      · rcases List.mem_cons.1 h with h | h
        · exact absurd h (by decide)
        · exact decimal_newline _ h
    · have h1 := decimal_short hm
      have h2 := decimal_short hn
      simp only [List.length_append, List.length_cons]
      omega
  have := C138_read (comments := []) (by simp) ho
    ⟨[], decimal m, [' '], decimal n, [], by simp, Blanks.nil, decimal_numeral _, gap_space, decimal_numeral _, Ends.nil⟩ body fuel
  have e : (writeArraySize m n).1 ++ body = decimal m ++ ' ' :: decimal n ++ '\n' :: body := by
    simp [writeArraySize]
  rw [e]
  simpa using this

/-! ### Examples -/

example (fuel : Nat) : readArraySize fuel "% c\n 12\t3 \n7\n".toList = ok (some ((12, 3), "7\n".toList)) :=
  C138_read (comments := ["% c".toList]) (by unfold OneLine; decide) (size := " 12\t3 ".toList) (by unfold OneLine; decide)
    ⟨" ".toList, "12".toList, "\t".toList, "3".toList, " ".toList, by decide, by unfold Blanks; decide, num _ (by decide),
      ⟨by decide, by unfold Blanks; decide⟩, num _ (by decide), gap_space.ends []⟩ "7\n".toList fuel

example : readArraySize 1 " \n\n12\n3\n7\n".toList = ok (some ((12, 3), "\n7\n".toList)) :=
  C138_read_blank (comments := []) (by simp) (line := " ".toList) (by unfold OneLine; decide) (by unfold Blanks; decide)
    (w := "\n".toList) (s₁ := "12".toList) (g₁ := "\n".toList) (s₂ := "3".toList) (by unfold Blanks; decide) (num _ (by decide))
    ⟨by decide, by unfold Blanks; decide⟩ (num _ (by decide)) (ends_newline "7\n".toList) (by decide)

example : readArraySize 0 "% a\n%\n".toList = ok none :=
  C138_end (comments := ["% a".toList, "%".toList]) (by unfold OneLine; decide) 0

example : readArraySize 1 "% a\n\n \n".toList = ok none :=
  C138_end_blank (comments := ["% a".toList]) (by unfold OneLine; decide) (line := []) (by unfold OneLine; decide) Blanks.nil
    (w := " \n".toList) (by unfold Blanks; decide) (by decide)

example (fuel : Nat) : readArraySize fuel "2 x\n oops".toList = nofuel :=
  C138_hangs (comments := []) (by simp) (line := "2 x".toList) (by unfold OneLine; decide) (by decide)
    (by decide) (w := " ".toList) (c := 'o') (t := "ops".toList) gap_space.2 (by decide) (by decide) (by decide)
    (by decide) fuel

example : readArraySize 0 ((writeArraySize 120 7).1 ++ "x".toList) = ok (some ((120, 7), "x".toList)) :=
  C138_round_trip (by decide) (by decide) _ _

end Verif.ArraySizes
