import Verif.Model.MtxStream
import Verif.ResLemmas

/-!
# Reading words and numbers from a text
-/

namespace Verif.Mtx
open Res

/-- A word: at least one character, no white space. -/
def Word (s : Text) : Prop := s ≠ [] ∧ ∀ c ∈ s, blank c = false

theorem Ends.nil : Ends [] := by intro c h; simp at h

theorem Ends.cons {c : Char} (h : blank c = true) (s : Text) : Ends (c :: s) := by
  intro d hd; simp only [List.head?_cons, Option.some.injEq] at hd; rwa [← hd]

theorem Gap.ends {g : Text} (h : Gap g) (s : Text) : Ends (g ++ s) := by
  obtain ⟨h1, h2⟩ := h
  cases g with
  | nil => exact absurd rfl h1
  | cons c g => exact Ends.cons (h2 c (List.mem_cons_self ..)) _

theorem Ends.append {s : Text} (h : Ends s) {t : Text} (ht : Ends t) : Ends (s ++ t) := by
  cases s with
  | nil => exact ht
  | cons c s => exact Ends.cons (h c rfl) _

theorem ends_newline (s : Text) : Ends ('\n' :: s) := Ends.cons rfl s

theorem dropWhile_blanks {w : Text} (hw : Blanks w) (s : Text) : (w ++ s).dropWhile blank = s.dropWhile blank := by
  induction w with
  | nil => rfl
  | cons c w ih =>
    rw [List.cons_append, List.dropWhile_cons_of_pos (hw c (List.mem_cons_self ..))]
    exact ih fun d hd => hw d (List.mem_cons_of_mem _ hd)

theorem dropWhile_word {a : Text} (ha : Word a) (s : Text) : (a ++ s).dropWhile blank = a ++ s := by
  obtain ⟨h1, h2⟩ := ha
  cases a with
  | nil => exact absurd rfl h1
  | cons c a => rw [List.cons_append, List.dropWhile_cons_of_neg (by rw [h2 c (List.mem_cons_self ..)]; simp)]

theorem dropWhile_idem (s : Text) : (s.dropWhile blank).dropWhile blank = s.dropWhile blank := by
  induction s with
  | nil => rfl
  | cons c s ih =>
    by_cases h : blank c = true
    · rw [List.dropWhile_cons_of_pos h, ih]
    · rw [List.dropWhile_cons_of_neg h, List.dropWhile_cons_of_neg h]

/-- A prefix is taken as a whole and nothing more. -/
theorem takeWhile_stop {p : Char → Bool} {a s : Text} (ha : ∀ c ∈ a, p c = true)
    (hs : ∀ c, s.head? = some c → p c = false) : (a ++ s).takeWhile p = a ∧ (a ++ s).dropWhile p = s := by
  induction a with
  | nil =>
    cases s with
    | nil => exact ⟨rfl, rfl⟩
    | cons c s =>
      have := hs c rfl
      exact ⟨List.takeWhile_cons_of_neg (by rw [this]; simp), List.dropWhile_cons_of_neg (by rw [this]; simp)⟩
  | cons c a ih =>
    have h := ih fun d hd => ha d (List.mem_cons_of_mem _ hd)
    have hc := ha c (List.mem_cons_self ..)
    rw [List.cons_append, List.takeWhile_cons_of_pos hc, List.dropWhile_cons_of_pos hc, h.1, h.2]
    exact ⟨rfl, rfl⟩

theorem scanStr_word {w a s : Text} (hw : Blanks w) (ha : Word a) (hs : Ends s) :
    scanStr (w ++ (a ++ s)) = some (a, s) := by
  have h := takeWhile_stop (p := fun c => !blank c) (a := a) (s := s)
    (fun c hc => by rw [ha.2 c hc]; rfl) (fun c hc => by rw [hs c hc]; rfl)
  unfold scanStr
  dsimp only
  rw [dropWhile_blanks hw, dropWhile_word ha, h.1, h.2, if_neg]
  exact fun hh => ha.1 (List.append_eq_nil_iff.1 hh).1

/-! ### Numbers -/

theorem isDigit_iff (c : Char) : c.isDigit = true ↔ 48 ≤ c.toNat ∧ c.toNat ≤ 57 := by
  unfold Char.isDigit
  simp only [Bool.and_eq_true, decide_eq_true_eq, ge_iff_le, UInt32.le_iff_toNat_le]
  exact Iff.rfl

theorem blank_toNat {c : Char} (h : blank c = true) : c.toNat = 32 ∨ (9 ≤ c.toNat ∧ c.toNat ≤ 13) := by
  simp only [blank, Bool.or_eq_true, decide_eq_true_eq] at h
  rcases h with ((((h | h) | h) | h) | h) | h <;> subst h <;> decide

theorem digit_not_blank {c : Char} (h : c.isDigit = true) : blank c = false := by
  rw [isDigit_iff] at h
  by_contra hb
  have := blank_toNat (by simpa using hb : blank c = true)
  omega

theorem blank_not_digit {c : Char} (h : blank c = true) : c.isDigit = false := by
  by_contra hb
  rw [digit_not_blank (by simpa using hb)] at h
  exact Bool.noConfusion h

theorem Numeral.word {s : Text} {n : Nat} (h : Numeral s n) : Word s :=
  ⟨h.1, fun c hc => digit_not_blank (h.2.1 c hc)⟩

theorem scanInt_numeral {w s r : Text} {n : Nat} (hw : Blanks w) (h : Numeral s n) (hr : Ends r) :
    scanInt (w ++ (s ++ r)) = .ok (n : Int) r := by
  have ht := takeWhile_stop (p := Char.isDigit) (a := s) (s := r) h.2.1 (fun c hc => blank_not_digit (hr c hc))
  have hdig : scanDigits false (s ++ r) = .ok (n : Int) r := by
    unfold scanDigits
    dsimp only
    rw [ht.1, ht.2, if_neg h.1, h.2.2]
    rfl
  unfold scanInt
  rw [dropWhile_blanks hw, dropWhile_word h.word]
  obtain ⟨h1, h2, h3⟩ := h
  cases s with
  | nil => exact absurd rfl h1
  | cons c s =>
    have hc := (isDigit_iff c).1 (h2 c (List.mem_cons_self ..))
    have e1 : c ≠ '-' := by rintro rfl; revert hc; decide
    have e2 : c ≠ '+' := by rintro rfl; revert hc; decide
    rw [List.cons_append] at hdig ⊢
    dsimp only
    rw [if_neg e1, if_neg e2, hdig]

theorem scanInts_step {w s r : Text} {n : Nat} (k : Nat) (hw : Blanks w) (h : Numeral s n) (hr : Ends r) :
    scanInts (k + 1) (w ++ (s ++ r)) = ((n : Int) :: (scanInts k r).1, (scanInts k r).2) := by
  rw [scanInts, scanInt_numeral hw h hr]

theorem Blanks.nil : Blanks [] := by intro c h; simp at h

theorem scanInts_three {w s₁ g₁ s₂ g₂ s₃ z : Text} {a b c : Nat} (hw : Blanks w) (h₁ : Numeral s₁ a) (hg₁ : Gap g₁)
    (h₂ : Numeral s₂ b) (hg₂ : Gap g₂) (h₃ : Numeral s₃ c) (hz : Ends z) :
    scanInts 3 (w ++ (s₁ ++ (g₁ ++ (s₂ ++ (g₂ ++ (s₃ ++ z)))))) = ([(a : Int), b, c], z, false) := by
  rw [scanInts_step 2 hw h₁ (hg₁.ends _), scanInts_step 1 hg₁.2 h₂ (hg₂.ends _), scanInts_step 0 hg₂.2 h₃ hz]
  rfl

theorem scanInts_two {w s₁ g₁ s₂ z : Text} {a b : Nat} (hw : Blanks w) (h₁ : Numeral s₁ a) (hg₁ : Gap g₁)
    (h₂ : Numeral s₂ b) (hz : Ends z) :
    scanInts 2 (w ++ (s₁ ++ (g₁ ++ (s₂ ++ z)))) = ([(a : Int), b], z, false) := by
  rw [scanInts_step 1 hw h₁ (hg₁.ends _), scanInts_step 0 hg₁.2 h₂ hz]
  rfl

/-! ### Letters -/

theorem blank_toLower {c : Char} (h : blank c = true) : c.toLower = c := by
  simp only [blank, Bool.or_eq_true, decide_eq_true_eq] at h
  rcases h with ((((h | h) | h) | h) | h) | h <;> subst h <;> decide

theorem toLower_blank {c : Char} (h : blank c.toLower = false) : blank c = false := by
  by_contra hb
  have hb : blank c = true := by simpa using hb
  rw [blank_toLower hb, hb] at h
  exact Bool.noConfusion h

theorem lower_append (a b : Text) : lower (a ++ b) = lower a ++ lower b := List.map_append

theorem lower_blanks {w : Text} (h : Blanks w) : lower w = w := by
  unfold lower
  conv_rhs => rw [← List.map_id w]
  exact List.map_congr_left fun c hc => blank_toLower (h c hc)

theorem word_of_lower {a b : Text} (h : lower a = b) (hb : Word b) : Word a := by
  subst h
  refine ⟨?_, fun c hc => toLower_blank (hb.2 _ (List.mem_map_of_mem hc))⟩
  rintro rfl
  exact hb.1 rfl

theorem Ends.lower {z : Text} (h : Ends z) : Ends (lower z) := by
  cases z with
  | nil => exact h
  | cons c z =>
    have hc := h c rfl
    unfold Mtx.lower
    rw [List.map_cons, blank_toLower hc]
    exact Ends.cons hc _

theorem lower_length (a : Text) : (lower a).length = a.length := List.length_map ..

/-! ### `trim` -/

/-- Without the white space at the end. -/
def rtrim (s : Text) : Text := (s.reverse.dropWhile blank).reverse

theorem trim_eq (s : Text) : trim s = rtrim (s.dropWhile blank) := rfl

theorem rtrim_prefix (s : Text) : rtrim s <+: s := by
  unfold rtrim
  have := (List.dropWhile_suffix (l := s.reverse) blank)
  rw [← List.reverse_prefix, List.reverse_reverse] at this
  exact this

theorem Ends.rtrim {z : Text} (h : Ends z) : Ends (rtrim z) := by
  obtain ⟨t, ht⟩ := rtrim_prefix z
  intro c hc
  refine h c ?_
  rw [← ht]
  cases h' : Mtx.rtrim z with
  | nil => rw [h'] at hc; simp at hc
  | cons d l => rw [h'] at hc; simpa using hc

theorem rtrim_append {x : Text} (hx : ∀ c ∈ x.getLast?, blank c = false) (z : Text) :
    rtrim (x ++ z) = x ++ rtrim z := by
  have hrev : ∀ s : Text, (s ++ x.reverse).dropWhile blank = s.dropWhile blank ++ x.reverse := by
    intro s
    induction s with
    | nil =>
      rw [List.nil_append, List.dropWhile_nil, List.nil_append]
      cases hr : x.reverse with
      | nil => rfl
      | cons c l =>
        refine List.dropWhile_cons_of_neg ?_
        rw [hx c (by rw [← List.reverse_reverse x, hr]; simp)]
        simp
    | cons c s ih =>
      by_cases h : blank c = true
      · rw [List.cons_append, List.dropWhile_cons_of_pos h, List.dropWhile_cons_of_pos h, ih]
      · rw [List.cons_append, List.dropWhile_cons_of_neg h, List.dropWhile_cons_of_neg h, List.cons_append]
  unfold rtrim
  rw [List.reverse_append, hrev, List.reverse_append, List.reverse_reverse]

theorem rtrim_word {x : Text} (hx : Word x) (z : Text) : rtrim (x ++ z) = x ++ rtrim z :=
  rtrim_append (fun c hc => hx.2 c (List.mem_of_getLast? hc)) z

/-- Whatever stands before the last word is kept. -/
theorem rtrim_before {x : Text} (hx : Word x) (y z : Text) : rtrim (y ++ (x ++ z)) = y ++ (x ++ rtrim z) := by
  rw [← List.append_assoc, rtrim_append, List.append_assoc]
  intro c hc
  refine hx.2 c (List.mem_of_getLast? ?_)
  rw [List.getLast?_append_of_ne_nil _ hx.1] at hc
  exact hc

/-! ### Lines -/

theorem takeLine_line {l : Text} (h : '\n' ∉ l) (k : Nat) (hk : l.length + 1 ≤ k) (r : Text) :
    takeLine k (l ++ '\n' :: r) = (l ++ ['\n'], r) := by
  induction l generalizing k with
  | nil =>
    obtain ⟨k, rfl⟩ : ∃ j, k = j + 1 := ⟨k - 1, by simp at hk; omega⟩
    rfl
  | cons c l ih =>
    obtain ⟨k, rfl⟩ : ∃ j, k = j + 1 := ⟨k - 1, by simp at hk; omega⟩
    rw [List.mem_cons, not_or] at h
    rw [List.cons_append, takeLine, if_neg (fun e => h.1 e.symm), ih h.2 k (by simpa using hk)]
    rfl

theorem fgets_line {l : Text} (h : OneLine l) (r : Text) : fgets 1025 (l ++ '\n' :: r) = some (l ++ ['\n'], r) := by
  unfold fgets
  rw [if_neg (by simp), takeLine_line h.1 _ (by have := h.2; omega)]

theorem getline_line {l : Text} (h : '\n' ∉ l) (r old : Text) :
    getline ⟨l ++ '\n' :: r, false, false⟩ old = (l, ⟨r, false, false⟩) := by
  have ht := takeWhile_stop (p := fun c => !(c == '\n')) (a := l) (s := '\n' :: r)
    (fun c hc => by
      have : c ≠ '\n' := by rintro rfl; exact h hc
      simpa using this) (fun c hc => by
      simp only [List.head?_cons, Option.some.injEq] at hc; subst hc; rfl)
  unfold getline
  rw [if_pos (by rfl)]
  dsimp only
  rw [ht.1, ht.2]

end Verif.Mtx
