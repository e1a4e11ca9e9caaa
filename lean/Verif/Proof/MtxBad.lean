import Verif.Proof.MtxWrite

/-!
# Files that are read in a wrong way: lemmas for C115
-/

namespace Verif.Mtx
open Res

/-! ### Integers as values -/

/-- `t` is the integer `v`, written in decimal. -/
def IntText (v : Int) (t : Text) : Prop :=
  (∃ n : Nat, v = n ∧ Numeral t n) ∨ ∃ (n : Nat) (s : Text), v = -(n : Int) ∧ t = '-' :: s ∧ Numeral s n

/-- `%d`. -/
def showInt (v : Int) : Text := if v < 0 then '-' :: decimal v.natAbs else decimal v.natAbs

theorem scanInt_ok : ScanOk IntText scanInt := by
  intro v t g rest h hg he
  rcases h with ⟨n, rfl, hn⟩ | ⟨n, s, rfl, rfl, hn⟩
  · exact scanInt_numeral hg hn he
  · have hw : Word ('-' :: s) := ⟨by simp, by
      intro c hc
      rcases List.mem_cons.1 hc with rfl | hc
      · decide
      · exact hn.word.2 c hc⟩
    have ht := takeWhile_stop (p := Char.isDigit) (a := s) (s := rest) hn.2.1
      (fun c hc => blank_not_digit (he c hc))
    unfold scanInt
    rw [dropWhile_blanks hg, dropWhile_word hw]
    show scanDigits true (s ++ rest) = _
    unfold scanDigits
    dsimp only
    rw [ht.1, ht.2, if_neg hn.1, hn.2.2]
    rfl

theorem showInt_ok : FmtOk IntText showInt id := by
  intro v
  refine ⟨[], showInt v, rfl, Blanks.nil, ?_⟩
  unfold showInt
  split
  · exact .inr ⟨v.natAbs, decimal v.natAbs, by simp only [id]; omega, rfl, decimal_numeral _⟩
  · exact .inl ⟨v.natAbs, by simp only [id]; omega, decimal_numeral _⟩

/-! ### The stream reader and a header that does not end -/

theorem getline_bad (s : Str) (h : s.good = false) (line : Text) : getline s line = (line, { s with fail := true }) := by
  unfold getline
  rw [if_neg (by rw [h]; simp)]

theorem trim_idem_percent {l : Text} (h : l.head? = some '%') : (trim l).head? = some '%' := trim_percent h

/-- Once the stream has ended on a comment, the loop goes on for ever. -/
theorem comments_hang : ∀ (fuel : Nat) (l : Text) (s : Str), l.head? = some '%' → s.good = false →
    whileF fuel (fun u : Text × Str => ok (decide (u.1.head? = some '%'))) commentLine (l, s) = nofuel := by
  intro fuel
  induction fuel with
  | zero =>
    intro l s hl _
    rw [whileF]
    dsimp only
    rw [ok_bind, decide_eq_true hl]
    rfl
  | succ k ih =>
    intro l s hl hs
    rw [whileF]
    dsimp only
    rw [ok_bind, decide_eq_true hl, if_pos rfl]
    unfold commentLine
    dsimp only
    rw [getline_bad s hs, ok_bind]
    refine ih _ _ (trim_percent hl) ?_
    unfold Str.good
    simp

theorem getline_last {l : Text} (h : '\n' ∉ l) (old : Text) :
    (getline ⟨l, false, false⟩ old).1 = l ∧ (getline ⟨l, false, false⟩ old).2.good = false := by
  have hd : l.dropWhile (fun c => !(c == '\n')) = [] := by
    have ht := takeWhile_stop (p := fun c => !(c == '\n')) (a := l) (s := []) (fun c hc => by
      have : c ≠ '\n' := fun e => h (e ▸ hc)
      simpa using this) (by simp)
    rw [List.append_nil] at ht
    exact ht.2
  unfold getline
  rw [if_pos (by rfl)]
  dsimp only
  rw [hd]
  exact ⟨rfl, rfl⟩

theorem comments_unfinished {comments : List Text} (hc : ∀ c ∈ comments, '\n' ∉ c ∧ c.head? = some '%') {last : Text}
    (h1 : '\n' ∉ last) (hp : last.head? = some '%') :
    ∀ (fuel : Nat) (old : Text), old.head? = some '%' →
      whileF fuel (fun u : Text × Str => ok (decide (u.1.head? = some '%'))) commentLine
        (old, ⟨comments.flatMap (fun c => c ++ ['\n']) ++ last, false, false⟩) = nofuel := by
  induction comments with
  | nil =>
    intro fuel old ho
    cases fuel with
    | zero =>
      rw [whileF]
      dsimp only
      rw [ok_bind, decide_eq_true ho]
      rfl
    | succ k =>
      rw [whileF]
      dsimp only
      rw [ok_bind, decide_eq_true ho, if_pos rfl, List.flatMap_nil, List.nil_append]
      unfold commentLine
      dsimp only
      rw [ok_bind]
      obtain ⟨e1, e2⟩ := getline_last h1 old
      refine comments_hang k _ _ ?_ e2
      rw [e1]
      exact trim_percent hp
  | cons c l ih =>
    intro fuel old ho
    cases fuel with
    | zero =>
      rw [whileF]
      dsimp only
      rw [ok_bind, decide_eq_true ho]
      rfl
    | succ k =>
      have h0 := hc c (List.mem_cons_self ..)
      rw [whileF]
      dsimp only
      rw [ok_bind, decide_eq_true ho, if_pos rfl, List.flatMap_cons]
      have : (c ++ ['\n']) ++ l.flatMap (fun c => c ++ ['\n']) ++ last
          = c ++ '\n' :: (l.flatMap (fun c => c ++ ['\n']) ++ last) := by simp
      rw [this, commentLine_line h0.1, ok_bind]
      exact ih (fun d hd => hc d (List.mem_cons_of_mem _ hd)) k _ (trim_percent h0.2)

/-! ### `mm_read_mtx_crd_size` and text that is not a number -/

theorem sizeStep_stuck {f : Text} {c : Char} {t : Text} (h : f.dropWhile blank = c :: t) (h1 : c ≠ '-') (h2 : c ≠ '+')
    (h3 : c.isDigit = false) : sizeStep f = ok (.next (c :: t)) := by
  have : scanInt f = .bad (c :: t) := by
    unfold scanInt
    rw [h]
    dsimp only
    rw [if_neg h1, if_neg h2]
    unfold scanDigits
    rw [List.takeWhile_cons_of_neg (by rw [h3]; simp)]
    rfl
  unfold sizeStep
  rw [scanInts, this]

theorem sizeLoop_hang {c : Char} (h0 : blank c = false) (h1 : c ≠ '-') (h2 : c ≠ '+') (h3 : c.isDigit = false) :
    ∀ (fuel : Nat) (f t : Text), f.dropWhile blank = c :: t → loopF fuel sizeStep f = nofuel := by
  intro fuel
  induction fuel with
  | zero => intro f t _; rfl
  | succ k ih =>
    intro f t hf
    rw [loopF, sizeStep_stuck hf h1 h2 h3, ok_bind]
    exact ih (c :: t) t (by rw [List.dropWhile_cons_of_neg (by rw [h0]; simp)])

theorem takeLine_part {x : Text} (h : '\n' ∉ x) (y : Text) : takeLine x.length (x ++ y) = (x, y) := by
  induction x with
  | nil => rfl
  | cons c x ih =>
    have hc : c ≠ '\n' := fun e => h (by rw [e]; exact List.mem_cons_self ..)
    rw [List.length_cons, List.cons_append, takeLine, if_neg hc,
      ih (fun hh => h (List.mem_cons_of_mem _ hh))]

/-! ### What the words of the first line must be -/

theorem mem_takeWhile_pos {p : Char → Bool} {l : Text} {c : Char} (h : c ∈ l.takeWhile p) : p c = true := by
  induction l with
  | nil => simp at h
  | cons d l ih =>
    rw [List.takeWhile_cons] at h
    split at h
    · rename_i hd
      rcases List.mem_cons.1 h with rfl | h
      · exact hd
      · exact ih h
    · simp at h

theorem scanStr_inv {s a r : Text} (h : scanStr s = some (a, r)) :
    ∃ w, s = w ++ (a ++ r) ∧ Blanks w ∧ Word a ∧ Ends r := by
  unfold scanStr at h
  dsimp only at h
  split at h
  · simp at h
  rename_i hne
  obtain ⟨h1, h2⟩ := Prod.mk.inj (Option.some.inj h)
  refine ⟨s.takeWhile blank, ?_, ?_, ⟨?_, ?_⟩, ?_⟩
  · rw [← h1, ← h2, List.takeWhile_append_dropWhile, List.takeWhile_append_dropWhile]
  · intro c hc
    exact mem_takeWhile_pos hc
  · rw [← h1]
    cases hd : s.dropWhile blank with
    | nil => exact absurd hd hne
    | cons c t =>
      have hc : blank c = false := by
        have := List.head?_dropWhile_not blank s
        rw [hd] at this
        simpa using this
      rw [List.takeWhile_cons_of_pos (by rw [hc]; rfl)]
      simp
  · intro c hc
    rw [← h1] at hc
    have := mem_takeWhile_pos hc
    simpa using this
  · intro c hc
    rw [← h2] at hc
    have := List.head?_dropWhile_not (fun c => !blank c) (s.dropWhile blank)
    rw [hc] at this
    simpa using this

/-- White space between two words. -/
theorem gap_between {w a r' r : Text} (hr : Ends r) (h : r = w ++ (a ++ r')) (hw : Blanks w) (ha : Word a) : Gap w := by
  refine ⟨?_, hw⟩
  rintro rfl
  subst h
  cases a with
  | nil => exact ha.1 rfl
  | cons c a =>
    have h1 := hr c rfl
    rw [ha.2 c (List.mem_cons_self ..)] at h1
    exact Bool.noConfusion h1

theorem fiveWords_inv {s b a₁ a₂ a₃ a₄ : Text} (h : fiveWords s = some (b, a₁, a₂, a₃, a₄)) : Words b a₁ a₂ a₃ a₄ s := by
  unfold fiveWords at h
  cases h0 : scanStr s with
  | none => rw [h0] at h; simp at h
  | some x0 =>
  obtain ⟨b0, s0⟩ := x0
  rw [h0] at h
  dsimp only [Option.bind_eq_bind, Option.bind_some] at h
  cases h1 : scanStr s0 with
  | none => rw [h1] at h; simp at h
  | some x1 =>
  obtain ⟨b1, s1⟩ := x1
  rw [h1] at h
  dsimp only [Option.bind_eq_bind, Option.bind_some] at h
  cases h2 : scanStr s1 with
  | none => rw [h2] at h; simp at h
  | some x2 =>
  obtain ⟨b2, s2⟩ := x2
  rw [h2] at h
  dsimp only [Option.bind_eq_bind, Option.bind_some] at h
  cases h3 : scanStr s2 with
  | none => rw [h3] at h; simp at h
  | some x3 =>
  obtain ⟨b3, s3⟩ := x3
  rw [h3] at h
  dsimp only [Option.bind_eq_bind, Option.bind_some] at h
  cases h4 : scanStr s3 with
  | none => rw [h4] at h; simp at h
  | some x4 =>
  obtain ⟨b4, s4⟩ := x4
  rw [h4] at h
  dsimp only [Option.bind_eq_bind, Option.bind_some] at h
  simp only [Option.some.injEq, Prod.mk.injEq] at h
  obtain ⟨rfl, rfl, rfl, rfl, rfl⟩ := h
  obtain ⟨w0, e0, k0, -, z0⟩ := scanStr_inv h0
  obtain ⟨w1, e1, k1, v1, z1⟩ := scanStr_inv h1
  obtain ⟨w2, e2, k2, v2, z2⟩ := scanStr_inv h2
  obtain ⟨w3, e3, k3, v3, z3⟩ := scanStr_inv h3
  obtain ⟨w4, e4, k4, v4, z4⟩ := scanStr_inv h4
  refine ⟨w0, w1, w2, w3, w4, s4, ?_, k0, gap_between z0 e1 k1 v1, gap_between z1 e2 k2 v2,
    gap_between z2 e3 k3 v3, gap_between z3 e4 k4 v4, z4⟩
  rw [← e4, ← e3, ← e2, ← e1, ← e0]

theorem blanks_of_lower {w : Text} (h : Blanks (lower w)) : Blanks w := by
  intro c hc
  by_contra hb
  have h1 : blank c.toLower = true := h _ (List.mem_map_of_mem hc)
  have : ∀ c : Char, blank c.toLower = true → blank c = true := by
    intro c h
    have h' := blank_toNat h
    by_cases hu : c.isUpper = true
    · exfalso
      have h65 : 65 ≤ c.toNat ∧ c.toNat ≤ 90 := by
        unfold Char.isUpper at hu
        simp only [Bool.and_eq_true, decide_eq_true_eq, ge_iff_le, UInt32.le_iff_toNat_le] at hu
        exact hu
      have : ∀ n : Fin 91, 65 ≤ n.1 → ((Char.ofNat n.1).toLower).toNat = n.1 + 32 := by decide
      have h2 := this ⟨c.toNat, by omega⟩ h65.1
      rw [Char.ofNat_toNat] at h2
      dsimp only at h2
      omega
    · have : c.toLower = c := by
        unfold Char.toLower
        unfold Char.isUpper at hu
        rw [dif_neg]
        intro hh
        apply hu
        simpa using hh
      rwa [this] at h
  exact hb (this c h1)

theorem ends_of_lower {z : Text} (h : Ends (lower z)) : Ends z := by
  cases z with
  | nil => exact Ends.nil
  | cons c z =>
    refine Ends.cons ?_ z
    have h1 : Blanks (lower [c]) := by
      intro d hd
      rw [show d = c.toLower from List.mem_singleton.1 hd]
      exact h _ rfl
    exact blanks_of_lower h1 c (List.mem_singleton.2 rfl)

theorem lower_split {s a b : Text} (h : lower s = a ++ b) : ∃ x y, s = x ++ y ∧ lower x = a ∧ lower y = b := by
  obtain ⟨x, y, h1, h2, h3⟩ := List.map_eq_append_iff.1 h
  exact ⟨x, y, h1, h2, h3⟩

theorem gap_of_lower {g x : Text} (h : lower x = g) (hg : Gap g) : Gap x := by
  subst h
  refine ⟨?_, blanks_of_lower hg.2⟩
  rintro rfl
  exact hg.1 rfl

/-- Words of a line in small letters are words of the line. -/
theorem words_of_lower {s b a₁ a₂ a₃ a₄ : Text} (h : Words b a₁ a₂ a₃ a₄ (lower s)) :
    ∃ b' a₁' a₂' a₃' a₄', Words b' a₁' a₂' a₃' a₄' s ∧ lower b' = b ∧ lower a₁' = a₁ ∧ lower a₂' = a₂ ∧
      lower a₃' = a₃ ∧ lower a₄' = a₄ := by
  obtain ⟨w, g₁, g₂, g₃, g₄, z, e, hw, hg₁, hg₂, hg₃, hg₄, hz⟩ := h
  obtain ⟨w', s, rfl, ew, e⟩ := lower_split e
  obtain ⟨b', s, rfl, eb, e⟩ := lower_split e
  obtain ⟨g₁', s, rfl, e1, e⟩ := lower_split e
  obtain ⟨a₁', s, rfl, f1, e⟩ := lower_split e
  obtain ⟨g₂', s, rfl, e2, e⟩ := lower_split e
  obtain ⟨a₂', s, rfl, f2, e⟩ := lower_split e
  obtain ⟨g₃', s, rfl, e3, e⟩ := lower_split e
  obtain ⟨a₃', s, rfl, f3, e⟩ := lower_split e
  obtain ⟨g₄', s, rfl, e4, e⟩ := lower_split e
  obtain ⟨a₄', z', rfl, f4, ez⟩ := lower_split e
  exact ⟨b', a₁', a₂', a₃', a₄', ⟨w', g₁', g₂', g₃', g₄', z', rfl, blanks_of_lower (ew ▸ hw),
    gap_of_lower e1 hg₁, gap_of_lower e2 hg₂, gap_of_lower e3 hg₃, gap_of_lower e4 hg₄,
    ends_of_lower (ez ▸ hz)⟩, eb, f1, f2, f3, f4⟩

theorem trim_inv (s : Text) : ∃ w z, s = w ++ (trim s ++ z) ∧ Blanks w ∧ Blanks z := by
  refine ⟨s.takeWhile blank, ((s.dropWhile blank).reverse.takeWhile blank).reverse, ?_, ?_, ?_⟩
  · unfold trim
    rw [← List.reverse_append, List.takeWhile_append_dropWhile, List.reverse_reverse,
      List.takeWhile_append_dropWhile]
  · intro c hc; exact mem_takeWhile_pos hc
  · intro c hc
    rw [List.mem_reverse] at hc
    exact mem_takeWhile_pos hc

theorem Blanks.ends {z : Text} (h : Blanks z) : Ends z := fun c hc => h c (List.mem_of_head? hc)

theorem words_of_trim {s b a₁ a₂ a₃ a₄ : Text} (h : Words b a₁ a₂ a₃ a₄ (trim s)) : Words b a₁ a₂ a₃ a₄ s := by
  obtain ⟨w, z, e, hw, hz⟩ := trim_inv s
  obtain ⟨w', g₁, g₂, g₃, g₄, z', e', hw', hg₁, hg₂, hg₃, hg₄, hz'⟩ := h
  rw [e'] at e
  exact ⟨w ++ w', g₁, g₂, g₃, g₄, z' ++ z, by rw [e]; simp only [List.append_assoc], hw.append hw', hg₁, hg₂, hg₃,
    hg₄, hz'.append hz.ends⟩

end Verif.Mtx
