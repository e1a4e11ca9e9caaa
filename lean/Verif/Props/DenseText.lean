import Verif.Model.DenseText
import Verif.Props.MtxText

/-!
# C136: files of dense matrices

`ScanOk W scanVal`: `scanVal` reads every way `W` to write a value; `FmtOk W fmt round`: `fmt v` is white space and a way
to write `round v`.
-/

namespace Verif.DenseText
open Res Mtx

variable {V : Type}

/-- The line with the sizes: rows and columns. -/
def ArraySize (m n : Nat) (l : Text) : Prop :=
  ∃ w s₁ g₁ s₂ z, l = w ++ (s₁ ++ (g₁ ++ (s₂ ++ z))) ∧ Blanks w ∧ Numeral s₁ m ∧ Gap g₁ ∧ Numeral s₂ n ∧ Ends z

/-- The values, separated by white space; `rest` is what follows the last one. -/
inductive Values (W : V → Text → Prop) (rest : Text) : List V → Text → Prop
  | nil : Values W rest [] rest
  | cons {v : V} {vs : List V} {w t tail : Text} (hw : Blanks w) (hv : W v t) (ht : t ≠ []) (he : Ends tail)
      (hr : Values W rest vs tail) : Values W rest (v :: vs) (w ++ (t ++ tail))

/-- `txt` is a Matrix Market file in the array format: the first line, comments, the sizes, the values `vs` and `rest`. -/
def ArrayText (W : V → Text → Prop) (arith : Text) (sym : Bool) (m n : Nat) (vs : List V) (rest txt : Text) : Prop :=
  ∃ (head : Text) (comments : List Text) (size body : Text),
    txt = head ++ '\n' :: (comments.flatMap (fun c => c ++ ['\n']) ++ (size ++ '\n' :: body)) ∧
    OneLine head ∧ HeadLine "array".toList arith (if sym then "symmetric".toList else "general".toList) head ∧
    (∀ c ∈ comments, OneLine c ∧ c.head? = some '%') ∧ OneLine size ∧ ArraySize m n size ∧ Values W rest vs body

theorem ArraySize.trim {m n : Nat} {l : Text} (h : ArraySize m n l) : ArraySize m n (Mtx.trim l) := by
  obtain ⟨w, s₁, g₁, s₂, z, rfl, hw, h₁, hg₁, h₂, hz⟩ := h
  refine ⟨[], s₁, g₁, s₂, rtrim z, ?_, Blanks.nil, h₁, hg₁, h₂, hz.rtrim⟩
  rw [trim_eq, dropWhile_blanks hw, dropWhile_word h₁.word]
  have := rtrim_before h₂.word (s₁ ++ g₁) z
  simp only [List.append_assoc] at this
  simpa using this

theorem ArraySize.head_ne {m n : Nat} {l : Text} (h : ArraySize m n l) : l.head? ≠ some '%' := by
  obtain ⟨w, s₁, g₁, s₂, z, rfl, hw, h₁, hg₁, h₂, hz⟩ := h
  -- a line with three numbers begins in the same way
  have : SizeLine m n 0 (w ++ (s₁ ++ (g₁ ++ (s₂ ++ ([' '] ++ (decimal 0 ++ []))))))  :=
    ⟨w, s₁, g₁, s₂, [' '], decimal 0, [], rfl, hw, h₁, hg₁, h₂, ⟨by simp, by unfold Blanks; decide⟩, decimal_numeral 0, Ends.nil⟩
  have h3 := this.head_ne
  obtain ⟨c, s, hc⟩ : ∃ c s, w ++ s₁ = c :: s := by
    cases hws : w ++ s₁ with
    | nil => exact absurd (List.append_eq_nil_iff.1 hws).2 h₁.1
    | cons c s => exact ⟨c, s, rfl⟩
  rw [← List.append_assoc, hc, List.cons_append, List.head?_cons] at h3 ⊢
  exact h3

theorem header_eq {W : V → Text → Prop} {arith : Text} {a : Mtx.Arith} (hwa : Word arith) (ha : arithOf arith = some a)
    {sym : Bool} {m n : Nat} {vs : List V} {rest txt : Text} (h : ArrayText W arith sym m n vs rest txt) {fuel : Nat}
    (hf : txt.length ≤ fuel) :
    ∃ body, Values W rest vs body ∧ readHeader fuel ⟨txt, false, false⟩
      = ok (⟨(m : Int), (n : Int), (m : Int) * n, a, sym, true⟩, ⟨body, false, false⟩) := by
  obtain ⟨head, comments, size, body, rfl, ho, hh, hc, hos, hs, hb⟩ := h
  have hword : Word "array".toList := by unfold Word; decide
  obtain ⟨hp, hw⟩ := headWords_line hword hwa (word_shape sym) hh
  have hy : shapeOf (if sym then "symmetric".toList else "general".toList) = some sym := by cases sym <;> decide
  have hfm : formatOf "array".toList = some true := by decide
  have hw := hw _ _ _ hfm ha hy
  have hd : dims true (Mtx.trim size) = some ((m : Int), (n : Int), (m : Int) * n) := by
    obtain ⟨w, s₁, g₁, s₂, z, e, hw, h₁, hg₁, h₂, hz⟩ := hs.trim
    rw [e]
    unfold dims
    rw [if_pos rfl, scanInts_two hw h₁ hg₁ h₂ hz]
  refine ⟨body, hb, ?_⟩
  unfold readHeader
  dsimp only
  rw [getline_line ho.1]
  dsimp only
  rw [hw]
  dsimp only [Option.bind_eq_bind, Option.bind_some, orThrow]
  rw [ok_bind, commentLines hc hos.1 hs.trim.head_ne body fuel _ (by
    have := comments_length comments
    simp only [List.length_append, List.length_cons] at hf
    omega) hp, ok_bind]
  dsimp only
  rw [hd]
  rfl

theorem Values.ne {W : V → Text → Prop} {rest : Text} {v : V} {vs : List V} {t : Text} (h : Values W rest (v :: vs) t) :
    t ≠ [] := by
  cases h with
  | cons _ _ ht _ _ =>
    intro hh
    exact ht (List.append_eq_nil_iff.1 (List.append_eq_nil_iff.1 hh).2).1

/-- The values are read one after the other; then the stream is behind the last one. -/
theorem readValues_eq [Zero V] {W : V → Text → Prop} {scanVal : Text → Scan V} (hW : ScanOk W scanVal) {rest : Text}
    (k : Nat) : ∀ {vs : List V} {t : Text}, Values W rest vs t → ∀ {s : Str}, s.rest = t → (t ≠ [] → s.good = true) →
      ∃ s' : Str, s'.rest = rest ∧ (rest ≠ [] → s'.good = true) ∧
        readValues scanVal (vs.length + k) s = vs ++ readValues scanVal k s' := by
  intro vs t h
  induction h with
  | nil =>
    intro s hs hg
    exact ⟨s, hs, hg, by simp⟩
  | @cons v vs w t tail hw hv ht he hr ih =>
    intro s hs hg
    have hgood := hg (fun hh => ht (List.append_eq_nil_iff.1 (List.append_eq_nil_iff.1 hh).2).1)
    have he : extract scanVal s 0 = (v, Str.after tail) := by
      unfold extract
      rw [if_pos hgood, hs, hW v t w tail hv hw he]
    obtain ⟨s', h1, h2, h3⟩ := ih (s := Str.after tail) rfl after_good
    refine ⟨s', h1, h2, ?_⟩
    rw [List.length_cons, Nat.add_right_comm, readValues, he, h3, List.cons_append]

/-- **C136, reading.**  From a file of an `m × n` matrix with its `m n` values, `read_mtx_array_real` returns the sizes
and the values in the order of the file. -/
theorem C136_read [Zero V] {W : V → Text → Prop} {scanVal : Text → Scan V} (hW : ScanOk W scanVal) {sym : Bool} {m n : Nat}
    {vs : List V} {rest txt : Text} (h : ArrayText W "real".toList sym m n vs rest txt) (hl : vs.length = m * n) {fuel : Nat}
    (hf : txt.length ≤ fuel) : readMtxArray scanVal fuel txt = ok (m, n, vs) := by
  obtain ⟨body, hb, hh⟩ := header_eq (by unfold Word; decide) (a := .real) (by decide) h hf
  obtain ⟨s', -, -, h3⟩ := readValues_eq hW 0 hb (s := ⟨body, false, false⟩) rfl (fun _ => rfl)
  unfold readMtxArray
  rw [hh, ok_bind]
  unfold readArrayBody
  have e : ((m : Int) * n).toNat = m * n := by rw [← Int.natCast_mul, Int.toNat_natCast]
  dsimp only
  rw [if_neg (by simp), if_neg (by simp), if_neg (by omega), e, ← hl]
  rw [Nat.add_zero] at h3
  rw [h3]
  simp [readValues]

/-- **C136, finding: too few values.**  If the file ends early, the values that are missing are 0, and nothing is
reported.  This happens for every symmetric file with more than one row: the format stores the lower triangle only,
and the reader, which does not look at the symmetry, puts these values one after the other. -/
theorem C136_read_short [Zero V] {W : V → Text → Prop} {scanVal : Text → Scan V} (hW : ScanOk W scanVal)
    (hE : ∀ w, Blanks w → scanVal w = .eof) {sym : Bool} {m n : Nat}
    {vs : List V} {rest txt : Text} (h : ArrayText W "real".toList sym m n vs rest txt) (hrest : Blanks rest) {missing : Nat}
    (hl : vs.length + missing = m * n) {fuel : Nat} (hf : txt.length ≤ fuel) :
    readMtxArray scanVal fuel txt = ok (m, n, vs ++ List.replicate missing 0) := by
  obtain ⟨body, hb, hh⟩ := header_eq (by unfold Word; decide) (a := .real) (by decide) h hf
  obtain ⟨s', h1, -, h3⟩ := readValues_eq hW missing hb (s := ⟨body, false, false⟩) rfl (fun _ => rfl)
  have hz : ∀ (k : Nat) (s : Str), (s.good = true → Blanks s.rest) → readValues scanVal k s = List.replicate k 0 := by
    intro k
    induction k with
    | zero => intro s _; rfl
    | succ k ih =>
      intro s hs
      rw [readValues]
      by_cases hg : s.good = true
      · have : extract scanVal s 0 = (0, ⟨[], true, true⟩) := by
          unfold extract
          rw [if_pos hg, hE _ (hs hg)]
        rw [this, ih _ (by intro h; cases h), List.replicate_succ]
      · have : extract scanVal s 0 = (0, { s with fail := true }) := by
          unfold extract
          rw [if_neg hg]
        rw [this, ih _ (by
          intro h
          unfold Str.good at h
          simp at h), List.replicate_succ]
  unfold readMtxArray
  rw [hh, ok_bind]
  unfold readArrayBody
  have e : ((m : Int) * n).toNat = m * n := by rw [← Int.natCast_mul, Int.toNat_natCast]
  dsimp only
  rw [if_neg (by simp), if_neg (by simp), if_neg (by omega), e, ← hl, h3, hz _ _ (fun _ => h1 ▸ hrest)]
  rfl

/-- **C136, other values.**  A file of integers, complex numbers or patterns is refused. -/
theorem C136_read_refused [Zero V] {W : V → Text → Prop} (scanVal : Text → Scan V) {arith : Text} {a : Mtx.Arith}
    (hwa : Word arith) (ha : arithOf arith = some a) (hne : a ≠ .real) {sym : Bool} {m n : Nat} {vs : List V} {rest txt : Text}
    (h : ArrayText W arith sym m n vs rest txt) {fuel : Nat} (hf : txt.length ≤ fuel) :
    readMtxArray scanVal fuel txt = exn := by
  obtain ⟨body, hb, hh⟩ := header_eq hwa ha h hf
  unfold readMtxArray
  rw [hh, ok_bind]
  unfold readArrayBody
  rw [if_pos hne]

/-! ### Writing -/

theorem forEach_out (fmt : V → Text) (indent : Text) : ∀ (xs : List V) (s : Text),
    forEach xs (fun v s => ok (s ++ (indent ++ fmt v))) s = ok (s ++ xs.flatMap (fun v => indent ++ fmt v)) := by
  intro xs
  induction xs with
  | nil => intro s; simp [forEach]
  | cons x xs ih => intro s; rw [forEach, ok_bind, ih]; simp

theorem denseLine_eq (fmt : V → Text) (indent : Text) {mat : List V} {i lda : Nat} (h : i + lda ≤ mat.length) (s : Text) :
    denseLine fmt indent mat i lda s
      = ok (s ++ (((mat.drop i).take lda).flatMap (fun v => indent ++ fmt v) ++ ['\n'])) := by
  unfold denseLine forRange
  rw [Nat.add_sub_cancel_left, forRange_rd mat (fun v s => ok (s ++ (indent ++ fmt v))) _ _ _ h, forEach_out, ok_bind]
  simp

theorem values_skip {W : V → Text → Prop} {vs : List V} {t : Text} (h : ∃ rest, Values W rest vs t) (c : Char)
    (hc : blank c = true) : ∃ rest, Values W rest vs (c :: t) := by
  obtain ⟨rest, h⟩ := h
  cases h with
  | nil => exact ⟨_, .nil⟩
  | @cons v vs w t tail hw hv ht he hr =>
    refine ⟨rest, ?_⟩
    rw [← List.cons_append]
    refine .cons (fun d hd => ?_) hv ht he hr
    rcases List.mem_cons.1 hd with rfl | hd
    · exact hc
    · exact hw d hd

theorem values_line {W : V → Text → Prop} {fmt : V → Text} {round : V → V} (hf : FmtOk W fmt round)
    (hne : ∀ v t, W v t → t ≠ []) {indent : Text} (hi : Gap indent) {vs : List V} {t : Text} (ht : Ends t)
    (h : ∃ rest, Values W rest vs t) : ∀ xs : List V,
      Ends (xs.flatMap (fun v => indent ++ fmt v) ++ t) ∧
      ∃ rest, Values W rest (xs.map round ++ vs) (xs.flatMap (fun v => indent ++ fmt v) ++ t) := by
  intro xs
  induction xs with
  | nil => exact ⟨by simpa using ht, by simpa using h⟩
  | cons x xs ih =>
    obtain ⟨h1, rest, h2⟩ := ih
    obtain ⟨pad, u, e, hp, hu⟩ := hf x
    rw [List.flatMap_cons, List.append_assoc, List.append_assoc]
    refine ⟨hi.ends _, rest, ?_⟩
    rw [e, List.append_assoc, ← List.append_assoc indent, List.map_cons, List.cons_append]
    refine .cons (fun c hc => ?_) hu (hne _ _ hu) h1 h2
    rcases List.mem_append.1 hc with hc | hc
    · exact hi.2 c hc
    · exact hp c hc

theorem lines_eq {W : V → Text → Prop} {fmt : V → Text} {round : V → V} (hf : FmtOk W fmt round)
    (hne : ∀ v t, W v t → t ≠ []) {indent : Text} (hi : Gap indent) {mat : List V} {N lda : Nat} (hN : N ≤ mat.length)
    (hlda : 0 < lda) : ∀ (q i fuel : Nat) (s : Text), i + q * lda = N → q ≤ fuel →
      ∃ T, whileF fuel (fun s : Nat × Text => ok (decide (s.1 < N))) (fun s => do
        let t ← denseLine fmt indent mat s.1 lda s.2
        ok (s.1 + lda, t)) (i, s) = ok (N, s ++ T) ∧
        ∃ rest, Values W rest (((mat.drop i).take (q * lda)).map round) T := by
  intro q
  induction q with
  | zero =>
    intro i fuel s hq _
    have hiN : i = N := by omega
    subst hiN
    refine ⟨[], ?_, [], by simpa using Values.nil⟩
    cases fuel with
    | zero => rw [whileF, ok_bind, if_neg (by simp), List.append_nil]
    | succ k => rw [whileF, ok_bind, if_neg (by simp), List.append_nil]
  | succ q ih =>
    intro i fuel s hq hfu
    obtain ⟨k, rfl⟩ : ∃ k, fuel = k + 1 := ⟨fuel - 1, by omega⟩
    have hm : (q + 1) * lda = q * lda + lda := Nat.succ_mul q lda
    obtain ⟨T, h1, h2⟩ := ih (i + lda) k (s ++ (((mat.drop i).take lda).flatMap (fun v => indent ++ fmt v) ++ ['\n']))
      (by omega) (by omega)
    refine ⟨((mat.drop i).take lda).flatMap (fun v => indent ++ fmt v) ++ '\n' :: T, ?_, ?_⟩
    · rw [whileF, ok_bind, if_pos (decide_eq_true (by omega))]
      dsimp only
      rw [denseLine_eq fmt indent (by omega), ok_bind, ok_bind, h1]
      simp
    · have := (values_line hf hne hi (ends_newline T) (values_skip h2 '\n' (by decide)) ((mat.drop i).take lda)).2
      rw [hm, Nat.add_comm (q * lda), List.take_add, List.map_append, List.drop_drop]
      exact this

/-- **C136, writing.**  If `lda` divides the number of values, `print_dense` writes a file of the matrix, with rounded
values. -/
theorem C136_print {W : V → Text → Prop} {fmt : V → Text} {round : V → V} (hf : FmtOk W fmt round)
    (hne : ∀ v t, W v t → t ≠ []) {indent : Text} (hi : Gap indent) (hil : indent.length ≤ 1000)
    {header : Text} (ho : OneLine (indent ++ header))
    (hh : HeadLine "array".toList "real".toList "general".toList (indent ++ header)) {rows cols lda : Nat} {mat : List V}
    (hl : mat.length = rows * cols) (hlda : 0 < lda) (hdiv : lda ∣ rows * cols)
    (hr : rows < 2 ^ 31) (hc : cols < 2 ^ 31) {fuel : Nat} (hfu : rows * cols ≤ fuel) :
    ∃ txt rest, printDense fmt fuel indent header rows cols lda mat = ok txt ∧
      ArrayText W "real".toList false rows cols (mat.map round) rest txt := by
  have hsize : OneLine (indent ++ decimal rows ++ ' ' :: decimal cols) := by
    refine ⟨?_, ?_⟩
    · intro h
      rcases List.mem_append.1 h with h | h
      · rcases List.mem_append.1 h with h | h
        · exact ho.1 (List.mem_append_left _ h)
        · exact decimal_newline _ h
      · rcases List.mem_cons.1 h with h | h
        · exact absurd h (by decide)
        · exact decimal_newline _ h
    · have h1 := decimal_short hr
      have h2 := decimal_short hc
      simp only [List.length_append, List.length_cons]
      omega
  obtain ⟨q, hq⟩ := hdiv
  have hqm : q * lda = rows * cols := by rw [hq, Nat.mul_comm]
  obtain ⟨T, h1, rest, h2⟩ := lines_eq hf hne hi (mat := mat) (N := cols * rows) (lda := lda)
    (by rw [hl, Nat.mul_comm]) hlda q 0 fuel (indent ++ header ++ '\n' :: (indent ++ decimal rows ++ ' ' :: decimal cols ++ ['\n']))
    (by rw [Nat.zero_add, hqm, Nat.mul_comm]) (by
      have : q * 1 ≤ q * lda := Nat.mul_le_mul_left q hlda
      omega)
  rw [List.drop_zero, List.take_of_length_le (by omega)] at h2
  refine ⟨_, rest, by unfold printDense; rw [h1, ok_bind], indent ++ header, [], indent ++ decimal rows ++ ' ' :: decimal cols, T,
    by simp, ho, hh, by simp, hsize, ?_, h2⟩
  exact ⟨indent, decimal rows, [' '], decimal cols, [], by simp, hi.2, decimal_numeral _, ⟨by simp, by unfold Blanks; decide⟩,
    decimal_numeral _, Ends.nil⟩

theorem denseLine_ub (fmt : V → Text) (indent : Text) {mat : List V} : ∀ (c a : Nat) (s : Text), a ≤ mat.length →
    mat.length < a + c → forN c a (fun k s => do
      let v ← rd mat k
      ok (s ++ (indent ++ fmt v))) s = ub := by
  intro c
  induction c with
  | zero => intro a s h1 h2; omega
  | succ c ih =>
    intro a s h1 h2
    rw [forN]
    by_cases ha : a < mat.length
    · have : rd mat a = ok mat[a] := by simp [rd, ha]
      rw [this, ok_bind, ok_bind]
      exact ih _ _ (by omega) (by omega)
    · have : rd mat a = ub := by simp [rd, ha]
      rw [this]
      rfl

/-- **C136, finding: past the end.**  If `lda` does not divide the number of values, the last line reads behind the end of
the array. -/
theorem C136_print_past_end (fmt : V → Text) (indent header : Text) {rows cols lda : Nat} {mat : List V}
    (hl : mat.length = rows * cols) (hlda : 0 < lda) (hdiv : ¬ lda ∣ rows * cols) {fuel : Nat} (hfu : rows * cols ≤ fuel) :
    printDense fmt fuel indent header rows cols lda mat = ub := by
  have key : ∀ (fuel i : Nat) (s : Text), i ≤ cols * rows → ¬ lda ∣ cols * rows - i → cols * rows - i ≤ fuel →
      whileF fuel (fun s : Nat × Text => ok (decide (s.1 < cols * rows))) (fun s => do
        let t ← denseLine fmt indent mat s.1 lda s.2
        ok (s.1 + lda, t)) (i, s) = ub := by
    rw [Nat.mul_comm] at hl
    intro fuel
    induction fuel with
    | zero =>
      intro i s h1 h2 h3
      exact absurd (by rw [Nat.le_zero.1 h3]; exact Nat.dvd_zero lda) h2
    | succ k ih =>
      intro i s h1 h2 h3
      have hi : i < cols * rows := by
        rcases Nat.lt_or_ge i (cols * rows) with h | h
        · exact h
        · exact absurd (by rw [Nat.sub_eq_zero_of_le h]; exact Nat.dvd_zero lda) h2
      rw [whileF, ok_bind, if_pos (decide_eq_true hi)]
      dsimp only
      by_cases hb : i + lda ≤ cols * rows
      · rw [denseLine_eq fmt indent (by omega), ok_bind, ok_bind]
        refine ih _ _ hb (fun hd => h2 ?_) (by omega)
        have : cols * rows - i = (cols * rows - (i + lda)) + lda := by omega
        rw [this]
        exact Nat.dvd_add hd (Nat.dvd_refl lda)
      · unfold denseLine forRange
        rw [Nat.add_sub_cancel_left, denseLine_ub fmt indent _ _ _ (by omega) (by omega)]
        rfl
  unfold printDense
  rw [key fuel 0 _ (Nat.zero_le _) (by rw [Nat.sub_zero, Nat.mul_comm]; exact hdiv) (by rw [Nat.sub_zero, Nat.mul_comm]; exact hfu)]
  rfl

/-- **C136, round trip.** -/
theorem C136_round_trip [Zero V] {W : V → Text → Prop} {scanVal : Text → Scan V} (hW : ScanOk W scanVal)
    {fmt : V → Text} {round : V → V} (hf : FmtOk W fmt round) (hne : ∀ v t, W v t → t ≠ [])
    {indent : Text} (hi : Gap indent) (hil : indent.length ≤ 1000) {header : Text} (ho : OneLine (indent ++ header))
    (hh : HeadLine "array".toList "real".toList "general".toList (indent ++ header)) {rows cols lda : Nat} {mat : List V}
    (hl : mat.length = rows * cols) (hlda : 0 < lda) (hdiv : lda ∣ rows * cols)
    (hr : rows < 2 ^ 31) (hc : cols < 2 ^ 31) {fuel : Nat} (hfu : rows * cols ≤ fuel) :
    ∃ txt, printDense fmt fuel indent header rows cols lda mat = ok txt ∧
      ∀ fuel', txt.length ≤ fuel' → readMtxArray scanVal fuel' txt = ok (rows, cols, mat.map round) := by
  obtain ⟨txt, rest, h1, h2⟩ := C136_print hf hne hi hil ho hh hl hlda hdiv hr hc hfu
  exact ⟨txt, h1, fun fuel' hf' => C136_read hW h2 (by rw [List.length_map]; exact hl) hf'⟩

/-- **C136, constants.**  A constant that is written is read again, whatever follows. -/
theorem C136_constant [Zero V] {W : V → Text → Prop} {scanVal : Text → Scan V} (hW : ScanOk W scanVal)
    {fmt : V → Text} {round : V → V} (hf : FmtOk W fmt round) {indent : Text} (hi : Blanks indent) (v old : V) (rest : Text) :
    readConstant scanVal ⟨printConstant fmt indent v ++ rest, false, false⟩ old = (round v, ⟨'\n' :: rest, false, false⟩) := by
  obtain ⟨pad, t, e, hp, ht⟩ := hf v
  unfold readConstant extract printConstant
  rw [if_pos (show Str.good _ = true from rfl)]
  have : indent ++ fmt v ++ ['\n'] ++ rest = (indent ++ pad) ++ (t ++ '\n' :: rest) := by simp [e]
  dsimp only
  rw [this, hW _ t _ _ ht (fun c hc => by
    rcases List.mem_append.1 hc with hc | hc
    · exact hi c hc
    · exact hp c hc) (ends_newline rest)]
  rfl

/-! ### Examples -/

theorem intText_ne (v : Int) (t : Text) (h : IntText v t) : t ≠ [] := by
  rcases h with ⟨n, -, hn⟩ | ⟨n, s, -, rfl, -⟩
  · exact hn.1
  · simp

theorem scanInt_blanks (w : Text) (h : Blanks w) : scanInt w = .eof := by
  have := dropWhile_blanks h []
  unfold scanInt
  rw [← List.append_nil w, this]
  rfl

theorem exHead_general : HeadLine "array".toList "real".toList "general".toList
    ("  ".toList ++ "%%MatrixMarket matrix array real general".toList) :=
  ⟨"matrix".toList, "array".toList, "real".toList, "general".toList,
    ⟨"  ".toList, " ".toList, " ".toList, " ".toList, " ".toList, [], by decide, by unfold Blanks; decide, gap_space, gap_space,
      gap_space, gap_space, Ends.nil⟩, by decide, by decide, by decide, by decide⟩

/-- A matrix with two rows and three columns, two values in a line. -/
example : ∃ txt, printDense showInt 6 "  ".toList "%%MatrixMarket matrix array real general".toList 2 3 2 [1, -2, 3, 4, 0, 6] = ok txt ∧
    ∀ fuel, txt.length ≤ fuel → readMtxArray scanInt fuel txt = ok (2, 3, [1, -2, 3, 4, 0, 6].map id) :=
  C136_round_trip scanInt_ok showInt_ok intText_ne (indent := "  ".toList) ⟨by decide, by unfold Blanks; decide⟩ (by decide)
    (by unfold OneLine; decide) exHead_general (by decide) (by decide) (by decide) (by decide) (by decide) (by decide)

example : printDense showInt 6 "  ".toList "%%MatrixMarket matrix array real general".toList 2 3 2 [1, -2, 3, 4, 0, 6]
    = ok "  %%MatrixMarket matrix array real general\n  2 3\n  1  -2\n  3  4\n  0  6\n".toList := by decide +kernel

example : printDense showInt 6 [' '] [] 2 3 4 [1, -2, 3, 4, 0, 6] = ub :=
  C136_print_past_end showInt _ _ (by decide) (by decide) (by decide) (by decide)

/-- The matrix with the rows 1 2 and 2 3, stored as the format says. -/
def exSym : Text := "%%MatrixMarket matrix array real symmetric\n% c\n2 2\n1\n2\n3\n".toList

theorem exSym_text : ArrayText IntText "real".toList true 2 2 [1, 2, 3] "\n".toList exSym :=
  ⟨"%%MatrixMarket matrix array real symmetric".toList, ["% c".toList], "2 2".toList, "1\n2\n3\n".toList, by decide,
    by unfold OneLine; decide,
    ⟨"matrix".toList, "array".toList, "real".toList, "symmetric".toList,
      ⟨[], " ".toList, " ".toList, " ".toList, " ".toList, [], by decide, Blanks.nil, gap_space, gap_space,
        gap_space, gap_space, Ends.nil⟩, by decide, by decide, by decide, by decide⟩,
    by unfold OneLine; decide, by unfold OneLine; decide,
    ⟨[], "2".toList, " ".toList, "2".toList, [], by decide, Blanks.nil, num _ (by decide), gap_space, num _ (by decide), Ends.nil⟩,
    .cons (w := []) (t := "1".toList) Blanks.nil (.inl ⟨1, rfl, num _ (by decide)⟩) (by decide) (ends_newline _)
      (.cons (w := ['\n']) (t := "2".toList) (by unfold Blanks; decide) (.inl ⟨2, rfl, num _ (by decide)⟩) (by decide) (ends_newline _)
        (.cons (w := ['\n']) (t := "3".toList) (by unfold Blanks; decide) (.inl ⟨3, rfl, num _ (by decide)⟩) (by decide) (ends_newline _)
          .nil))⟩

/-- It is read as the matrix with the rows 1 3 and 2 0. -/
example : readMtxArray scanInt 100 exSym = ok (2, 2, [1, 2, 3] ++ List.replicate 1 0) :=
  C136_read_short scanInt_ok scanInt_blanks exSym_text (by unfold Blanks; decide) (by decide) (by decide)

/-- The same values as a matrix with one column. -/
theorem exCol_text (arith : String) (h : HeadLine "array".toList arith.toList "general".toList
      ("%%MatrixMarket matrix array ".toList ++ arith.toList ++ " general".toList))
    (ho : OneLine ("%%MatrixMarket matrix array ".toList ++ arith.toList ++ " general".toList)) :
    ArrayText IntText arith.toList false 2 1 [7, -8] "\n".toList
      (("%%MatrixMarket matrix array ".toList ++ arith.toList ++ " general".toList) ++ '\n' :: ("2 1\n7 -8\n".toList)) :=
  ⟨_, [], "2 1".toList, "7 -8\n".toList, by rfl, ho, h, by simp, by unfold OneLine; decide,
    ⟨[], "2".toList, " ".toList, "1".toList, [], by decide, Blanks.nil, num _ (by decide), gap_space, num _ (by decide), Ends.nil⟩,
    .cons (w := []) (t := "7".toList) (tail := " -8\n".toList) Blanks.nil (.inl ⟨7, rfl, num _ (by decide)⟩) (by decide)
      (gap_space.ends "-8\n".toList)
      (.cons (w := [' ']) (t := "-8".toList) (by unfold Blanks; decide) (.inr ⟨8, "8".toList, rfl, rfl, num _ (by decide)⟩)
        (by decide) (ends_newline _) .nil)⟩

example : readMtxArray scanInt 100 "%%MatrixMarket matrix array real general\n2 1\n7 -8\n".toList = ok (2, 1, [7, -8]) :=
  C136_read scanInt_ok (exCol_text "real"
    ⟨"matrix".toList, "array".toList, "real".toList, "general".toList,
      ⟨[], " ".toList, " ".toList, " ".toList, " ".toList, [], by decide, Blanks.nil, gap_space, gap_space,
        gap_space, gap_space, Ends.nil⟩, by decide, by decide, by decide, by decide⟩ (by unfold OneLine; decide))
    (by decide) (by decide)

example : readMtxArray scanInt 100 "%%MatrixMarket matrix array integer general\n2 1\n7 -8\n".toList = exn :=
  C136_read_refused scanInt (a := .int) (by unfold Word; decide) (by decide) (by decide) (exCol_text "integer"
    ⟨"matrix".toList, "array".toList, "integer".toList, "general".toList,
      ⟨[], " ".toList, " ".toList, " ".toList, " ".toList, [], by decide, Blanks.nil, gap_space, gap_space,
        gap_space, gap_space, Ends.nil⟩, by decide, by decide, by decide, by decide⟩ (by unfold OneLine; decide))
    (by decide)

example : readConstant scanInt ⟨printConstant showInt "  ".toList (-5) ++ "x".toList, false, false⟩ 3
    = (-5, ⟨"\nx".toList, false, false⟩) :=
  C136_constant scanInt_ok showInt_ok (by unfold Blanks; decide) (-5) 3 "x".toList

end Verif.DenseText
