import Verif.Model.Mmio
import Verif.Spec.MmioText
import Verif.Props.MtxText

/-!
# C131: reading and writing coordinates with mmio

`ScanOk W scanVal`: `scanVal` reads every way `W` to write a value; `FmtOk W fmt round`: `fmt v` is white space and a way
to write `round v` (Verif/Proof/MtxRead.lean, MtxWrite.lean).
-/

namespace Verif.Mmio
open Res Mtx

variable {V : Type}

theorem vals_ends {W : V → Text → Prop} {vs : List V} {u tail : Text} (h : Vals W vs u) (he : Ends tail) :
    Ends (u ++ tail) := by
  cases h with
  | nil => exact he
  | cons hg hv hs =>
    rw [List.append_assoc]
    exact hg.ends _

theorem scanVals_eq {W : V → Text → Prop} {scanVal : Text → Scan V} (hW : ScanOk W scanVal) {vs : List V} {u tail : Text}
    (h : Vals W vs u) (he : Ends tail) : scanVals scanVal vs.length (u ++ tail) = some (vs, tail) := by
  induction h with
  | nil => rfl
  | cons hg hv hs ih =>
    rw [List.length_cons, scanVals, List.append_assoc, List.append_assoc, hW _ _ _ _ hv hg.2 (vals_ends hs he)]
    dsimp only
    rw [ih]
    rfl

theorem scanInts_signed {w s₁ g s₂ z : Text} {a b : Int} (hw : Blanks w) (h₁ : Signed a s₁) (hg : Gap g)
    (h₂ : Signed b s₂) (hz : Ends z) : scanInts 2 (w ++ (s₁ ++ (g ++ (s₂ ++ z)))) = ([a, b], z, false) := by
  rw [scanInts, scanInt_ok a s₁ w _ h₁ hw (hg.ends _)]
  dsimp only
  rw [scanInts, scanInt_ok b s₂ g _ h₂ hg.2 hz]
  rfl

theorem signed_word {a : Int} {s : Text} (h : Signed a s) : Word s := by
  rcases h with ⟨n, -, hn⟩ | ⟨n, s, -, rfl, hn⟩
  · exact hn.word
  · refine ⟨by simp, fun c hc => ?_⟩
    rcases List.mem_cons.1 hc with rfl | hc
    · decide
    · exact hn.word.2 c hc

theorem scanLine_cons {W : V → Text → Prop} {scanVal : Text → Scan V} (hW : ScanOk W scanVal) {i j : Int} {vs : List V}
    {w s₁ g s₂ u tail : Text} (hw : Blanks w) (h₁ : Signed i s₁) (hg : Gap g) (h₂ : Signed j s₂) (hv : Vals W vs u)
    (he : Ends tail) : scanLine scanVal vs.length (w ++ (s₁ ++ (g ++ (s₂ ++ (u ++ tail)))))
      = some ((i, j, vs), if vs.length = 1 then tail.dropWhile blank else tail) := by
  unfold scanLine
  rw [scanInts_signed hw h₁ hg h₂ (vals_ends hv he)]
  dsimp only
  rw [scanVals_eq hW hv he]

theorem Lines.drop {W : V → Text → Prop} {k : Nat} {rest : Text} {e : Int × Int × List V} {es : List (Int × Int × List V)}
    {s : Text} (h : Lines W k rest (e :: es) s) : Lines W k rest (e :: es) (s.dropWhile blank) := by
  cases h with
  | cons hw h₁ hg h₂ hl hv he hr =>
    rw [dropWhile_blanks hw, dropWhile_word (signed_word h₁)]
    exact Lines.cons (w := []) Blanks.nil h₁ hg h₂ hl hv he hr

theorem scanLines_body {W : V → Text → Prop} {scanVal : Text → Scan V} (hW : ScanOk W scanVal) {k : Nat} {rest : Text}
    {es : List (Int × Int × List V)} {s : Text} (h : Lines W k rest es s) :
    scanLines scanVal k es.length s = some es := by
  induction es generalizing s with
  | nil => rfl
  | cons e es ih =>
    cases h with
    | cons hw h₁ hg h₂ hl hv he hr =>
      subst hl
      rw [List.length_cons, scanLines, scanLine_cons hW hw h₁ hg h₂ hv he]
      dsimp only
      cases es with
      | nil => rfl
      | cons d es =>
        split
        · rw [ih hr.drop]; rfl
        · rw [ih hr]; rfl

theorem scanLines_short {W : V → Text → Prop} {scanVal : Text → Scan V} (hW : ScanOk W scanVal) {k : Nat} {rest : Text}
    (hb : Blanks rest) {es : List (Int × Int × List V)} {s : Text} (h : Lines W k rest es s) {nz : Nat}
    (hk : es.length < nz) :
    scanLines scanVal k nz s = none ∧ scanLines scanVal k nz (s.dropWhile blank) = none := by
  induction es generalizing s nz with
  | nil =>
    cases h
    obtain ⟨nz, rfl⟩ : ∃ j, nz = j + 1 := ⟨nz - 1, by simp at hk; omega⟩
    have e0 : rest.dropWhile blank = [] := by
      have := dropWhile_blanks hb []
      rw [List.append_nil] at this
      exact this
    have h1 : ∀ u : Text, u.dropWhile blank = [] → scanLines scanVal k (nz + 1) u = none := by
      intro u hu
      have : scanInt u = .eof := by unfold scanInt; rw [hu]
      rw [scanLines]
      unfold scanLine
      rw [scanInts, this]
    exact ⟨h1 _ e0, h1 _ (by rw [dropWhile_idem, e0])⟩
  | cons e es ih =>
    obtain ⟨nz, rfl⟩ : ∃ j, nz = j + 1 := ⟨nz - 1, by simp at hk; omega⟩
    have gen : ∀ u, Lines W k rest (e :: es) u → scanLines scanVal k (nz + 1) u = none := by
      intro u hu
      cases hu with
      | cons hw h₁ hg h₂ hl hv he hr =>
        subst hl
        rw [scanLines, scanLine_cons hW hw h₁ hg h₂ hv he]
        dsimp only
        have := ih hr (nz := nz) (by simpa using hk)
        split
        · rw [this.2]; rfl
        · rw [this.1]; rfl
    exact ⟨gen s h, gen _ h.drop⟩

/-! ### The header -/

theorem shape_code {shape : Text} (h : Shape shape) :
    ∃ c3, shapeCode shape = some c3 ∧ Word shape ∧ shape.length < 64 ∧
      (c3 = 'H' ↔ shape = "hermitian".toList) ∧ (c3 = 'K' ↔ shape = "skew-symmetric".toList) := by
  rcases h with rfl | rfl | rfl | rfl
  · exact ⟨'G', by decide, by unfold Word; decide, by decide, by decide, by decide⟩
  · exact ⟨'S', by decide, by unfold Word; decide, by decide, by decide, by decide⟩
  · exact ⟨'H', by decide, by unfold Word; decide, by decide, by decide, by decide⟩
  · exact ⟨'K', by decide, by unfold Word; decide, by decide, by decide, by decide⟩

theorem arith_code {arith : Text} {k : Nat} (h : Kind arith k) :
    ∃ c2, arithCode arith = some c2 ∧ Word arith ∧ arith.length < 64 ∧ (c2 = 'R' ↔ arith = "real".toList) ∧
      (c2 = 'P' ↔ arith = "pattern".toList) ∧ ∀ c0 c1 c3, kind ⟨c0, c1, c2, c3⟩ = some k := by
  rcases h with ⟨rfl, rfl⟩ | ⟨rfl, rfl⟩ | ⟨rfl, rfl⟩
  · exact ⟨'R', by decide, by unfold Word; decide, by decide, by decide, by decide, fun _ _ _ => rfl⟩
  · exact ⟨'C', by decide, by unfold Word; decide, by decide, by decide, by decide, fun _ _ _ => rfl⟩
  · exact ⟨'P', by decide, by unfold Word; decide, by decide, by decide, by decide, fun _ _ _ => rfl⟩

theorem readCrd_head {arith shape : Text} {c2 c3 : Char} (hw3 : Word arith) (hw4 : Word shape) (hl3 : arith.length < 64)
    (hl4 : shape.length < 64) (h2 : arithCode arith = some c2) (h3 : shapeCode shape = some c3) {m n nnz : Nat}
    {txt body : Text} (h : Head arith shape m n nnz txt body) (scanVal : Text → Scan V) (fuel : Nat) :
    readCrd scanVal fuel txt = (if isValid ⟨'M', 'C', c2, c3⟩ = false then ok none else
      match kind ⟨'M', 'C', c2, c3⟩ with
        | none => ok (some ⟨⟨'M', 'C', c2, c3⟩, m, n, nnz, none⟩)
        | some k =>
          match scanLines scanVal k nnz body with
          | none => ok none
          | some l => ok (some ⟨⟨'M', 'C', c2, c3⟩, m, n, nnz, some l⟩)) := by
  obtain ⟨head, comments, size, rfl, ho, hh, hc, hos, hs⟩ := h
  unfold readCrd
  rw [readBanner_head hw3 hw4 hl3 hl4 h2 h3 ho hh, ok_bind]
  dsimp only
  rw [decide_eq_true rfl, decide_eq_true rfl, Bool.and_true, Bool.and_true]
  split
  · rfl
  · rw [readSize_header hc hos hs, ok_bind]
    dsimp only
    rw [Int.toNat_natCast]
    cases kind ⟨'M', 'C', c2, c3⟩ with
    | none => rfl
    | some k => cases scanLines scanVal k nnz body <;> rfl

theorem readUnsymmetric_head {arith shape : Text} {c2 c3 : Char} (hw3 : Word arith) (hw4 : Word shape)
    (hl3 : arith.length < 64)
    (hl4 : shape.length < 64) (h2 : arithCode arith = some c2) (h3 : shapeCode shape = some c3) {m n nnz : Nat}
    {txt body : Text} (h : Head arith shape m n nnz txt body) (scanVal : Text → Scan V) (fuel : Nat) :
    readUnsymmetric scanVal fuel txt = (if c2 ≠ 'R' then ok none else
          match scanLines scanVal 1 nnz body with
          | none => ub
          | some l => ok (some ((m : Int), (n : Int), (nnz : Int), l.map fun e => (e.1 - 1, e.2.1 - 1, e.2.2)))) := by
  obtain ⟨head, comments, size, rfl, ho, hh, hc, hos, hs⟩ := h
  unfold readUnsymmetric
  rw [readBanner_head hw3 hw4 hl3 hl4 h2 h3 ho hh, ok_bind]
  dsimp only
  rw [decide_eq_true rfl, decide_eq_true rfl, Bool.and_true, Bool.and_true]
  by_cases hR : c2 = 'R'
  · rw [if_neg (by simp [hR]), if_neg (by simp [hR]), readSize_header hc hos hs, ok_bind]
    dsimp only
    rw [Int.toNat_natCast]
    cases scanLines scanVal 1 nnz body <;> rfl
  · rw [if_pos (by simp [hR]), if_pos hR]

/-! ### C131: reading -/

/-- **C131.** `mm_read_mtx_crd` returns the numbers of the file as they stand there, indices counted from 1. -/
theorem C131_read {W : V → Text → Prop} {scanVal : Text → Scan V} (hW : ScanOk W scanVal) {arith shape : Text} {k : Nat}
    (hk : Kind arith k) (hs : Shape shape) (hx : ¬ Excluded arith shape) {m n : Nat} {es : List (Int × Int × List V)}
    {txt body rest : Text} (h : Head arith shape m n es.length txt body) (hb : Lines W k rest es body) (fuel : Nat) :
    ∃ code, readCrd scanVal fuel txt = ok (some ⟨code, m, n, es.length, some es⟩) ∧
      arithCode arith = some code.c2 ∧ shapeCode shape = some code.c3 := by
  obtain ⟨c3, s1, s2, s3, s4, s5⟩ := shape_code hs
  obtain ⟨c2, a1, a2, a3, a4, a5, a6⟩ := arith_code hk
  refine ⟨⟨'M', 'C', c2, c3⟩, ?_, a1, s1⟩
  rw [readCrd_head a2 s2 a3 s3 a1 s1 h, if_neg, a6]
  · dsimp only
    rw [scanLines_body hW hb]
  · unfold Excluded at hx
    rw [← s4, ← s5, ← a5] at hx
    have hreal : c2 = 'R' → arith ≠ "complex".toList := fun e => by rw [a4.1 e]; decide
    have hpat : c2 = 'P' → arith ≠ "complex".toList := fun e => by rw [a5.1 e]; decide
    unfold isValid
    rw [if_neg (by simp), if_neg (by simp), if_neg (fun ⟨a, b⟩ => hx (.inl ⟨b, hreal a⟩)),
      if_neg (fun ⟨a, b⟩ => b.elim (fun b => hx (.inl ⟨b, hpat a⟩)) fun b => hx (.inr ⟨b, a⟩))]
    decide

/-- **C131.** Shapes that the format excludes are rejected. -/
theorem C131_rejects {arith shape : Text} {k : Nat} (hk : Kind arith k) (hs : Shape shape) (hx : Excluded arith shape)
    {m n nnz : Nat} {txt body : Text} (h : Head arith shape m n nnz txt body) (scanVal : Text → Scan V) (fuel : Nat) :
    readCrd scanVal fuel txt = ok none := by
  obtain ⟨c3, s1, s2, s3, s4, s5⟩ := shape_code hs
  obtain ⟨c2, a1, a2, a3, a4, a5, a6⟩ := arith_code hk
  rw [readCrd_head a2 s2 a3 s3 a1 s1 h, if_pos]
  have hkind : arith ≠ "complex".toList → c2 = 'R' ∨ c2 = 'P' := by
    intro hne
    rcases hk with ⟨e, -⟩ | ⟨e, -⟩ | ⟨e, -⟩
    · exact .inl (a4.2 e)
    · exact absurd e hne
    · exact .inr (a5.2 e)
  unfold isValid
  rw [if_neg (by simp), if_neg (by simp)]
  rcases hx with ⟨e, hne⟩ | ⟨e, hp⟩
  · have hH := s4.2 e
    rcases hkind hne with hr | hp
    · rw [if_pos ⟨hr, hH⟩]
    · rw [if_neg (by rw [hp]; simp), if_pos ⟨hp, .inl hH⟩]
  · rw [if_neg (by rw [a5.2 hp]; simp), if_pos ⟨a5.2 hp, .inr (s5.2 e)⟩]

/-- **C131** (finding): for a file with integers, `mm_read_mtx_crd` returns 0, but stores nothing in the arrays, whatever
the file holds. -/
theorem C131_integer_unfilled {shape : Text} (hs : Shape shape) {m n nnz : Nat} {txt body : Text}
    (h : Head "integer".toList shape m n nnz txt body) (scanVal : Text → Scan V) (fuel : Nat) :
    ∃ code, readCrd scanVal fuel txt = ok (some ⟨code, m, n, nnz, none⟩) := by
  obtain ⟨c3, s1, s2, s3, s4, s5⟩ := shape_code hs
  refine ⟨⟨'M', 'C', 'I', c3⟩, ?_⟩
  rw [readCrd_head (c2 := 'I') (by unfold Word; decide) s2 (by decide) s3 (by decide) s1 h, if_neg (by simp [isValid])]
  rfl

/-- **C131.** A file that ends too early is an error for `mm_read_mtx_crd`; (finding) `mm_read_unsymmetric_sparse` computes
with indeterminate values. -/
theorem C131_short {W : V → Text → Prop} {scanVal : Text → Scan V} (hW : ScanOk W scanVal) {shape : Text}
    (hs : Shape shape) (hx : shape ≠ "hermitian".toList) {m n nnz : Nat} {es : List (Int × Int × List V)}
    {txt body rest : Text} (h : Head "real".toList shape m n nnz txt body) (hb : Lines W 1 rest es body)
    (hr : Blanks rest) (hlt : es.length < nnz) (fuel : Nat) :
    readCrd scanVal fuel txt = ok none ∧ readUnsymmetric scanVal fuel txt = ub := by
  obtain ⟨c3, s1, s2, s3, s4, s5⟩ := shape_code hs
  have hsc := (scanLines_short hW hr hb hlt).1
  constructor
  · rw [readCrd_head (c2 := 'R') (by unfold Word; decide) s2 (by decide) s3 (by decide) s1 h, if_neg]
    · show (match scanLines scanVal 1 nnz body with
        | none => ok none
        | some l => ok (some ⟨⟨'M', 'C', 'R', c3⟩, m, n, nnz, some l⟩) : Res (Option (Crd V))) = ok none
      rw [hsc]
    · have : c3 ≠ 'H' := fun e => hx (s4.1 e)
      simp [isValid, this]
  · rw [readUnsymmetric_head (c2 := 'R') (by unfold Word; decide) s2 (by decide) s3 (by decide) s1 h, if_neg (by decide), hsc]

/-- **C131.** `mm_read_unsymmetric_sparse` returns the numbers of a real file, indices counted from 0.  The shape has no
influence: of a symmetric matrix it returns the entries that are stored, and nothing tells the caller. -/
theorem C131_unsymmetric {W : V → Text → Prop} {scanVal : Text → Scan V} (hW : ScanOk W scanVal) {shape : Text}
    (hs : Shape shape) {m n : Nat} {es : List (Int × Int × List V)} {txt body rest : Text}
    (h : Head "real".toList shape m n es.length txt body) (hb : Lines W 1 rest es body) (fuel : Nat) :
    readUnsymmetric scanVal fuel txt
      = ok (some ((m : Int), (n : Int), (es.length : Int), es.map fun e => (e.1 - 1, e.2.1 - 1, e.2.2))) := by
  obtain ⟨c3, s1, s2, s3, s4, s5⟩ := shape_code hs
  rw [readUnsymmetric_head (c2 := 'R') (by unfold Word; decide) s2 (by decide) s3 (by decide) s1 h, if_neg (by decide),
    scanLines_body hW hb]

/-- **C131.** It rejects complex matrices and patterns. -/
theorem C131_unsymmetric_rejects {arith shape : Text} {k : Nat} (hk : Kind arith k) (h1 : k ≠ 1) (hs : Shape shape)
    {m n nnz : Nat} {txt body : Text} (h : Head arith shape m n nnz txt body) (scanVal : Text → Scan V) (fuel : Nat) :
    readUnsymmetric scanVal fuel txt = ok none := by
  obtain ⟨c3, s1, s2, s3, s4, s5⟩ := shape_code hs
  obtain ⟨c2, a1, a2, a3, a4, a5, a6⟩ := arith_code hk
  rw [readUnsymmetric_head a2 s2 a3 s3 a1 s1 h, if_pos]
  intro e
  rcases hk with ⟨e', e1⟩ | ⟨e', -⟩ | ⟨e', -⟩
  · exact h1 e1
  · rw [a4] at e; rw [e] at e'; exact absurd e' (by decide)
  · rw [a4] at e; rw [e] at e'; exact absurd e' (by decide)

/-! ### C131: writing -/

/-- The values of entry `i`. -/
def valuesAt (k : Nat) (val : List V) (i : Nat) : List V := (val.drop (k * i)).take k

/-- The arrays as a list of entries. -/
def entriesOf (k nz : Nat) (I J : List Int) (val : List V) : List (Int × Int × List V) :=
  (List.range nz).map fun i => (I.getD i 0, J.getD i 0, valuesAt k val i)

/-- What is written for an entry. -/
def outLine (fmt : V → Text) (e : Int × Int × List V) : Text :=
  intText e.1 ++ ' ' :: intText e.2.1 ++ e.2.2.flatMap (fun v => ' ' :: fmt v) ++ ['\n']

theorem flatMap_get (l : List V) (a k : Nat) :
    (List.range k).flatMap (fun j => l[a + j]?.toList) = (l.drop a).take k := by
  induction k with
  | zero => rfl
  | succ k ih =>
    rw [List.range_succ, List.flatMap_append, ih, List.take_add_one, List.getElem?_drop]
    simp

theorem writeLine_eq (fmt : V → Text) {k i nz : Nat} {I J : List Int} {val : List V} (hI : nz ≤ I.length)
    (hJ : nz ≤ J.length) (hv : k * nz ≤ val.length) (hi : i < nz) (s : Text) :
    writeLine fmt k I J val i s = ok (s ++ outLine fmt (I.getD i 0, J.getD i 0, valuesAt k val i)) := by
  have hki : k * i + k ≤ val.length := by
    have : k * i + k = k * (i + 1) := by rw [Nat.mul_succ]
    have := Nat.mul_le_mul_left k (show i + 1 ≤ nz from hi)
    omega
  unfold writeLine
  rw [rd_getD 0 (by omega), ok_bind, rd_getD 0 (by omega), ok_bind]
  rw [forRange_append (fun j => (val[k * i + j]?.toList).flatMap (fun v => ' ' :: fmt v)) (Nat.zero_le _), ok_bind]
  · congr 1
    unfold outLine valuesAt
    have : (List.range' 0 (k - 0)).flatMap (fun j => (val[k * i + j]?.toList).flatMap (fun v => ' ' :: fmt v))
        = ((val.drop (k * i)).take k).flatMap (fun v => ' ' :: fmt v) := by
      rw [← List.flatMap_assoc, Nat.sub_zero, ← List.range_eq_range', flatMap_get]
    rw [this]
    simp only [List.append_assoc]
  · intro j acc _ hj
    have : k * i + j < val.length := by omega
    unfold rd
    rw [List.getElem?_eq_getElem this]
    simp [ok_bind]

/-- The entries, with values as they can be read back. -/
def rounded (round : V → V) (e : Int × Int × List V) : Int × Int × List V := (e.1, e.2.1, e.2.2.map round)

theorem signed_intText (v : Int) : Signed v (intText v) := by
  unfold intText
  split
  · exact .inr ⟨v.natAbs, decimal v.natAbs, by omega, rfl, decimal_numeral _⟩
  · exact .inl ⟨v.natAbs, by omega, decimal_numeral _⟩

theorem vals_out {W : V → Text → Prop} {fmt : V → Text} {round : V → V} (hf : FmtOk W fmt round) (vs : List V) :
    Vals W (vs.map round) (vs.flatMap fun v => ' ' :: fmt v) := by
  induction vs with
  | nil => exact .nil
  | cons v vs ih =>
    obtain ⟨pad, t, h1, h2, h3⟩ := hf v
    have hg : Gap (' ' :: pad) := ⟨by simp, by
      intro c hc
      rcases List.mem_cons.1 hc with rfl | hc
      · rfl
      · exact h2 c hc⟩
    have := Vals.cons hg h3 ih
    rw [List.map_cons, List.flatMap_cons, h1]
    simpa using this

theorem lines_out {W : V → Text → Prop} {fmt : V → Text} {round : V → V} (hf : FmtOk W fmt round) {k : Nat}
    (es : List (Int × Int × List V)) (hl : ∀ e ∈ es, e.2.2.length = k) :
    ∀ w, Blanks w → ∃ rest, Blanks rest ∧ Lines W k rest (es.map (rounded round)) (w ++ es.flatMap (outLine fmt)) := by
  induction es with
  | nil => intro w hw; exact ⟨w, hw, by rw [List.flatMap_nil, List.append_nil]; exact .nil⟩
  | cons e es ih =>
    intro w hw
    obtain ⟨rest, h1, h2⟩ := ih (fun d hd => hl d (List.mem_cons_of_mem _ hd)) ['\n'] gap_newline.2
    refine ⟨rest, h1, ?_⟩
    have := Lines.cons (i := e.1) (j := e.2.1) hw (signed_intText e.1) gap_space (signed_intText e.2.1)
      (by rw [List.length_map]; exact hl e List.mem_cons_self) (vals_out hf e.2.2) (ends_newline _) h2
    rw [List.map_cons, List.flatMap_cons]
    simpa [outLine, rounded] using this

/-- The first line. -/
theorem head_out {arith shape : Text} {k : Nat} (hk : Kind arith k) (hs : Shape shape) {c : Code} (h0 : c.c0 = 'M')
    (h1 : c.c1 = 'C') (h2 : arithCode arith = some c.c2) (h3 : shapeCode shape = some c.c3) :
    kind c = some k ∧ ∃ str, codeStr c = some str ∧ OneLine ("%%MatrixMarket ".toList ++ str) ∧
      HeadLine "coordinate".toList arith shape ("%%MatrixMarket ".toList ++ str) := by
  obtain ⟨c0, c1, c2, c3⟩ := c
  dsimp only at h0 h1 h2 h3
  subst h0 h1
  have hH : HeadLine "coordinate".toList arith shape ("%%MatrixMarket ".toList ++
      ("matrix ".toList ++ "coordinate".toList ++ ' ' :: arith ++ ' ' :: shape)) := by
    refine ⟨"matrix".toList, "coordinate".toList, arith, shape, ⟨[], [' '], [' '], [' '], [' '], [], ?_, Blanks.nil, gap_space,
      gap_space, gap_space, gap_space, Ends.nil⟩, by decide, by decide, ?_, ?_⟩
    · simp
    · rcases hk with ⟨rfl, -⟩ | ⟨rfl, -⟩ | ⟨rfl, -⟩ <;> decide
    · rcases hs with rfl | rfl | rfl | rfl <;> decide
  have key : kind ⟨'M', 'C', c2, c3⟩ = some k ∧
      codeStr ⟨'M', 'C', c2, c3⟩ = some ("matrix ".toList ++ "coordinate".toList ++ ' ' :: arith ++ ' ' :: shape) ∧
      OneLine ("%%MatrixMarket ".toList ++ ("matrix ".toList ++ "coordinate".toList ++ ' ' :: arith ++ ' ' :: shape)) := by
    rcases hk with ⟨rfl, rfl⟩ | ⟨rfl, rfl⟩ | ⟨rfl, rfl⟩ <;> rcases hs with rfl | rfl | rfl | rfl <;>
      (simp [arithCode] at h2; simp [shapeCode] at h3; subst h2 h3
       exact ⟨rfl, by decide, by unfold OneLine; decide⟩)
  exact ⟨key.1, _, key.2.1, key.2.2, hH⟩

/-- **C131.** `mm_write_mtx_crd` writes a Matrix Market text of the arrays it is given; the indices are written as they
are. -/
theorem C131_write {W : V → Text → Prop} {fmt : V → Text} {round : V → V} (hf : FmtOk W fmt round) {arith shape : Text}
    {k : Nat} (hk : Kind arith k) (hs : Shape shape) {c : Code} (h0 : c.c0 = 'M') (h1 : c.c1 = 'C')
    (h2 : arithCode arith = some c.c2) (h3 : shapeCode shape = some c.c3) {m n nz : Nat} (hm : m < 2 ^ 31)
    (hn : n < 2 ^ 31) (hz : nz < 2 ^ 31) {I J : List Int} {val : List V} (hI : nz ≤ I.length) (hJ : nz ≤ J.length)
    (hv : k * nz ≤ val.length) :
    ∃ txt body rest, writeCrd fmt c m n nz I J val = ok (txt, true) ∧ Head arith shape m n nz txt body ∧
      Lines W k rest ((entriesOf k nz I J val).map (rounded round)) body := by
  obtain ⟨e1, str, e2, e3, e4⟩ := head_out hk hs h0 h1 h2 h3
  obtain ⟨rest, -, r2⟩ := lines_out hf (entriesOf k nz I J val) (k := k) (by
    intro e he
    obtain ⟨i, hi, rfl⟩ := List.mem_map.1 he
    rw [List.mem_range] at hi
    have : k * i + k = k * (i + 1) := by rw [Nat.mul_succ]
    have := Nat.mul_le_mul_left k (show i + 1 ≤ nz from hi)
    simp only [valuesAt, List.length_take, List.length_drop]
    omega) [] Blanks.nil
  refine ⟨"%%MatrixMarket ".toList ++ str ++ ['\n'] ++ sizeText m n nz ++ (List.range' 0 (nz - 0)).flatMap (fun i =>
    outLine fmt (I.getD i 0, J.getD i 0, valuesAt k val i)), _, rest, ?_, ?_, r2⟩
  · unfold writeCrd
    rw [e2]
    dsimp only
    rw [e1]
    dsimp only
    rw [forRange_append (fun i => outLine fmt (I.getD i 0, J.getD i 0, valuesAt k val i)) (Nat.zero_le _)
      (fun i acc _ hi => writeLine_eq fmt hI hJ hv hi acc), ok_bind]
  · refine ⟨_, [], sizeLine m n nz, ?_, e3, e4, by simp, ?_, ?_⟩
    · rw [sizeText_eq, Nat.sub_zero, ← List.range_eq_range']
      simp [entriesOf, List.flatMap_map]
    · exact sizeLine_oneLine (indent := []) (by simp) (by simp) hm hn hz
    · exact sizeLine_spec (indent := []) Blanks.nil m n nz

/-- **C131.** What `mm_write_mtx_crd` writes, `mm_read_mtx_crd` reads back: the same arrays, up to the rounding of the
output format. -/
theorem C131_round_trip {W : V → Text → Prop} {scanVal : Text → Scan V} (hW : ScanOk W scanVal) {fmt : V → Text}
    {round : V → V} (hf : FmtOk W fmt round) {arith shape : Text} {k : Nat} (hk : Kind arith k) (hs : Shape shape)
    (hx : ¬ Excluded arith shape) {c : Code} (h0 : c.c0 = 'M') (h1 : c.c1 = 'C')
    (h2 : arithCode arith = some c.c2) (h3 : shapeCode shape = some c.c3) {m n nz : Nat} (hm : m < 2 ^ 31)
    (hn : n < 2 ^ 31) (hz : nz < 2 ^ 31) {I J : List Int} {val : List V} (hI : nz ≤ I.length) (hJ : nz ≤ J.length)
    (hv : k * nz ≤ val.length) (fuel : Nat) :
    ∃ txt, writeCrd fmt c m n nz I J val = ok (txt, true) ∧
      readCrd scanVal fuel txt = ok (some ⟨c, m, n, nz, some ((entriesOf k nz I J val).map (rounded round))⟩) := by
  obtain ⟨txt, body, rest, w1, w2, w3⟩ := C131_write hf hk hs h0 h1 h2 h3 hm hn hz hI hJ hv
  have hlen : ((entriesOf k nz I J val).map (rounded round)).length = nz := by simp [entriesOf]
  rw [← hlen] at w2
  obtain ⟨code, r1, r2, r3⟩ := C131_read hW hk hs hx w2 w3 fuel
  refine ⟨txt, w1, ?_⟩
  have hcode : code = c := by
    have hc0 : code.c0 = 'M' ∧ code.c1 = 'C' := by
      obtain ⟨c3, s1, s2, s3, s4, s5⟩ := shape_code hs
      obtain ⟨c2, a1, a2, a3, a4, a5, a6⟩ := arith_code hk
      rw [readCrd_head a2 s2 a3 s3 a1 s1 w2, a6] at r1
      split at r1
      · cases r1
      · dsimp only at r1
        rw [scanLines_body hW w3] at r1
        cases r1
        exact ⟨rfl, rfl⟩
    obtain ⟨c0, c1, c2, c3⟩ := code
    obtain ⟨d0, d1, d2, d3⟩ := c
    dsimp only at *
    rw [h2] at r2
    rw [h3] at r3
    cases r2; cases r3
    rw [hc0.1, hc0.2, h0, h1]
  rw [r1, hcode, hlen]

/-- **C131** (finding): `mm_read_unsymmetric_sparse` of what `mm_write_mtx_crd` wrote has all indices one less: the writer
expects indices from 1, the reader gives indices from 0. -/
theorem C131_shift {W : V → Text → Prop} {scanVal : Text → Scan V} (hW : ScanOk W scanVal) {fmt : V → Text}
    {round : V → V} (hf : FmtOk W fmt round) {shape : Text} (hs : Shape shape) {c : Code} (h0 : c.c0 = 'M') (h1 : c.c1 = 'C')
    (h2 : c.c2 = 'R') (h3 : shapeCode shape = some c.c3) {m n nz : Nat} (hm : m < 2 ^ 31)
    (hn : n < 2 ^ 31) (hz : nz < 2 ^ 31) {I J : List Int} {val : List V} (hI : nz ≤ I.length) (hJ : nz ≤ J.length)
    (hv : nz ≤ val.length) (fuel : Nat) :
    ∃ txt, writeCrd fmt c m n nz I J val = ok (txt, true) ∧
      readUnsymmetric scanVal fuel txt = ok (some ((m : Int), (n : Int), (nz : Int),
        (List.range nz).map fun i => (I.getD i 0 - 1, J.getD i 0 - 1, (valuesAt 1 val i).map round))) := by
  obtain ⟨txt, body, rest, w1, w2, w3⟩ := C131_write hf (arith := "real".toList) (.inl ⟨rfl, rfl⟩) hs h0 h1
    (by rw [h2]; decide) h3 hm hn hz hI hJ (val := val) (by omega)
  have hlen : ((entriesOf 1 nz I J val).map (rounded round)).length = nz := by simp [entriesOf]
  rw [← hlen] at w2
  refine ⟨txt, w1, ?_⟩
  rw [C131_unsymmetric hW hs w2 w3 fuel, hlen]
  simp [entriesOf, rounded]

/-- **C131** (finding): `mm_write_banner`, `mm_write_mtx_crd_size` and `mm_write_mtx_array_size` write their line and report
that it could not be written, always. -/
theorem C131_return_codes (c : Code) (m n nz : Nat) :
    (∀ r, writeBanner c = ok r → r.2 = false) ∧ (writeSize m n nz).2 = false ∧ (writeArraySize m n).2 = false := by
  have hd : ∀ x, 1 ≤ (decimal x).length := fun x => List.length_pos_iff.2 (decimal_numeral x).1
  refine ⟨?_, ?_, ?_⟩
  · intro r hr
    unfold writeBanner at hr
    split at hr
    · cases hr
    · cases hr
      simp
  · have h1 := hd m
    have h2 := hd n
    have h3 := hd nz
    unfold writeSize sizeText
    simp only [decide_eq_false_iff_not, List.length_append, List.length_cons]
    omega
  · have h1 := hd m
    have h2 := hd n
    unfold writeArraySize
    simp only [decide_eq_false_iff_not, List.length_append, List.length_cons, List.length_nil]
    omega

/-- **C131** (finding): `mm_write_mtx_crd` writes the header of an integer matrix, no entries, and reports an error. -/
theorem C131_write_integer (fmt : V → Text) (c3 : Char) (h3 : c3 ∈ ['G', 'S', 'H', 'K']) (m n nz : Nat) (I J : List Int)
    (val : List V) : ∃ str, codeStr ⟨'M', 'C', 'I', c3⟩ = some str ∧
      writeCrd fmt ⟨'M', 'C', 'I', c3⟩ m n nz I J val
        = ok ("%%MatrixMarket ".toList ++ str ++ ['\n'] ++ sizeText m n nz, false) := by
  simp only [List.mem_cons, List.not_mem_nil, or_false] at h3
  rcases h3 with rfl | rfl | rfl | rfl <;> exact ⟨_, rfl, rfl⟩

/-! ### Examples -/

/-- `C131_round_trip` for two complex entries. -/
example := C131_round_trip scanInt_ok showInt_ok (k := 2) (.inr (.inl ⟨rfl, rfl⟩)) (.inr (.inr (.inl rfl))) (by
    unfold Excluded; decide) (c := ⟨'M', 'C', 'C', 'H'⟩) rfl rfl (by decide) (by decide) (m := 2) (n := 2) (nz := 2) (by decide)
  (by decide) (by decide) (I := [1, 2]) (J := [1, 1]) (val := [4, 0, -1, 7]) (by decide) (by decide) (by decide) 0

/-- `C131_shift` for indices counted from 0: the first index read is -1. -/
example : ∃ txt, writeCrd showInt ⟨'M', 'C', 'R', 'G'⟩ 2 2 2 [0, 1] [0, 1] [5, -6] = ok (txt, true) ∧
    readUnsymmetric scanInt 0 txt = ok (some (2, 2, 2, [(-1, -1, [5]), (0, 0, [-6])])) := by
  obtain ⟨txt, h1, h2⟩ := C131_shift scanInt_ok showInt_ok (.inl rfl) (c := ⟨'M', 'C', 'R', 'G'⟩) rfl rfl rfl (by decide)
    (m := 2) (n := 2) (nz := 2) (by decide) (by decide) (by decide) (I := [0, 1]) (J := [0, 1]) (val := [5, -6]) (by decide)
    (by decide) (by decide) 0
  exact ⟨txt, h1, h2⟩

/-- A file that promises `z` entries and has one. -/
def exText (arith shape : Text) (z : Nat) : Text :=
  "%%MatrixMarket matrix coordinate ".toList ++ arith ++ ' ' :: shape ++ '\n' :: (sizeLine 2 2 z ++ "\n2 1 -5\n".toList)

theorem exText_head {arith shape : Text} (ha : arith = "real".toList ∨ arith = "pattern".toList ∨ arith = "integer".toList)
    (hs : Shape shape) {z : Nat} (hz : z < 2 ^ 31) : Head arith shape 2 2 z (exText arith shape z) "2 1 -5\n".toList := by
  refine ⟨"%%MatrixMarket matrix coordinate ".toList ++ arith ++ ' ' :: shape, [], sizeLine 2 2 z, ?_, ?_, ?_, by simp,
    sizeLine_oneLine (indent := []) (by simp) (by simp) (by decide) (by decide) hz, sizeLine_spec (indent := []) Blanks.nil _ _ _⟩
  · unfold exText
    generalize "%%MatrixMarket matrix coordinate ".toList = a
    generalize sizeLine 2 2 z = b
    rw [List.flatMap_nil, List.nil_append]
    rfl
  · rcases ha with rfl | rfl | rfl <;> rcases hs with rfl | rfl | rfl | rfl <;> (unfold OneLine; decide)
  · refine ⟨"matrix".toList, "coordinate".toList, arith, shape, ⟨[], [' '], [' '], [' '], [' '], [], ?_, Blanks.nil, gap_space,
      gap_space, gap_space, gap_space, Ends.nil⟩, by decide, by decide, ?_, ?_⟩
    · simp
    · rcases ha with rfl | rfl | rfl <;> decide
    · rcases hs with rfl | rfl | rfl | rfl <;> decide

theorem exText_lines : Lines Signed 1 "\n".toList [(2, 1, [(-5 : Int)])] "2 1 -5\n".toList :=
  .cons (w := []) (s₁ := "2".toList) (g := [' ']) (s₂ := "1".toList) (u := [' '] ++ ("-5".toList ++ [])) (tail := "\n".toList)
    Blanks.nil (.inl ⟨2, rfl, num _ (by decide)⟩) gap_space (.inl ⟨1, rfl, num _ (by decide)⟩) rfl
    (.cons gap_space (.inr ⟨5, "5".toList, rfl, rfl, num _ (by decide)⟩) .nil) (ends_newline _) .nil

/-- `C131_read` and `C131_unsymmetric` for the file with one entry. -/
example := C131_read (es := [(2, 1, [(-5 : Int)])]) (W := Signed) scanInt_ok (.inl ⟨rfl, rfl⟩) (.inr (.inl rfl))
  (by unfold Excluded; decide) (exText_head (z := 1) (.inl rfl) (.inr (.inl rfl)) (by decide)) exText_lines 0

example : readUnsymmetric scanInt 0 (exText "real".toList "symmetric".toList 1) = ok (some (2, 2, 1, [(1, 0, [-5])])) :=
  C131_unsymmetric (es := [(2, 1, [(-5 : Int)])]) (W := Signed) scanInt_ok (.inr (.inl rfl))
    (exText_head (z := 1) (.inl rfl) (.inr (.inl rfl)) (by decide)) exText_lines 0

/-- `C131_short`: two entries promised. -/
example : readCrd scanInt 0 (exText "real".toList "general".toList 2) = ok none ∧
    readUnsymmetric scanInt 0 (exText "real".toList "general".toList 2) = ub :=
  C131_short (W := Signed) scanInt_ok (.inl rfl) (by decide) (nnz := 2) (es := [(2, 1, [(-5 : Int)])])
    (exText_head (z := 2) (.inl rfl) (.inl rfl) (by decide)) exText_lines gap_newline.2 (by decide) 0

/-- `C131_rejects`, `C131_unsymmetric_rejects` and `C131_integer_unfilled`. -/
example : readCrd scanInt 0 (exText "pattern".toList "skew-symmetric".toList 1) = ok none :=
  C131_rejects (.inr (.inr ⟨rfl, rfl⟩)) (.inr (.inr (.inr rfl))) (.inr ⟨rfl, rfl⟩)
    (exText_head (.inr (.inl rfl)) (.inr (.inr (.inr rfl))) (by decide)) scanInt 0

example : readUnsymmetric scanInt 0 (exText "pattern".toList "general".toList 1) = ok none :=
  C131_unsymmetric_rejects (.inr (.inr ⟨rfl, rfl⟩)) (by decide) (.inl rfl)
    (exText_head (.inr (.inl rfl)) (.inl rfl) (by decide)) scanInt 0

example : ∃ code, readCrd scanInt 0 (exText "integer".toList "general".toList 1) = ok (some ⟨code, 2, 2, 1, none⟩) :=
  C131_integer_unfilled (.inl rfl) (exText_head (.inr (.inr rfl)) (.inl rfl) (by decide)) scanInt 0

end Verif.Mmio
