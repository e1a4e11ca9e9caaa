import Verif.Proof.MtxStream
import Verif.Proof.SparseHalf

/-!
# The texts that are written are Matrix Market texts
-/

namespace Verif.Mtx
open Res Sp

/-! ### Decimal numbers -/

theorem digitChar_toNat {d : Nat} (h : d < 10) : (digitChar d).toNat = 48 + d := by
  have : ∀ d : Fin 10, (digitChar d.1).toNat = 48 + d.1 := by decide
  exact this ⟨d, h⟩

theorem digitChar_isDigit {d : Nat} (h : d < 10) : (digitChar d).isDigit = true := by
  rw [isDigit_iff, digitChar_toNat h]; omega

theorem numVal_append (a : Text) (c : Char) : numVal (a ++ [c]) = 10 * numVal a + (c.toNat - 48) := by
  unfold numVal
  rw [List.foldl_append]; rfl

theorem decimal_numeral (n : Nat) : Numeral (decimal n) n := by
  induction n using Nat.strongRecOn with
  | _ n ih =>
    rw [decimal]
    split
    · rename_i h
      refine ⟨by simp, ?_, ?_⟩
      · intro c hc
        rw [List.mem_singleton] at hc
        subst hc
        exact digitChar_isDigit h
      · rw [show [digitChar n] = [] ++ [digitChar n] from rfl, numVal_append, digitChar_toNat h]
        show 10 * 0 + _ = _
        omega
    · rename_i h
      obtain ⟨h1, h2, h3⟩ := ih (n / 10) (by omega)
      have hd : n % 10 < 10 := by omega
      refine ⟨by simp, ?_, ?_⟩
      · intro c hc
        rw [List.mem_append, List.mem_singleton] at hc
        rcases hc with hc | rfl
        · exact h2 c hc
        · exact digitChar_isDigit hd
      · rw [numVal_append, h3, digitChar_toNat hd]; omega

theorem decimal_length (k : Nat) : ∀ n, n < 10 ^ (k + 1) → (decimal n).length ≤ k + 1 := by
  induction k with
  | zero => intro n h; rw [decimal, if_pos (by omega)]; simp
  | succ k ih =>
    intro n h
    rw [decimal]
    split
    · simp
    · have := ih (n / 10) (by rw [Nat.pow_succ] at h; omega)
      rw [List.length_append, List.length_singleton]; omega

theorem decimal_short {n : Nat} (h : n < 2 ^ 31) : (decimal n).length ≤ 10 :=
  decimal_length 9 n (lt_of_lt_of_le h (by norm_num))

theorem decimal_newline (n : Nat) : '\n' ∉ decimal n := fun h => by
  have := (decimal_numeral n).2.1 _ h
  revert this; decide

theorem gap_space : Gap [' '] := ⟨by simp, fun c hc => by rw [List.mem_singleton] at hc; subst hc; rfl⟩

theorem gap_newline : Gap ['\n'] := ⟨by simp, fun c hc => by rw [List.mem_singleton] at hc; subst hc; rfl⟩

theorem Blanks.append {a b : Text} (ha : Blanks a) (hb : Blanks b) : Blanks (a ++ b) := by
  intro c hc
  rcases List.mem_append.1 hc with h | h
  · exact ha c h
  · exact hb c h

/-- The line with the sizes that is written. -/
def sizeLine (m n nnz : Nat) : Text := decimal m ++ ' ' :: decimal n ++ ' ' :: decimal nnz

theorem sizeText_eq (m n nnz : Nat) : sizeText m n nnz = sizeLine m n nnz ++ ['\n'] := rfl

theorem sizeLine_spec {indent : Text} (hi : Blanks indent) (m n nnz : Nat) :
    SizeLine m n nnz (indent ++ sizeLine m n nnz) := by
  refine ⟨indent, decimal m, [' '], decimal n, [' '], decimal nnz, [], ?_, hi, decimal_numeral m, gap_space,
    decimal_numeral n, gap_space, decimal_numeral nnz, Ends.nil⟩
  simp [sizeLine]

theorem sizeLine_oneLine {indent : Text} (hi : '\n' ∉ indent) (hl : indent.length ≤ 900) {m n nnz : Nat}
    (hm : m < 2 ^ 31) (hn : n < 2 ^ 31) (hz : nnz < 2 ^ 31) : OneLine (indent ++ sizeLine m n nnz) := by
  have h1 := decimal_short hm
  have h2 := decimal_short hn
  have h3 := decimal_short hz
  refine ⟨?_, ?_⟩
  · have e1 := decimal_newline m
    have e2 := decimal_newline n
    have e3 := decimal_newline nnz
    simp [sizeLine, hi, e1, e2, e3]
  · simp only [sizeLine, List.length_append, List.length_cons]
    omega

/-! ### The entries -/

variable {V : Type}

/-- What `fmt` writes for a value `v` is white space and a way to write `round v`. -/
def FmtOk (W : V → Text → Prop) (fmt : V → Text) (round : V → V) : Prop :=
  ∀ v, ∃ pad t, fmt v = pad ++ t ∧ Blanks pad ∧ W (round v) t

/-- One entry, without the end of the line. -/
def entryLine (fmt : V → Text) (indent : Text) (e : Nat × Nat × V) : Text :=
  indent ++ (decimal (e.1 + 1) ++ ' ' :: decimal (e.2.1 + 1) ++ ' ' :: fmt e.2.2)

/-- The entry as it can be read back. -/
def roundEntry (round : V → V) (e : Nat × Nat × V) : Nat × Nat × V := (e.1, e.2.1, round e.2.2)

theorem body_lines {W : V → Text → Prop} {fmt : V → Text} {round : V → V} (hf : FmtOk W fmt round) {indent : Text}
    (hi : Blanks indent) {ι : Type} (ent : ι → Nat × Nat × V) (sep : ι → Text) (l : List ι)
    (hb : ∀ e ∈ l, Blanks (sep e)) (hs : ∀ pre e post, l = pre ++ e :: post → post ≠ [] → Gap (sep e)) :
    ∀ w, Blanks w → ∃ rest, Blanks rest ∧ Body W rest (l.map fun e => roundEntry round (ent e))
      (w ++ l.flatMap fun e => entryLine fmt indent (ent e) ++ sep e) := by
  induction l with
  | nil => intro w hw; exact ⟨w, hw, by rw [List.flatMap_nil, List.append_nil]; exact .nil⟩
  | cons e l ih =>
    intro w hw
    have hse := hb e (List.mem_cons_self ..)
    obtain ⟨rest, hrest, ih'⟩ := ih (fun d hd => hb d (List.mem_cons_of_mem _ hd)) (fun pre d post h hne =>
      hs (e :: pre) d post (by rw [h]; rfl) hne) (sep e) hse
    obtain ⟨pad, t, hfe, hpad, hW⟩ := hf (ent e).2.2
    have hends : Ends (sep e ++ l.flatMap fun e => entryLine fmt indent (ent e) ++ sep e) := by
      cases l with
      | nil =>
        intro c hc
        rw [List.flatMap_nil, List.append_nil] at hc
        exact hse c (List.mem_of_mem_head? hc)
      | cons d l => exact (hs [] e (d :: l) rfl (by simp)).ends _
    have key := Body.cons (W := W) (r := (ent e).1) (c := (ent e).2.1) (w := w ++ indent) (g₁ := [' '])
      (g₂ := ' ' :: pad) (hw.append hi) (decimal_numeral _) gap_space (decimal_numeral _)
      ⟨by simp, fun c hc => by
        rcases List.mem_cons.1 hc with rfl | h
        · rfl
        · exact hpad c h⟩ hW hends ih'
    have e1 : w ++ (e :: l).flatMap (fun e => entryLine fmt indent (ent e) ++ sep e)
        = w ++ indent ++ (decimal ((ent e).1 + 1) ++ ([' '] ++ (decimal ((ent e).2.1 + 1) ++ (' ' :: pad ++ (t ++
          (sep e ++ l.flatMap fun e => entryLine fmt indent (ent e) ++ sep e)))))) := by
      rw [List.flatMap_cons]
      unfold entryLine
      rw [hfe]
      simp only [List.append_assoc, List.cons_append, List.nil_append]
    rw [e1]
    exact ⟨rest, hrest, key⟩

/-! ### The writers -/

variable [Zero V]

theorem cscToMtx_eq (fmt : V → Text) (nnz : Nat) {A : Sp V} (h : A.WF) :
    cscToMtx fmt nnz A = ok (bannerText ++ sizeText A.rows A.cols nnz
      ++ A.entries.flatMap fun e => entryLine fmt [] e ++ ['\n']) := by
  have hp := h.toPatWF
  have : wp (cscToMtx fmt nnz A) (fun s => s = bannerText ++ sizeText A.rows A.cols nnz
      ++ A.entries.flatMap fun e => entryLine fmt [] e ++ ['\n']) := by
    unfold cscToMtx
    refine wp_mono (forCols_wp hp (fun pre s => s = bannerText ++ sizeText A.rows A.cols nnz
      ++ (pre.map fun e => (e.1.1, e.1.2, A.x.getD e.2 0)).flatMap fun e => entryLine fmt [] e ++ ['\n']) ?_ ?_) ?_
    · simp
    · rintro pre post r c j s he hj hc hr rfl
      rw [rd_i hr, ok_bind, rd_x (e := ((r, c), j)) h he hj, ok_bind, wp_ok]
      simp [entryLine, entryText, eVal]
    · rintro s rfl
      rw [entries_eq h]
  obtain ⟨s, h1, rfl⟩ := wp_iff.1 this
  exact h1

theorem printCsc_eq (fmt : V → Text) (indent beg : Text) {A : Sp V} (h : A.WF) :
    printCsc fmt indent beg A = ok (indent ++ beg ++ ['\n'] ++ indent ++ sizeText A.rows A.cols (A.p.getD A.cols 0)
      ++ A.entries.flatMap fun e => entryLine fmt indent e ++ ['\n']) := by
  have hp := h.toPatWF
  have : wp (printCsc fmt indent beg A) (fun s => s = indent ++ beg ++ ['\n'] ++ indent
      ++ sizeText A.rows A.cols (A.p.getD A.cols 0)
      ++ A.entries.flatMap fun e => entryLine fmt indent e ++ ['\n']) := by
    unfold printCsc
    have hz : (if 0 < A.cols then rd A.p A.cols else ok 0) = ok (A.p.getD A.cols 0) := by
      split
      · exact rd_getD 0 (by rw [hp.plen]; omega)
      · rename_i h0
        rw [show A.cols = 0 by omega, hp.p0]
    rw [hz, ok_bind]
    refine wp_mono (forCols_wp hp (fun pre s => s = indent ++ beg ++ ['\n'] ++ indent
      ++ sizeText A.rows A.cols (A.p.getD A.cols 0)
      ++ (pre.map fun e => (e.1.1, e.1.2, A.x.getD e.2 0)).flatMap fun e => entryLine fmt indent e ++ ['\n']) ?_ ?_) ?_
    · simp
    · rintro pre post r c j s he hj hc hr rfl
      rw [rd_i hr, ok_bind, rd_x (e := ((r, c), j)) h he hj, ok_bind, wp_ok]
      simp [entryLine, eVal]
    · rintro s rfl
      rw [entries_eq h]
  obtain ⟨s, h1, rfl⟩ := wp_iff.1 this
  exact h1

theorem printCscFd_eq (fmt : V → Text) (beg : Text) {A : Sp V} (h : A.WF) :
    printCscFd fmt beg A = ok (beg ++ ['\n'] ++ sizeText A.cols A.cols (A.p.getD A.cols 0)
      ++ A.tagged.flatMap fun e => entryLine fmt [] (e.1.1, e.1.2, A.x.getD e.2 0)
        ++ (if e.2 + 1 ≠ A.p.getD A.cols 0 then ['\n'] else [])) := by
  have hp := h.toPatWF
  have : wp (printCscFd fmt beg A) (fun s => s = beg ++ ['\n']
      ++ sizeText A.cols A.cols (A.p.getD A.cols 0)
      ++ A.tagged.flatMap fun e => entryLine fmt [] (e.1.1, e.1.2, A.x.getD e.2 0)
        ++ (if e.2 + 1 ≠ A.p.getD A.cols 0 then ['\n'] else [])) := by
    unfold printCscFd
    have hz : (if 0 < A.cols then rd A.p A.cols else ok 0) = ok (A.p.getD A.cols 0) := by
      split
      · exact rd_getD 0 (by rw [hp.plen]; omega)
      · rename_i h0
        rw [show A.cols = 0 by omega, hp.p0]
    rw [hz, ok_bind]
    refine forCols_wp hp (fun pre s => s = beg ++ ['\n']
      ++ sizeText A.cols A.cols (A.p.getD A.cols 0)
      ++ pre.flatMap fun e => entryLine fmt [] (e.1.1, e.1.2, A.x.getD e.2 0)
        ++ (if e.2 + 1 ≠ A.p.getD A.cols 0 then ['\n'] else [])) ?_ ?_
    · simp
    · rintro pre post r c j s he hj hc hr rfl
      rw [rd_i hr, ok_bind, rd_x (e := ((r, c), j)) h he hj, ok_bind, rd_getD 0 (by rw [hp.plen]; omega), ok_bind,
        wp_ok]
      simp [entryLine, eVal]
  obtain ⟨s, h1, rfl⟩ := wp_iff.1 this
  exact h1

/-! ### They are Matrix Market texts -/

theorem HeadLine.indent {f a s l indent : Text} (hi : Blanks indent) (h : HeadLine f a s l) :
    HeadLine f a s (indent ++ l) := by
  obtain ⟨a₁, a₂, a₃, a₄, ⟨w, g₁, g₂, g₃, g₄, z, rfl, hw, h⟩, h'⟩ := h
  exact ⟨a₁, a₂, a₃, a₄, ⟨indent ++ w, g₁, g₂, g₃, g₄, z, by simp only [List.append_assoc], hi.append hw, h⟩, h'⟩

omit [Zero V] in
/-- A text made of a first line, a line with the sizes and lines with the entries. -/
theorem mtxText_lines {W : V → Text → Prop} {fmt : V → Text} {round : V → V} (hf : FmtOk W fmt round) {indent : Text}
    (hi : Blanks indent) (hi' : '\n' ∉ indent) (hl : indent.length ≤ 900) {sym : Bool} {arith beg : Text}
    (ha : arith = "real".toList ∨ arith = "integer".toList)
    (hbeg : HeadLine "coordinate".toList arith (if sym then "symmetric".toList else "general".toList) beg)
    (hbl : OneLine (indent ++ beg)) {m n : Nat} (hm : m < 2 ^ 31) (hn : n < 2 ^ 31)
    {ι : Type} (ent : ι → Nat × Nat × V) (sep : ι → Text) (l : List ι) (hz : l.length < 2 ^ 31)
    (hb : ∀ e ∈ l, Blanks (sep e)) (hs : ∀ pre e post, l = pre ++ e :: post → post ≠ [] → Gap (sep e)) :
    MtxText W sym m n (l.map fun e => roundEntry round (ent e))
      (indent ++ beg ++ ['\n'] ++ indent ++ sizeText m n l.length
        ++ l.flatMap fun e => entryLine fmt indent (ent e) ++ sep e) := by
  obtain ⟨rest, -, hbody⟩ := body_lines hf hi ent sep l hb hs [] Blanks.nil
  refine ⟨arith, l.flatMap fun e => entryLine fmt indent (ent e) ++ sep e, rest, ha, ?_, hbody⟩
  · refine ⟨indent ++ beg, [], indent ++ sizeLine m n l.length, ?_, hbl, hbeg.indent hi, by simp,
      sizeLine_oneLine hi' hl hm hn hz, by rw [List.length_map]; exact sizeLine_spec hi _ _ _⟩
    rw [sizeText_eq]
    simp

end Verif.Mtx
