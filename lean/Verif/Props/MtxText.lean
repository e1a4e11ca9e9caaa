import Verif.Proof.MtxBad
import Verif.Props.ReadMtx
import Verif.Props.Triplets
import Verif.Proof.P2PRun

/-!
# C115: Matrix Market files, character by character

`Spec/MtxText` says which texts are Matrix Market files of a matrix.  The two readers (`read_mtx`, with the C
library, and `read_mtx_csc_real`, with streams) return the matrix of the file; what the writers write is a file
of the matrix.  `W v t` says that the text `t` is a way to write the value `v`; `ScanOk` that the conversion of
the library reads all of them, `FmtOk` that the conversion for output writes one of the value `round v`.
-/

namespace Verif
open Res Sp Mtx

variable {V : Type}

/-! ### Reading -/

/-- **C115.** `read_mtx` returns the matrix of the file, if the entries are in the order of the columns and no
column is empty: comments, the case of the words, the white space and the way the numbers are written make no
difference. -/
theorem C115_read_mtx [Zero V] {W : V → Text → Prop} {scanVal : Text → Scan V} (hW : ScanOk W scanVal) {sym : Bool}
    {m n : Nat} {es : List (Nat × Nat × V)} {txt : Text} (h : MtxText W sym m n es txt) (hn : 0 < n)
    (hr : ∀ e ∈ es, e.1 < m ∧ e.2.1 < n) (hs : es.Pairwise fun a b => a.2.1 ≤ b.2.1)
    (hall : ∀ c, c < n → ∃ e ∈ es, e.2.1 = c) (fuel : Nat) :
    ∃ A, readMtxText scanVal fuel txt = ok (.matrix A (if sym then -1 else 0)) ∧
      A.WF ∧ A.Exact ∧ A.rows = m ∧ A.cols = n ∧ A.entries = es := by
  obtain ⟨A, h1, h2⟩ := C86_read hn (fun e he => (hr e he).1) (fun e he => (hr e he).2) hs hall
  exact ⟨A, by rw [readMtxText_eq hW h, h1, ok_bind], h2⟩

/-- **C115.** `read_mtx_csc_real` returns the matrix of the file, in whatever order its entries are: they are
sorted by column and row.  With `insert_diag` no column may be empty. -/
theorem C115_read_csc [Zero V] {W : V → Text → Prop} {scanVal : Text → Scan V} (hW : ScanOk W scanVal) (one : V)
    {sort : List (Util.Trip V) → List (Util.Trip V)} (hsort : ∀ l, (sort l).Perm l ∧ Util.TripSorted (sort l))
    (dbg insertDiag : Bool) {sym : Bool} {m n : Nat} {es : List (Nat × Nat × V)} {txt : Text}
    (h : MtxText W sym m n es txt) (hn : 0 < n) (hr : ∀ e ∈ es, e.1 < m ∧ e.2.1 < n)
    (hd : insertDiag = true → ∀ c, c < n → ∃ e ∈ es, e.2.1 = c) {fuel : Nat} (hf : txt.length ≤ fuel) :
    ∃ A, readMtxCsc scanVal one sort dbg insertDiag fuel txt = ok (.matrix A (if sym then -1 else 0)) ∧
      A.WF ∧ A.Exact ∧ A.rows = m ∧ A.cols = n ∧ A.entries.Perm es ∧ A.ColsSorted := by
  obtain ⟨A, h1, h2, h3, h4, h5, -, h6⟩ :=
    Util.C39_triplets_partial dbg insertDiag (hsort es).1 (hsort es).2 hn hr hd
  exact ⟨A, by rw [readMtxCsc_eq hW one sort dbg insertDiag h hf, h1, ok_bind], h2, h3, h4, h5, h6⟩

/-- **C115.** The same for a file with only the pattern: every value is 1. -/
theorem C115_read_pattern [Zero V] (scanVal : Text → Scan V) (one : V)
    {sort : List (Util.Trip V) → List (Util.Trip V)} (hsort : ∀ l, (sort l).Perm l ∧ Util.TripSorted (sort l))
    (dbg insertDiag : Bool) {sym : Bool} {m n : Nat} {es : List (Nat × Nat)} {txt body rest : Text}
    (h : Header "pattern".toList sym m n es.length txt body) (hb : PatBody rest es body)
    (hn : 0 < n) (hr : ∀ e ∈ es, e.1 < m ∧ e.2 < n)
    (hd : insertDiag = true → ∀ c, c < n → ∃ e ∈ es, e.2 = c) {fuel : Nat} (hf : txt.length ≤ fuel) :
    ∃ A, readMtxCsc scanVal one sort dbg insertDiag fuel txt = ok (.matrix A (if sym then -1 else 0)) ∧
      A.WF ∧ A.Exact ∧ A.rows = m ∧ A.cols = n ∧ A.entries.Perm (es.map fun e => (e.1, e.2, one)) ∧
      A.ColsSorted := by
  obtain ⟨l, hl⟩ : ∃ l, l = es.map fun e => (e.1, e.2, one) := ⟨_, rfl⟩
  obtain ⟨A, h1, h2, h3, h4, h5, -, h6⟩ :=
    Util.C39_triplets_partial dbg insertDiag (rows := m) (cols := n) (hsort l).1 (hsort l).2 hn (by
      rw [hl]
      intro t ht
      obtain ⟨e, he, rfl⟩ := List.mem_map.1 ht
      exact hr e he) (by
      rw [hl]
      intro hi c hc
      obtain ⟨e, he, h⟩ := hd hi c hc
      exact ⟨_, List.mem_map_of_mem he, h⟩)
  refine ⟨A, ?_, h2, h3, h4, h5, hl ▸ h6⟩
  rw [readMtxCsc_pattern scanVal one sort dbg insertDiag h hb hf, ← hl]
  rw [hl, List.length_map, ← hl] at h1
  rw [h1, ok_bind]

theorem sorted_key_inj {es : List (Nat × Nat × V)}
    (hs : es.Pairwise fun a b => a.2.1 < b.2.1 ∨ (a.2.1 = b.2.1 ∧ a.1 < b.1)) {a b : Nat × Nat × V}
    (ha : a ∈ es) (hb : b ∈ es) (hk : a.2.1 = b.2.1 ∧ a.1 = b.1) : a = b := by
  induction es with
  | nil => simp at ha
  | cons e es ih =>
    rw [List.pairwise_cons] at hs
    rcases List.mem_cons.1 ha with e1 | ha'
    · rcases List.mem_cons.1 hb with e2 | hb'
      · rw [e1, e2]
      · have := hs.1 b hb'; rw [← e1] at this; omega
    · rcases List.mem_cons.1 hb with e2 | hb'
      · have := hs.1 a ha'; rw [← e2] at this; omega
      · exact ih hs.2 ha' hb'

theorem entries_strict {A : Sp V} (hs : A.ColsSorted) (hd : A.NoDup) :
    A.entries.Pairwise fun a b => a.2.1 < b.2.1 ∨ (a.2.1 = b.2.1 ∧ a.1 < b.1) := by
  unfold entries
  refine List.pairwise_flatMap.2 ⟨?_, ?_⟩
  · intro c hc
    have hc' := List.mem_range.1 hc
    refine List.pairwise_map.2 ?_
    have h1 : (A.colRows c).Pairwise (· < ·) := by
      have := (hs c hc').and (hd c hc')
      exact this.imp fun h => by omega
    have h2 : ((A.colRows c).zip (A.colVals c)).Pairwise fun a b => a.1 < b.1 := by
      generalize A.colRows c = l at h1
      generalize A.colVals c = k
      induction l generalizing k with
      | nil => simp
      | cons a l ih =>
        cases k with
        | nil => simp
        | cons b k =>
          rw [List.zip_cons_cons, List.pairwise_cons]
          rw [List.pairwise_cons] at h1
          exact ⟨fun x hx => h1.1 _ (List.of_mem_zip hx).1, ih h1.2 k⟩
    exact h2.imp fun h => .inr ⟨rfl, h⟩
  · refine List.pairwise_lt_range.imp ?_
    intro c d hcd x hx y hy
    obtain ⟨_, _, rfl⟩ := List.mem_map.1 hx
    obtain ⟨_, _, rfl⟩ := List.mem_map.1 hy
    exact .inl hcd

/-- **C115.** The two readers agree on a file whose entries are sorted by column and row, without an empty
column and without two entries at the same place. -/
theorem C115_readers_agree [Zero V] {W : V → Text → Prop} {scanVal : Text → Scan V} (hW : ScanOk W scanVal) (one : V)
    {sort : List (Util.Trip V) → List (Util.Trip V)} (hsort : ∀ l, (sort l).Perm l ∧ Util.TripSorted (sort l))
    (dbg insertDiag : Bool) {sym : Bool} {m n : Nat} {es : List (Nat × Nat × V)} {txt : Text}
    (h : MtxText W sym m n es txt) (hn : 0 < n) (hr : ∀ e ∈ es, e.1 < m ∧ e.2.1 < n)
    (hs : es.Pairwise fun a b => a.2.1 < b.2.1 ∨ (a.2.1 = b.2.1 ∧ a.1 < b.1))
    (hall : ∀ c, c < n → ∃ e ∈ es, e.2.1 = c) {fuel : Nat} (hf : txt.length ≤ fuel) :
    readMtxCsc scanVal one sort dbg insertDiag fuel txt = readMtxText scanVal fuel txt := by
  obtain ⟨A, h1, h2, h3, h4, h5, h6⟩ := C115_read_mtx hW h hn hr (hs.imp fun h => by omega) hall fuel
  obtain ⟨B, k1, k2, k3, k4, k5, k6, -, -⟩ :=
    Util.C39_triplets_partial dbg insertDiag (hsort es).1 (hsort es).2 hn hr (fun _ => hall)
  have hse : sort es = es := by
    refine List.Perm.eq_of_pairwise
      (le := fun a b : Nat × Nat × V => a.2.1 < b.2.1 ∨ (a.2.1 = b.2.1 ∧ a.1 ≤ b.1)) ?_
      (hsort es).2 (hs.imp fun h => by omega) (hsort es).1
    intro a b ha hb hab hba
    exact sorted_key_inj hs ((hsort es).1.mem_iff.1 ha) hb (by omega)
  rw [h1, readMtxCsc_eq hW one sort dbg insertDiag h hf, k1, ok_bind]
  rw [ext_entries h2 k2 h3 k3 (h4.trans k4.symm) (h5.trans k5.symm) (by rw [h6, k6, hse])]

/-! ### Writing -/

theorem entries_mem [Zero V] {A : Sp V} (h : A.WF) {e : Nat × Nat × V} (he : e ∈ A.entries) :
    e.1 < A.rows ∧ e.2.1 < A.cols := by
  unfold entries at he
  obtain ⟨c, hc, h1⟩ := List.mem_flatMap.1 he
  obtain ⟨d, hd, rfl⟩ := List.mem_map.1 h1
  have hc' := List.mem_range.1 hc
  exact ⟨h.range c hc' _ (List.of_mem_zip hd).1, hc'⟩

theorem entries_cols_sorted (A : Sp V) : A.entries.Pairwise fun a b => a.2.1 ≤ b.2.1 := by
  unfold entries
  refine List.pairwise_flatMap.2 ⟨?_, ?_⟩
  · intro c _
    refine List.pairwise_map.2 ?_
    exact List.pairwise_of_forall fun _ _ => Nat.le_refl _
  · refine List.pairwise_lt_range.imp ?_
    intro c d hcd x hx y hy
    obtain ⟨_, _, rfl⟩ := List.mem_map.1 hx
    obtain ⟨_, _, rfl⟩ := List.mem_map.1 hy
    exact Nat.le_of_lt hcd

theorem entries_count [Zero V] {A : Sp V} (h : A.WF) : A.entries.length = A.p.getD A.cols 0 := by
  rw [entries_eq h, List.length_map, tagged_length h.toPatWF]

theorem round_id (es : List (Nat × Nat × V)) : es.map (roundEntry id) = es := List.map_id _

theorem newline_sep {ι : Type} (l : List ι) :
    (∀ e ∈ l, Blanks ((fun _ => ['\n'] : ι → Text) e)) ∧
    ∀ pre e post, l = pre ++ e :: post → post ≠ [] → Gap ((fun _ => ['\n'] : ι → Text) e) :=
  ⟨fun _ _ => gap_newline.2, fun _ _ _ _ _ => gap_newline⟩

/-- **C115.** `CSC_to_mtx` writes a Matrix Market file of the matrix, with rounded values.  The file says
`general`, whatever the matrix is. -/
theorem C115_csc_to_mtx [Zero V] {W : V → Text → Prop} {fmt : V → Text} {round : V → V} (hf : FmtOk W fmt round)
    {A : Sp V} (h : A.WF) (hr : A.rows < 2 ^ 31) (hc : A.cols < 2 ^ 31) (hz : A.p.getD A.cols 0 < 2 ^ 31) :
    ∃ txt, cscToMtx fmt (A.p.getD A.cols 0) A = ok txt ∧
      MtxText W false A.rows A.cols (A.entries.map fun e => (e.1, e.2.1, round e.2.2)) txt := by
  refine ⟨_, cscToMtx_eq fmt _ h, ?_⟩
  have hl := entries_count h
  have key := mtxText_lines (V := V) hf (indent := []) Blanks.nil (by simp) (by simp) (sym := false) (arith := "real".toList)
    (beg := "%%MatrixMarket matrix coordinate real general".toList) (.inl rfl)
    ⟨"matrix".toList, "coordinate".toList, "real".toList, "general".toList,
      ⟨[], [' '], [' '], [' '], [' '], [], by decide, Blanks.nil, gap_space, gap_space, gap_space, gap_space,
        Ends.nil⟩, by decide, by decide, by decide, by decide⟩
    (by unfold OneLine; decide) hr hc id (fun _ => ['\n']) A.entries (by rw [hl]; exact hz)
    (newline_sep _).1 (newline_sep _).2
  rw [hl] at key
  have hb : bannerText = [] ++ "%%MatrixMarket matrix coordinate real general".toList ++ ['\n'] ++ [] := by decide
  rw [hb]
  exact key

/-- **C115.** `print_csc_templated` writes a Matrix Market file of the matrix, if the first line (the default is
a symmetric matrix of real numbers) and the indentation are right. -/
theorem C115_print_csc [Zero V] {W : V → Text → Prop} {fmt : V → Text} {round : V → V} (hf : FmtOk W fmt round)
    {A : Sp V} (h : A.WF) (hr : A.rows < 2 ^ 31) (hc : A.cols < 2 ^ 31) (hz : A.p.getD A.cols 0 < 2 ^ 31)
    {indent beg arith : Text} {sym : Bool} (hi : Blanks indent) (hi' : '\n' ∉ indent) (hl : indent.length ≤ 900)
    (ha : arith = "real".toList ∨ arith = "integer".toList)
    (hb : HeadLine "coordinate".toList arith (if sym then "symmetric".toList else "general".toList) beg)
    (hbl : OneLine (indent ++ beg)) :
    ∃ txt, printCsc fmt indent beg A = ok txt ∧
      MtxText W sym A.rows A.cols (A.entries.map fun e => (e.1, e.2.1, round e.2.2)) txt := by
  refine ⟨_, printCsc_eq fmt indent beg h, ?_⟩
  have hl' := entries_count h
  have key := mtxText_lines (V := V) hf hi hi' hl ha hb hbl hr hc id (fun _ => ['\n']) A.entries
    (by rw [hl']; exact hz) (newline_sep _).1 (newline_sep _).2
  rw [hl'] at key
  exact key

/-- **C115.** `print_csc` does so for a square matrix; after the last entry the line is not ended. -/
theorem C115_print_csc_fd [Zero V] {W : V → Text → Prop} {fmt : V → Text} {round : V → V} (hf : FmtOk W fmt round)
    {A : Sp V} (h : A.WF) (hsq : A.rows = A.cols) (hc : A.cols < 2 ^ 31) (hz : A.p.getD A.cols 0 < 2 ^ 31)
    {beg arith : Text} {sym : Bool} (ha : arith = "real".toList ∨ arith = "integer".toList)
    (hb : HeadLine "coordinate".toList arith (if sym then "symmetric".toList else "general".toList) beg)
    (hbl : OneLine beg) :
    ∃ txt, printCscFd fmt beg A = ok txt ∧
      MtxText W sym A.rows A.cols (A.entries.map fun e => (e.1, e.2.1, round e.2.2)) txt := by
  refine ⟨_, printCscFd_eq fmt beg h, ?_⟩
  have hl' := tagged_length h.toPatWF
  have key := mtxText_lines (V := V) hf (indent := []) Blanks.nil (by simp) (by simp) ha hb hbl
    (show A.cols < 2 ^ 31 from hc) hc
    (fun e : (Nat × Nat) × Nat => (e.1.1, e.1.2, A.x.getD e.2 0))
    (fun e => if e.2 + 1 ≠ A.p.getD A.cols 0 then ['\n'] else []) A.tagged
    (by rw [hl']; exact hz) (by
      intro e _
      split
      · exact gap_newline.2
      · exact Blanks.nil) (by
      intro pre e post he hne
      have hj : A.tagged[pre.length]? = some e := by
        rw [he, List.getElem?_append_right (Nat.le_refl _), Nat.sub_self]; rfl
      have hidx : e.2 = pre.length := by
        unfold tagged at hj
        rw [List.getElem?_zipIdx] at hj
        cases hcc : A.coords[pre.length]? with
        | none => rw [hcc] at hj; simp at hj
        | some x => rw [hcc] at hj; simp at hj; rw [← hj]
      have hlen : A.tagged.length = pre.length + 1 + post.length := by rw [he]; simp; omega
      have : 0 < post.length := List.length_pos_iff.2 hne
      rw [if_pos (by omega)]
      exact gap_newline)
  rw [hl'] at key
  rw [hsq, entries_eq h, List.map_map]
  simp only [List.nil_append, List.append_nil] at key
  exact key

/-! ### There and back -/

/-- **C115.** A matrix without an empty column that is written by `CSC_to_mtx` and read by `read_mtx` comes back,
with the same entries in the same order and rounded values, but always as a general matrix. -/
theorem C115_round_trip [Zero V] {W : V → Text → Prop} {scanVal : Text → Scan V} (hW : ScanOk W scanVal)
    {fmt : V → Text} {round : V → V} (hf : FmtOk W fmt round)
    {A : Sp V} (h : A.WF) (h0 : 0 < A.cols) (hr : A.rows < 2 ^ 31) (hc : A.cols < 2 ^ 31)
    (hz : A.p.getD A.cols 0 < 2 ^ 31) (hall : ∀ c, c < A.cols → ∃ e ∈ A.entries, e.2.1 = c) (fuel : Nat) :
    ∃ txt B, cscToMtx fmt (A.p.getD A.cols 0) A = ok txt ∧
      readMtxText scanVal fuel txt = ok (.matrix B 0) ∧ B.WF ∧ B.Exact ∧ B.rows = A.rows ∧ B.cols = A.cols ∧
      B.entries = A.entries.map fun e => (e.1, e.2.1, round e.2.2) := by
  obtain ⟨txt, h1, h2⟩ := C115_csc_to_mtx hf h hr hc hz
  obtain ⟨B, h3⟩ := C115_read_mtx hW h2 h0 (by
      intro e he
      obtain ⟨d, hd, rfl⟩ := List.mem_map.1 he
      exact entries_mem (e := d) h hd) (List.pairwise_map.2 (entries_cols_sorted A)) (by
      intro c hc
      obtain ⟨e, he, h⟩ := hall c hc
      exact ⟨_, List.mem_map_of_mem he, h⟩) fuel
  exact ⟨txt, B, h1, h3⟩

/-- **C115.** If the values are written exactly, it is the same matrix. -/
theorem C115_round_trip_exact [Zero V] {W : V → Text → Prop} {scanVal : Text → Scan V} (hW : ScanOk W scanVal)
    {fmt : V → Text} (hf : FmtOk W fmt id)
    {A : Sp V} (h : A.WF) (hx : A.Exact) (h0 : 0 < A.cols) (hr : A.rows < 2 ^ 31) (hc : A.cols < 2 ^ 31)
    (hz : A.p.getD A.cols 0 < 2 ^ 31) (hall : ∀ c, c < A.cols → ∃ e ∈ A.entries, e.2.1 = c) (fuel : Nat) :
    ∃ txt, cscToMtx fmt (A.p.getD A.cols 0) A = ok txt ∧ readMtxText scanVal fuel txt = ok (.matrix A 0) := by
  obtain ⟨txt, B, h1, h2, h3, h4, h5, h6, h7⟩ := C115_round_trip hW hf h h0 hr hc hz hall fuel
  refine ⟨txt, h1, ?_⟩
  have : B = A := ext_entries h3 h h4 hx h5 h6 (by rw [h7]; exact List.map_id _)
  rw [h2, this]

/-- **C115.** A matrix whose columns are sorted, with or without empty columns, that is written by
`print_csc_templated` and read by `read_mtx_csc_real` is the same matrix, with the symmetry that the first line
says. -/
theorem C115_round_trip_csc [Zero V] {W : V → Text → Prop} {scanVal : Text → Scan V} (hW : ScanOk W scanVal)
    {fmt : V → Text} (hf : FmtOk W fmt id) (one : V)
    {sort : List (Util.Trip V) → List (Util.Trip V)} (hsort : ∀ l, (sort l).Perm l ∧ Util.TripSorted (sort l))
    (dbg : Bool) {A : Sp V} (h : A.WF) (hx : A.Exact) (hs : A.ColsSorted) (hd : A.NoDup) (h0 : 0 < A.cols)
    (hr : A.rows < 2 ^ 31) (hc : A.cols < 2 ^ 31) (hz : A.p.getD A.cols 0 < 2 ^ 31)
    {indent beg arith : Text} {sym : Bool} (hi : Blanks indent) (hi' : '\n' ∉ indent) (hl : indent.length ≤ 900)
    (ha : arith = "real".toList ∨ arith = "integer".toList)
    (hb : HeadLine "coordinate".toList arith (if sym then "symmetric".toList else "general".toList) beg)
    (hbl : OneLine (indent ++ beg)) :
    ∃ txt, printCsc fmt indent beg A = ok txt ∧ ∀ fuel, txt.length ≤ fuel →
      readMtxCsc scanVal one sort dbg false fuel txt = ok (.matrix A (if sym then -1 else 0)) := by
  obtain ⟨txt, h1, h2⟩ := C115_print_csc hf h hr hc hz hi hi' hl ha hb hbl
  have hid : (A.entries.map fun e => (e.1, e.2.1, id e.2.2)) = A.entries := List.map_id _
  rw [hid] at h2
  refine ⟨txt, h1, fun fuel hfu => ?_⟩
  obtain ⟨B, k1, k2, k3, k4, k5, k6, -, -⟩ :=
    Util.C39_triplets_partial dbg false (hsort A.entries).1 (hsort A.entries).2 h0 (fun e he => entries_mem h he)
      (by simp)
  rw [readMtxCsc_eq hW one sort dbg false h2 hfu, k1, ok_bind]
  have hst := entries_strict hs hd
  have hse : sort A.entries = A.entries := by
    refine List.Perm.eq_of_pairwise
      (le := fun a b : Nat × Nat × V => a.2.1 < b.2.1 ∨ (a.2.1 = b.2.1 ∧ a.1 ≤ b.1)) ?_
      (hsort _).2 (hst.imp fun h => by omega) (hsort _).1
    intro a b ha hb hab hba
    exact sorted_key_inj hst ((hsort _).1.mem_iff.1 ha) hb (by omega)
  rw [ext_entries k2 h k3 hx k4 k5 (by rw [k6, hse])]

/-! ### Which first lines are accepted -/

/-- The words for the format. -/
def formatWord (array : Bool) : Text := if array then "array".toList else "coordinate".toList

/-- The words for the values. -/
def arithWord : Mtx.Arith → Text
  | .real => "real".toList
  | .int => "integer".toList
  | .complex => "complex".toList
  | .pattern => "pattern".toList

/-- The words for the shape. -/
def shapeWord (symmetric : Bool) : Text := if symmetric then "symmetric".toList else "general".toList

/-- **C115.** If `read_header` does not throw, the first line consists of the five words that it then reports. -/
theorem C115_header_sound {fuel : Nat} {l r : Text} (hl : '\n' ∉ l) {hd : Head} {s : Str}
    (h : readHeader fuel ⟨l ++ '\n' :: r, false, false⟩ = ok (hd, s)) :
    ∃ b a₁ a₂ a₃ a₄, Words b a₁ a₂ a₃ a₄ l ∧ lower b = "%%matrixmarket".toList ∧ lower a₁ = "matrix".toList ∧
      lower a₂ = formatWord hd.array ∧ lower a₃ = arithWord hd.arith ∧ lower a₄ = shapeWord hd.symmetric := by
  unfold readHeader at h
  dsimp only at h
  rw [getline_line hl] at h
  dsimp only at h
  cases hw : headWords (lower (trim l)) with
  | none => rw [hw] at h; cases h
  | some w =>
  rw [hw] at h
  unfold orThrow at h
  dsimp only at h
  rw [ok_bind] at h
  obtain ⟨u, -, h⟩ := P2P.bind_ok_inv h
  obtain ⟨d, -, h⟩ := P2P.bind_ok_inv h
  injection h with h
  obtain ⟨h, -⟩ := Prod.mk.inj h
  subst h
  dsimp only
  unfold headWords at hw
  cases h5 : fiveWords (lower (trim l)) with
  | none => rw [h5] at hw; simp at hw
  | some x =>
  obtain ⟨b, a₁, a₂, a₃, a₄⟩ := x
  rw [h5] at hw
  simp only [Option.bind_some] at hw
  obtain ⟨b', a₁', a₂', a₃', a₄', hh, e0, e1, e2, e3, e4⟩ := words_of_lower (fiveWords_inv h5)
  refine ⟨b', a₁', a₂', a₃', a₄', words_of_trim hh, ?_⟩
  obtain ⟨f, a, y⟩ := w
  unfold checkWords at hw
  split at hw
  swap
  · simp at hw
  rename_i hb
  split at hw
  swap
  · simp at hw
  rename_i hm
  simp only [Option.bind_eq_bind, Option.bind_eq_some_iff] at hw
  obtain ⟨f', hf, a', ha, y', hy, hw⟩ := hw
  simp only [Option.some.injEq, Prod.mk.injEq] at hw
  obtain ⟨rfl, rfl, rfl⟩ := hw
  refine ⟨e0.trans hb, e1.trans hm, e2.trans ?_, e3.trans ?_, e4.trans ?_⟩
  · unfold formatOf at hf
    split at hf
    · cases hf; assumption
    · split at hf
      · cases hf; assumption
      · simp at hf
  · unfold arithOf at ha
    split at ha
    · cases ha; assumption
    · split at ha
      · cases ha; assumption
      · split at ha
        · cases ha; assumption
        · split at ha
          · cases ha; assumption
          · simp at ha
  · unfold shapeOf at hy
    split at hy
    · cases hy; assumption
    · split at hy
      · cases hy; assumption
      · simp at hy

/-! ### Findings -/

/-- **C115** (finding): if the file ends on a comment, without the end of the line, `read_header` never
returns: `getline` leaves the line as it is, which still begins with `%`. -/
theorem C115_comment_at_end_hangs {arith shape head : Text} {f y : Bool} {a : Mtx.Arith} {format : Text}
    (hh : HeadLine format arith shape head) (hl : '\n' ∉ head)
    (hwf : Word format) (hwa : Word arith) (hws : Word shape)
    (hf : formatOf format = some f) (ha : arithOf arith = some a) (hy : shapeOf shape = some y)
    {comments : List Text} (hc : ∀ c ∈ comments, '\n' ∉ c ∧ c.head? = some '%') {last : Text}
    (h1 : '\n' ∉ last) (hp : last.head? = some '%') (fuel : Nat) :
    readHeader fuel ⟨head ++ '\n' :: (comments.flatMap (fun c => c ++ ['\n']) ++ last), false, false⟩ = nofuel := by
  obtain ⟨h2, h3⟩ := headWords_line hwf hwa hws hh
  unfold readHeader
  dsimp only
  rw [getline_line hl]
  dsimp only
  rw [h3 f a y hf ha hy]
  unfold orThrow
  dsimp only
  rw [ok_bind, comments_unfinished hc h1 hp fuel _ h2]
  rfl

/-- **C115** (finding): if the line behind the comments does not hold three numbers, and the next word of the
file is not a number, `mm_read_mtx_crd_size` never returns: `fscanf` fails again and again at the same place. -/
theorem C115_size_hangs {comments : List Text} (hc : ∀ c ∈ comments, OneLine c ∧ c.head? = some '%') {line : Text}
    (h1 : OneLine line) (hp : line.head? ≠ some '%') (hl : (scanInts 3 (line ++ ['\n'])).1.length < 3)
    {w t : Text} {c : Char} (hw : Blanks w) (h0 : blank c = false) (hm : c ≠ '-') (hpl : c ≠ '+')
    (hd : c.isDigit = false) (fuel : Nat) :
    readSize fuel (comments.flatMap (fun c => c ++ ['\n']) ++ (line ++ '\n' :: (w ++ c :: t))) = nofuel := by
  unfold readSize
  rw [comments_loop hc h1 hp (w ++ c :: t) _ (by
    have := comments_length comments
    simp only [List.length_append]; omega), ok_bind]
  dsimp only
  unfold Mtx.sizeOf
  have hs := sizeLoop_hang h0 hm hpl hd fuel (w ++ c :: t) t (by
    rw [dropWhile_blanks hw, List.dropWhile_cons_of_neg (by rw [h0]; simp)])
  split
  · rename_i e
    rw [e] at hl
    simp at hl
  · exact hs

/-- **C115** (finding): a file with fewer entries than its size line says.  `read_mtx` returns the null pointer. -/
theorem C115_short_file [Zero V] {W : V → Text → Prop} {scanVal : Text → Scan V} (hW : ScanOk W scanVal) {arith : Text}
    (ha : arith = "real".toList ∨ arith = "integer".toList) {sym : Bool} {m n nnz : Nat}
    {es : List (Nat × Nat × V)} {txt body rest : Text} (h : Header arith sym m n nnz txt body)
    (hb : Body W rest es body) (hr : Blanks rest) (hlt : es.length < nnz) (fuel : Nat) :
    readMtxText scanVal fuel txt = ok .null := by
  obtain ⟨head, comments, size, rfl, ho, hh, hc, hos, hs⟩ := h
  obtain ⟨c2, hc2, hwa, hla⟩ : ∃ c2, arithCode arith = some c2 ∧ Word arith ∧ arith.length < 64 := by
    rcases ha with rfl | rfl
    · exact ⟨'R', by decide, by unfold Word; decide, by decide⟩
    · exact ⟨'I', by decide, by unfold Word; decide, by decide⟩
  have hc3 : shapeCode (if sym then "symmetric".toList else "general".toList) = some (if sym then 'S' else 'G') := by
    cases sym <;> decide
  unfold readMtxText
  rw [readBanner_head hwa (word_shape sym) hla (by cases sym <;> decide) hc2 hc3 ho hh, ok_bind]
  dsimp only
  rw [readSize_header hc hos hs, ok_bind]
  dsimp only
  rw [if_neg (by omega), Int.toNat_natCast, (scanEntries_short hW hr hb hlt).1]

/-- **C115** (finding): for such a file `read_mtx_csc_real` uses the columns that it could not read, 0 - 1, as an
index: the access is outside of `count`. -/
theorem C115_short_file_csc [Zero V] {W : V → Text → Prop} {scanVal : Text → Scan V} (hW : ScanOk W scanVal)
    (one : V) (sort : List (Util.Trip V) → List (Util.Trip V)) (dbg insertDiag : Bool) {arith : Text}
    (ha : arith = "real".toList ∨ arith = "integer".toList) {sym : Bool} {m n nnz : Nat}
    {es : List (Nat × Nat × V)} {txt body rest : Text} (h : Header arith sym m n nnz txt body)
    (hb : Body W rest es body) (hr : Blanks rest) (hlt : es.length < nnz) {fuel : Nat} (hf : txt.length ≤ fuel) :
    readMtxCsc scanVal one sort dbg insertDiag fuel txt = ub := by
  obtain ⟨a, hwa, haa, h1, h2⟩ : ∃ a, Word arith ∧ arithOf arith = some a ∧ a ≠ .complex ∧ a ≠ .pattern := by
    rcases ha with rfl | rfl
    · exact ⟨.real, by unfold Word; decide, by decide, by decide, by decide⟩
    · exact ⟨.int, by unfold Word; decide, by decide, by decide, by decide⟩
  unfold readMtxCsc
  rw [readHeader_eq hwa haa h hf, ok_bind]
  unfold readCscBody
  dsimp only
  rw [if_neg h1, if_neg (by simp), if_neg (by omega), decide_eq_true h2, Int.toNat_natCast]
  obtain ⟨e, he, h0⟩ := readTriplets_short hW one hr (s := ⟨body, false, false⟩) hb (fun _ => rfl) hlt
  unfold compress
  rw [if_pos]
  rw [List.all_eq_false]
  exact ⟨e, he, by rw [h0]; decide⟩

/-- **C115** (finding): a first word of 64 characters or more is written beyond the end of its array. -/
theorem C115_long_word {l r w a z : Text} (ho : OneLine l) (hl : l = w ++ (a ++ z)) (hw : Blanks w) (ha : Word a)
    (hz : Ends z) (h64 : 64 ≤ a.length) : readBanner (l ++ '\n' :: r) = ub := by
  unfold readBanner
  rw [fgets_line ho]
  dsimp only
  rw [hl, show w ++ (a ++ z) ++ ['\n'] = w ++ (a ++ (z ++ ['\n'])) by simp, scanWords,
    scanStr_word hw ha (hz.append (ends_newline []))]
  dsimp only
  rw [if_pos h64]
  rfl

/-- **C115** (finding): the part of a comment behind its 1024th character is taken for the next line; if it holds
three numbers, they are taken for the sizes. -/
theorem C115_long_comment {x y : Text} (hx : '\n' ∉ x) (hp : x.head? = some '%') (hl : x.length = 1024)
    {m n nnz : Nat} (hy : OneLine y) (hs : SizeLine m n nnz y) (r : Text) (fuel : Nat) :
    readSize fuel (x ++ (y ++ '\n' :: r)) = ok (some (((m : Int), (n : Int), (nnz : Int)), r)) := by
  have h0 := readSize_header (comments := []) (by simp) hy hs r fuel
  rw [List.flatMap_nil, List.nil_append] at h0
  unfold readSize at h0 ⊢
  obtain ⟨l, h1, h2⟩ := P2P.bind_ok_inv h0
  have h3 : commentStep (x ++ (y ++ '\n' :: r)) = ok (.next (y ++ '\n' :: r)) := by
    unfold commentStep fgets
    rw [if_neg (by intro hh; rw [(List.append_eq_nil_iff.1 hh).1] at hl; simp at hl)]
    have := takeLine_part hx (y ++ '\n' :: r)
    rw [hl] at this
    rw [this]
    dsimp only
    rw [if_pos hp]
  have e := comments_loop (comments := []) (by simp) hy hs.head_ne r
  rw [List.flatMap_nil, List.nil_append] at e
  rw [e _ (by simp)] at h1
  rw [List.length_append, loopF, h3, ok_bind]
  dsimp only
  rw [e _ (by simp), h1, ok_bind]
  exact h2

/-! ### Examples -/

/-- The file of a 2 × 2 matrix, with a comment, capital letters and various kinds of white space. -/
def exMtx : Text := "%%MatrixMarket  MATRIX coordinate Real symmetric\n% made by hand\n 2 2\t3 \n1 1 4\n2 1 -5\n\n  2 02 6".toList

theorem num (s : Text) (h : s ≠ [] ∧ ∀ c ∈ s, c.isDigit = true) : Numeral s (numVal s) := ⟨h.1, h.2, rfl⟩

theorem exMtx_text : MtxText IntText true 2 2 [(0, 0, 4), (1, 0, -5), (1, 1, 6)] exMtx := by
  refine ⟨"real".toList, "1 1 4\n2 1 -5\n\n  2 02 6".toList, [], .inl rfl,
    ⟨"%%MatrixMarket  MATRIX coordinate Real symmetric".toList, ["% made by hand".toList], " 2 2\t3 ".toList, by decide,
      by unfold OneLine; decide, ?_, by unfold OneLine; decide, by unfold OneLine; decide, ?_⟩, ?_⟩
  · exact ⟨"MATRIX".toList, "coordinate".toList, "Real".toList, "symmetric".toList,
      ⟨[], "  ".toList, " ".toList, " ".toList, " ".toList, [], by decide, Blanks.nil,
        by unfold Gap Blanks; decide, gap_space, gap_space, gap_space, Ends.nil⟩, by decide, by decide, by decide,
      by decide⟩
  · exact ⟨" ".toList, "2".toList, " ".toList, "2".toList, "\t".toList, "3".toList, " ".toList, by decide,
      gap_space.2, num _ (by decide), gap_space, num _ (by decide), by unfold Gap Blanks; decide,
      num _ (by decide), Ends.cons rfl _⟩
  · have h3 : Body IntText [] [(1, 1, 6)] "\n\n  2 02 6".toList :=
      Body.cons (w := "\n\n  ".toList) (s₁ := "2".toList) (g₁ := " ".toList) (s₂ := "02".toList) (g₂ := " ".toList)
        (t := "6".toList) (by unfold Blanks; decide) (num _ (by decide)) gap_space (num _ (by decide)) gap_space
        (.inl ⟨6, rfl, num _ (by decide)⟩) Ends.nil .nil
    have h2 : Body IntText [] [(1, 0, -5), (1, 1, 6)] "\n2 1 -5\n\n  2 02 6".toList :=
      Body.cons (w := "\n".toList) (s₁ := "2".toList) (g₁ := " ".toList) (s₂ := "1".toList) (g₂ := " ".toList)
        (t := "-5".toList) gap_newline.2 (num _ (by decide)) gap_space (num _ (by decide)) gap_space
        (.inr ⟨5, "5".toList, rfl, rfl, num _ (by decide)⟩) (Ends.cons rfl _) h3
    exact Body.cons (w := []) (s₁ := "1".toList) (g₁ := " ".toList) (s₂ := "1".toList) (g₂ := " ".toList)
      (t := "4".toList) Blanks.nil (num _ (by decide)) gap_space (num _ (by decide)) gap_space
      (.inl ⟨4, rfl, num _ (by decide)⟩) (Ends.cons rfl _) h2

/-- `C115_read_mtx` for this file. -/
example : ∃ A, readMtxText scanInt 0 exMtx = ok (.matrix A (-1)) ∧
    A.WF ∧ A.Exact ∧ A.rows = 2 ∧ A.cols = 2 ∧ A.entries = [(0, 0, 4), (1, 0, -5), (1, 1, 6)] :=
  C115_read_mtx scanInt_ok exMtx_text (by decide) (by decide) (by decide) (by decide) 0

example : readMtxText scanInt 0 exMtx = ok (.matrix ⟨2, 2, [0, 2, 3], [0, 1, 1], [4, -5, 6]⟩ (-1)) := by
  decide +kernel

/-- A sort for the examples: insertion by column and row. -/
def insertTrip (t : Util.Trip Int) : List (Util.Trip Int) → List (Util.Trip Int)
  | [] => [t]
  | u :: l => if t.2.1 < u.2.1 ∨ (t.2.1 = u.2.1 ∧ t.1 ≤ u.1) then t :: u :: l else u :: insertTrip t l

/-- A sort for the examples. -/
def sortTrips (l : List (Util.Trip Int)) : List (Util.Trip Int) := l.foldr insertTrip []

theorem insertTrip_perm (t : Util.Trip Int) (l : List (Util.Trip Int)) : (insertTrip t l).Perm (t :: l) := by
  induction l with
  | nil => exact .refl _
  | cons u l ih =>
    unfold insertTrip
    split
    · exact .refl _
    · exact (ih.cons u).trans (.swap ..)

theorem insertTrip_sorted (t : Util.Trip Int) {l : List (Util.Trip Int)} (h : Util.TripSorted l) :
    Util.TripSorted (insertTrip t l) := by
  unfold Util.TripSorted at *
  induction l with
  | nil => simp [insertTrip]
  | cons u l ih =>
    rw [List.pairwise_cons] at h
    unfold insertTrip
    split
    · rename_i hlt
      refine List.pairwise_cons.2 ⟨?_, List.pairwise_cons.2 h⟩
      intro x hx
      rcases List.mem_cons.1 hx with rfl | hx
      · exact hlt
      · have := h.1 x hx; omega
    · rename_i hlt
      refine List.pairwise_cons.2 ⟨?_, ih h.2⟩
      intro x hx
      rcases List.mem_cons.1 ((insertTrip_perm t l).mem_iff.1 hx) with rfl | hx
      · omega
      · exact h.1 x hx

theorem sortTrips_ok (l : List (Util.Trip Int)) : (sortTrips l).Perm l ∧ Util.TripSorted (sortTrips l) := by
  induction l with
  | nil => exact ⟨.refl _, List.Pairwise.nil⟩
  | cons t l ih => exact ⟨(insertTrip_perm t _).trans (ih.1.cons t), insertTrip_sorted t ih.2⟩

/-- `C115_read_csc` and `C115_readers_agree` for this file. -/
example : ∃ A, readMtxCsc scanInt 1 sortTrips true true 200 exMtx = ok (.matrix A (-1)) ∧
    A.WF ∧ A.Exact ∧ A.rows = 2 ∧ A.cols = 2 ∧ A.entries.Perm [(0, 0, 4), (1, 0, -5), (1, 1, 6)] ∧ A.ColsSorted :=
  C115_read_csc scanInt_ok 1 sortTrips_ok true true exMtx_text (by decide) (by decide) (by decide) (by decide)

example : readMtxCsc scanInt 1 sortTrips true true 200 exMtx = readMtxText scanInt 200 exMtx :=
  C115_readers_agree scanInt_ok 1 sortTrips_ok true true exMtx_text (by decide) (by decide) (by decide) (by decide)
    (by decide)

/-- Entries in another order. -/
example : readMtxCsc scanInt 1 sortTrips true false 200
      "%%MatrixMarket matrix coordinate integer general\n2 2 3\n2 2 6\n2 1 -5\n1 1 4\n".toList
    = ok (.matrix ⟨2, 2, [0, 2, 3], [0, 1, 1], [4, -5, 6]⟩ 0) := by decide +kernel

/-- A pattern, read by `C115_read_pattern`. -/
example : ∃ A, readMtxCsc scanInt 1 sortTrips true false 200
      "%%MatrixMarket matrix coordinate pattern general\n2 2 1\n2 1".toList = ok (.matrix A 0) ∧
    A.WF ∧ A.Exact ∧ A.rows = 2 ∧ A.cols = 2 ∧ A.entries.Perm [(1, 0, 1)] ∧ A.ColsSorted :=
  C115_read_pattern (sym := false) scanInt 1 sortTrips_ok true false (es := [(1, 0)]) (rest := []) (body := "2 1".toList)
    ⟨"%%MatrixMarket matrix coordinate pattern general".toList, [], "2 2 1".toList, by decide,
      by unfold OneLine; decide,
      ⟨"matrix".toList, "coordinate".toList, "pattern".toList, "general".toList,
        ⟨[], " ".toList, " ".toList, " ".toList, " ".toList, [], by decide, Blanks.nil, gap_space, gap_space, gap_space,
          gap_space, Ends.nil⟩, by decide, by decide, by decide, by decide⟩, by simp, by unfold OneLine; decide,
      ⟨[], "2".toList, " ".toList, "2".toList, " ".toList, "1".toList, [], by decide,
        Blanks.nil, num _ (by decide), gap_space, num _ (by decide), gap_space, num _ (by decide), Ends.nil⟩⟩
    (PatBody.cons (w := []) (s₁ := "2".toList) (g₁ := " ".toList) (s₂ := "1".toList) Blanks.nil (num _ (by decide))
      gap_space (num _ (by decide)) Ends.nil .nil)
    (by decide) (by decide) (by decide) (by decide)

/-- **C115** (finding): `read_mtx` reads a pattern as if there were values: the next row is taken for the value. -/
theorem C115_pattern_misread :
    readMtxText scanInt 0 "%%MatrixMarket matrix coordinate pattern general\n2 2 2\n1 1\n2 2\n".toList = ok .negative ∧
    readMtxCsc scanInt 1 sortTrips true false 200
      "%%MatrixMarket matrix coordinate pattern general\n2 2 2\n1 1\n2 2\n".toList
      = ok (.matrix ⟨2, 2, [0, 1, 2], [0, 1], [1, 1]⟩ 0) := by decide +kernel

/-- **C115** (finding): `read_mtx` on a file in array format, of which the size line has two numbers: the third
is taken from the values. -/
theorem C115_array_misread :
    readMtxText scanInt 5 "%%MatrixMarket matrix array real general\n1 1\n1 1 1\n1 1 7\n".toList
      = ok (.matrix ⟨1, 1, [0, 1], [0], [7]⟩ 0) := by decide +kernel

/-- **C115** (finding): the symmetry of a matrix is lost on the way through a file. -/
theorem C115_symmetry_lost :
    ∃ txt, cscToMtx showInt 3 (⟨2, 2, [0, 2, 3], [0, 1, 1], [4, -5, 6]⟩ : Sp Int) = ok txt ∧
      readMtxText scanInt 0 exMtx = ok (.matrix ⟨2, 2, [0, 2, 3], [0, 1, 1], [4, -5, 6]⟩ (-1)) ∧
      readMtxText scanInt 0 txt = ok (.matrix ⟨2, 2, [0, 2, 3], [0, 1, 1], [4, -5, 6]⟩ 0) := by
  obtain ⟨txt, h1, h2⟩ := C115_round_trip_exact scanInt_ok showInt_ok
    (A := (⟨2, 2, [0, 2, 3], [0, 1, 1], [4, -5, 6]⟩ : Sp Int)) ⟨⟨by decide, by decide, by decide, by decide, by decide⟩,
      by decide⟩ ⟨by decide, by decide⟩ (by decide) (by decide) (by decide) (by decide) (by decide) 0
  exact ⟨txt, h1, by decide +kernel, h2⟩

/-- `C115_round_trip_csc` for a matrix with an empty column. -/
example : ∃ txt, printCsc showInt "  ".toList "%%MatrixMarket matrix coordinate real symmetric".toList
      (⟨2, 2, [0, 2, 2], [0, 1], [4, -5]⟩ : Sp Int) = ok txt ∧ ∀ fuel, txt.length ≤ fuel →
    readMtxCsc scanInt 1 sortTrips true false fuel txt = ok (.matrix ⟨2, 2, [0, 2, 2], [0, 1], [4, -5]⟩ (-1)) :=
  C115_round_trip_csc (sym := true) (arith := "real".toList) scanInt_ok showInt_ok 1 sortTrips_ok true
    (A := (⟨2, 2, [0, 2, 2], [0, 1], [4, -5]⟩ : Sp Int))
    ⟨⟨by decide, by decide, by decide, by decide, by decide⟩, by decide⟩ ⟨by decide, by decide⟩
    (by unfold ColsSorted; decide) (by unfold NoDup; decide) (by decide) (by decide) (by decide) (by decide)
    (by unfold Blanks; decide) (by decide) (by decide) (.inl rfl)
    ⟨"matrix".toList, "coordinate".toList, "real".toList, "symmetric".toList,
      ⟨[], " ".toList, " ".toList, " ".toList, " ".toList, [], by decide, Blanks.nil, gap_space, gap_space, gap_space,
        gap_space, Ends.nil⟩, by decide, by decide, by decide, by decide⟩ (by unfold OneLine; decide)

/-- A first line that is not accepted. -/
example : readHeader 9 ⟨"%%MatrixMarket matrix coordinate real hermitian\n1 1 1\n".toList, false, false⟩ = exn := by
  decide +kernel

/-- A file that is too short (`C115_short_file`, `C115_short_file_csc`). -/
example : readMtxText scanInt 0 "%%MatrixMarket matrix coordinate real general\n2 2 3\n1 1 4\n".toList = ok .null ∧
    readMtxCsc scanInt 1 sortTrips true false 200
      "%%MatrixMarket matrix coordinate real general\n2 2 3\n1 1 4\n".toList = ub := by decide +kernel

/-- `C115_size_hangs`: a size line with a word between the numbers. -/
example (fuel : Nat) : readSize fuel "2 x 3\n oops".toList = nofuel :=
  C115_size_hangs (comments := []) (by simp) (line := "2 x 3".toList) (by unfold OneLine; decide) (by decide)
    (by decide) (w := " ".toList) (c := 'o') (t := "ops".toList) gap_space.2 (by decide) (by decide) (by decide)
    (by decide) fuel

/-- `C115_comment_at_end_hangs`. -/
example (fuel : Nat) : readHeader fuel
    ⟨"%%MatrixMarket matrix array real general\n% nothing follows".toList, false, false⟩ = nofuel :=
  C115_comment_at_end_hangs (head := "%%MatrixMarket matrix array real general".toList) (format := "array".toList)
    (arith := "real".toList) (shape := "general".toList) (f := true) (a := .real) (y := false)
    ⟨"matrix".toList, "array".toList, "real".toList, "general".toList,
      ⟨[], " ".toList, " ".toList, " ".toList, " ".toList, [], by decide, Blanks.nil, gap_space, gap_space, gap_space,
        gap_space, Ends.nil⟩, by decide, by decide, by decide, by decide⟩ (by decide)
    (by unfold Word; decide) (by unfold Word; decide) (by unfold Word; decide) (by decide) (by decide) (by decide)
    (comments := []) (by simp) (last := "% nothing follows".toList) (by decide) (by decide) fuel

end Verif
