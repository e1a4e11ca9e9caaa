import Verif.Proof.MtxRead

/-!
# Reading a Matrix Market text with streams
-/

namespace Verif.Mtx
open Res

theorem fiveWords_eq {w a b c d e g₁ g₂ g₃ g₄ z : Text} (hw : Blanks w) (ha : Word a) (hg₁ : Gap g₁) (hb : Word b)
    (hg₂ : Gap g₂) (hc : Word c) (hg₃ : Gap g₃) (hd : Word d) (hg₄ : Gap g₄) (he : Word e) (hz : Ends z) :
    fiveWords (w ++ (a ++ (g₁ ++ (b ++ (g₂ ++ (c ++ (g₃ ++ (d ++ (g₄ ++ (e ++ z)))))))))) = some (a, b, c, d, e) := by
  unfold fiveWords
  rw [scanStr_word hw ha (hg₁.ends _)]
  dsimp only [Option.bind_eq_bind, Option.bind_some]
  rw [scanStr_word hg₁.2 hb (hg₂.ends _)]
  dsimp only [Option.bind_eq_bind, Option.bind_some]
  rw [scanStr_word hg₂.2 hc (hg₃.ends _)]
  dsimp only [Option.bind_eq_bind, Option.bind_some]
  rw [scanStr_word hg₃.2 hd (hg₄.ends _)]
  dsimp only [Option.bind_eq_bind, Option.bind_some]
  rw [scanStr_word hg₄.2 he hz]
  rfl

theorem word_banner' : Word "%%matrixmarket".toList := by unfold Word; decide

theorem checkWords_eq {crd arith sym : Text} {f : Bool} {a : Arith} {y : Bool} (hf : formatOf crd = some f)
    (ha : arithOf arith = some a) (hy : shapeOf sym = some y) :
    checkWords "%%matrixmarket".toList "matrix".toList crd arith sym = some (f, a, y) := by
  unfold checkWords
  rw [if_pos rfl, if_pos rfl, hf, ha, hy]
  rfl

/-- The first line after `trim` and `tolower`: words in small letters. -/
theorem headWords_line {format arith shape head : Text} (hwf : Word format) (hwa : Word arith) (hws : Word shape)
    (hh : HeadLine format arith shape head) :
    (lower (trim head)).head? = some '%' ∧
    ∀ f a y, formatOf format = some f → arithOf arith = some a → shapeOf shape = some y →
      headWords (lower (trim head)) = some (f, a, y) := by
  obtain ⟨a₁, a₂, a₃, a₄, ⟨w, g₁, g₂, g₃, g₄, z, rfl, hw, hg₁, hg₂, hg₃, hg₄, hz⟩, k₁, k₂, k₃, k₄⟩ := hh
  have hw4 := word_of_lower k₄ hws
  have e1 : trim (w ++ ("%%MatrixMarket".toList ++ (g₁ ++ (a₁ ++ (g₂ ++ (a₂ ++ (g₃ ++ (a₃ ++ (g₄ ++ (a₄ ++ z))))))))))
      = "%%MatrixMarket".toList ++ (g₁ ++ (a₁ ++ (g₂ ++ (a₂ ++ (g₃ ++ (a₃ ++ (g₄ ++ (a₄ ++ rtrim z)))))))) := by
    rw [trim_eq, dropWhile_blanks hw, dropWhile_word word_banner]
    have := rtrim_before hw4 ("%%MatrixMarket".toList ++ (g₁ ++ (a₁ ++ (g₂ ++ (a₂ ++ (g₃ ++ (a₃ ++ g₄))))))) z
    simp only [List.append_assoc] at this
    exact this
  have e2 : lower (trim (w ++ ("%%MatrixMarket".toList ++ (g₁ ++ (a₁ ++ (g₂ ++ (a₂ ++ (g₃ ++ (a₃ ++ (g₄ ++
      (a₄ ++ z)))))))))))
      = [] ++ ("%%matrixmarket".toList ++ (g₁ ++ ("matrix".toList ++ (g₂ ++ (format ++ (g₃ ++ (arith ++ (g₄ ++
        (shape ++ lower (rtrim z)))))))))) := by
    have eb : lower "%%MatrixMarket".toList = "%%matrixmarket".toList := by decide
    rw [e1]
    simp only [lower_append, lower_blanks hg₁.2, lower_blanks hg₂.2, lower_blanks hg₃.2, lower_blanks hg₄.2,
      k₁, k₂, k₃, k₄, eb, List.nil_append]
  have hzz : Ends (lower (rtrim z)) := hz.rtrim.lower
  have eh : "%%matrixmarket".toList = '%' :: "%matrixmarket".toList := by decide
  refine ⟨by rw [e2, eh, List.nil_append, List.cons_append, List.head?_cons], ?_⟩
  intro f a y hf ha hy
  unfold headWords
  rw [e2, fiveWords_eq Blanks.nil word_banner' hg₁ word_matrix hg₂ hwf hg₃ hwa hg₄ hws hzz, Option.bind_some]
  exact checkWords_eq hf ha hy

theorem trim_percent {c : Text} (h : c.head? = some '%') : (trim c).head? = some '%' := by
  cases c with
  | nil => simp at h
  | cons d c =>
    simp only [List.head?_cons, Option.some.injEq] at h
    subst h
    have h1 : Word ['%'] := by unfold Word; decide
    have h2 : trim ('%' :: c) = ['%'] ++ rtrim c := by
      rw [trim_eq, show ('%' :: c) = ['%'] ++ c from rfl, dropWhile_word h1, rtrim_word h1]
    rw [h2]; rfl

theorem commentLine_line {l : Text} (h : '\n' ∉ l) (old r : Text) :
    commentLine (old, ⟨l ++ '\n' :: r, false, false⟩) = ok (trim l, ⟨r, false, false⟩) := by
  unfold commentLine
  rw [getline_line h]

/-- The loop over the comments stops at the line with the sizes. -/
theorem commentLines {comments : List Text} (hc : ∀ c ∈ comments, OneLine c ∧ c.head? = some '%') {size : Text}
    (h1 : '\n' ∉ size) (hp : (trim size).head? ≠ some '%') (body : Text) :
    ∀ (fuel : Nat) (old : Text), comments.length + 1 ≤ fuel → old.head? = some '%' →
      whileF fuel (fun u : Text × Str => ok (decide (u.1.head? = some '%'))) commentLine
        (old, ⟨comments.flatMap (fun c => c ++ ['\n']) ++ (size ++ '\n' :: body), false, false⟩)
        = ok (trim size, ⟨body, false, false⟩) := by
  induction comments with
  | nil =>
    intro fuel old hf ho
    obtain ⟨k, rfl⟩ : ∃ k, fuel = k + 1 := ⟨fuel - 1, by simp at hf; omega⟩
    rw [List.flatMap_nil, List.nil_append, whileF, ok_bind, if_pos (decide_eq_true ho), commentLine_line h1, ok_bind]
    have hd : decide ((trim size).head? = some '%') = false := decide_eq_false hp
    cases k with
    | zero => rw [whileF, ok_bind]; dsimp only; rw [hd]; rfl
    | succ k => rw [whileF, ok_bind]; dsimp only; rw [hd]; rfl
  | cons c l ih =>
    intro fuel old hf ho
    obtain ⟨k, rfl⟩ : ∃ k, fuel = k + 1 := ⟨fuel - 1, by simp at hf; omega⟩
    have hcc := hc c (List.mem_cons_self ..)
    have e : (c :: l).flatMap (fun c => c ++ ['\n']) ++ (size ++ '\n' :: body)
        = c ++ '\n' :: (l.flatMap (fun c => c ++ ['\n']) ++ (size ++ '\n' :: body)) := by simp
    rw [e, whileF, ok_bind, if_pos (decide_eq_true ho), commentLine_line hcc.1.1, ok_bind]
    exact ih (fun d hd => hc d (List.mem_cons_of_mem _ hd)) k _ (by simpa using hf) (trim_percent hcc.2)

/-- The line with the sizes after `trim`. -/
theorem SizeLine.trim {m n nnz : Nat} {l : Text} (h : SizeLine m n nnz l) : SizeLine m n nnz (trim l) := by
  obtain ⟨w, s₁, g₁, s₂, g₂, s₃, z, rfl, hw, h₁, hg₁, h₂, hg₂, h₃, hz⟩ := h
  refine ⟨[], s₁, g₁, s₂, g₂, s₃, rtrim z, ?_, Blanks.nil, h₁, hg₁, h₂, hg₂, h₃, hz.rtrim⟩
  rw [trim_eq, dropWhile_blanks hw, dropWhile_word h₁.word]
  have := rtrim_before h₃.word (s₁ ++ (g₁ ++ (s₂ ++ g₂))) z
  simp only [List.append_assoc] at this
  simpa using this

theorem dims_size {m n nnz : Nat} {l : Text} (h : SizeLine m n nnz l) :
    dims false l = some ((m : Int), (n : Int), (nnz : Int)) := by
  obtain ⟨w, s₁, g₁, s₂, g₂, s₃, z, rfl, hw, h₁, hg₁, h₂, hg₂, h₃, hz⟩ := h
  unfold dims
  rw [if_neg (by simp), scanInts_three hw h₁ hg₁ h₂ hg₂ h₃ hz]

theorem readHeader_eq {arith : Text} {a : Arith} (hwa : Word arith) (ha : arithOf arith = some a) {sym : Bool}
    {m n nnz : Nat} {txt body : Text} (h : Header arith sym m n nnz txt body) {fuel : Nat}
    (hf : txt.length ≤ fuel) :
    readHeader fuel ⟨txt, false, false⟩
      = ok (⟨(m : Int), (n : Int), (nnz : Int), a, sym, false⟩, ⟨body, false, false⟩) := by
  obtain ⟨head, comments, size, rfl, ho, hh, hc, hos, hs⟩ := h
  obtain ⟨hp, hw⟩ := headWords_line word_coordinate hwa (word_shape sym) hh
  have hy : shapeOf (if sym then "symmetric".toList else "general".toList) = some sym := by cases sym <;> decide
  have hfm : formatOf "coordinate".toList = some false := by decide
  have hw := hw _ _ _ hfm ha hy
  unfold readHeader
  dsimp only
  rw [getline_line ho.1]
  dsimp only
  rw [hw]
  dsimp only [Option.bind_eq_bind, Option.bind_some, orThrow]
  rw [ok_bind, commentLines hc hos.1 hs.trim.head_ne body fuel _ (by
    have := comments_length comments
    simp only [List.length_append, List.length_cons] at hf
    omega) hp, ok_bind]
  dsimp only
  rw [dims_size hs.trim]
  rfl

/-! ### The entries -/

theorem extract_int {w s r : Text} {n : Nat} (hw : Blanks w) (h : Numeral s n) (hr : Ends r) (old : Int) {st : Str}
    (hg : st.good = true) (hst : st.rest = w ++ (s ++ r)) :
    extract scanInt st old = ((n : Int), Str.after r) := by
  unfold extract
  rw [if_pos hg, hst, scanInt_numeral hw h hr]

theorem after_good {r : Text} (h : r ≠ []) : (Str.after r).good = true := by
  unfold Str.after Str.good
  simp [h]

theorem Gap.append_ne {g : Text} (h : Gap g) (s : Text) : g ++ s ≠ [] :=
  fun hh => h.1 (List.append_eq_nil_iff.1 hh).1

variable {V : Type} [Zero V]

omit [Zero V] in
theorem Body.cons_ne {W : V → Text → Prop} {rest : Text} {e : Nat × Nat × V} {es : List (Nat × Nat × V)}
    {s : Text} (h : Body W rest (e :: es) s) : s ≠ [] := by
  cases h with
  | cons hw h₁ _ _ _ _ _ _ =>
    intro hh
    exact h₁.1 (List.append_eq_nil_iff.1 (List.append_eq_nil_iff.1 hh).2).1

theorem readTriplet_entry {W : V → Text → Prop} {scanVal : Text → Scan V} (hW : ScanOk W scanVal) (one : V)
    {r c : Nat} {v : V} {w s₁ g₁ s₂ g₂ t rest : Text}
    (hw : Blanks w) (h₁ : Numeral s₁ (r + 1)) (hg₁ : Gap g₁) (h₂ : Numeral s₂ (c + 1)) (hg₂ : Gap g₂)
    (hv : W v t) (he : Ends rest) {s : Str} (hg : s.good = true)
    (hs : s.rest = w ++ (s₁ ++ (g₁ ++ (s₂ ++ (g₂ ++ (t ++ rest)))))) :
    readTriplet scanVal one true s = (oneBased (r, c, v), Str.after rest) := by
  have e1 := extract_int hw h₁ (hg₁.ends (s₂ ++ (g₂ ++ (t ++ rest)))) 0 hg hs
  have e2 : extract scanInt (Str.after (g₁ ++ (s₂ ++ (g₂ ++ (t ++ rest))))) 0 = _ :=
    extract_int hg₁.2 h₂ (hg₂.ends (t ++ rest)) 0 (after_good (hg₁.append_ne _)) rfl
  have e3 : extract scanVal (Str.after (g₂ ++ (t ++ rest))) 0 = (v, Str.after rest) := by
    unfold extract
    rw [if_pos (after_good (hg₂.append_ne _))]
    show (match scanVal (g₂ ++ (t ++ rest)) with
      | .ok v r => (v, Str.after r)
      | .bad r => (0, ⟨r, decide (r = []), true⟩)
      | .eof => ((0 : V), ⟨[], true, true⟩)) = _
    rw [hW v t g₂ rest hv hg₂.2 he]
  unfold readTriplet
  dsimp only
  rw [e1]
  dsimp only
  rw [e2]
  dsimp only
  rw [if_pos rfl, e3]
  rfl

theorem readTriplets_body {W : V → Text → Prop} {scanVal : Text → Scan V} (hW : ScanOk W scanVal) (one : V)
    {rest : Text} {es : List (Nat × Nat × V)} {s : Str} (h : Body W rest es s.rest) (hg : es ≠ [] → s.good = true) :
    readTriplets scanVal one true es.length s = es.map oneBased := by
  induction es generalizing s with
  | nil => rfl
  | cons e es ih =>
    have hg' := hg (by simp)
    obtain ⟨f, hf⟩ : ∃ f, f = s.rest := ⟨_, rfl⟩
    rw [← hf] at h
    cases h with
    | cons hw h₁ hg₁ h₂ hg₂ hv he hr =>
      rw [List.length_cons, readTriplets]
      rw [readTriplet_entry hW one hw h₁ hg₁ h₂ hg₂ hv he hg' hf.symm, List.map_cons]
      refine congrArg _ (ih hr fun hne => ?_)
      cases es with
      | nil => exact absurd rfl hne
      | cons e es => exact after_good hr.cons_ne

/-- Nothing more can be read from a stream that has failed. -/
theorem readTriplet_failed (scanVal : Text → Scan V) (one : V) {s : Str} (h : s.good = false) :
    (readTriplet scanVal one true s).1 = (0, 0, 0) := by
  have e1 : extract scanInt s 0 = (0, { s with fail := true }) := by
    unfold extract; rw [if_neg (by rw [h]; simp)]
  have e2 : extract scanInt { s with fail := true } 0 = (0, { s with fail := true }) := by
    unfold extract Str.good; simp
  have e3 : extract scanVal { s with fail := true } 0 = (0, { s with fail := true }) := by
    unfold extract Str.good; simp
  unfold readTriplet
  dsimp only
  rw [e1]
  dsimp only
  rw [e2]
  dsimp only
  rw [if_pos rfl, e3]

/-- A stream that ends too early: one of the triplets has the column 0. -/
theorem readTriplets_short {W : V → Text → Prop} {scanVal : Text → Scan V} (hW : ScanOk W scanVal) (one : V)
    {rest : Text} (hb : Blanks rest) {es : List (Nat × Nat × V)} {s : Str} (h : Body W rest es s.rest)
    (hg : es ≠ [] → s.good = true) {k : Nat} (hk : es.length < k) :
    ∃ e ∈ readTriplets scanVal one true k s, e.2.1 = 0 := by
  induction es generalizing s k with
  | nil =>
    obtain ⟨k, rfl⟩ : ∃ j, k = j + 1 := ⟨k - 1, by simp at hk; omega⟩
    obtain ⟨f, hf⟩ : ∃ f, f = s.rest := ⟨_, rfl⟩
    rw [← hf] at h
    cases h
    rw [readTriplets]
    refine ⟨_, List.mem_cons_self .., ?_⟩
    by_cases hgood : s.good = true
    · have e0 : rest.dropWhile blank = [] := by
        have := dropWhile_blanks hb []
        rw [List.append_nil] at this
        exact this
      have e1 : extract scanInt s 0 = (0, ⟨[], true, true⟩) := by
        unfold extract scanInt
        rw [if_pos hgood, ← hf, e0]
      unfold readTriplet
      dsimp only
      rw [e1]
      rfl
    · rw [readTriplet_failed scanVal one (by simpa using hgood)]
  | cons e es ih =>
    obtain ⟨k, rfl⟩ : ∃ j, k = j + 1 := ⟨k - 1, by simp at hk; omega⟩
    have hg' := hg (by simp)
    obtain ⟨f, hf⟩ : ∃ f, f = s.rest := ⟨_, rfl⟩
    rw [← hf] at h
    cases h with
    | cons hw h₁ hg₁ h₂ hg₂ hv he hr =>
      rw [readTriplets]
      rw [readTriplet_entry hW one hw h₁ hg₁ h₂ hg₂ hv he hg' hf.symm]
      obtain ⟨d, hd, hd0⟩ := ih (s := Str.after _) hr (fun hne => by
        cases es with
        | nil => exact absurd rfl hne
        | cons e es => exact after_good hr.cons_ne) (show es.length < k by simpa using hk)
      exact ⟨d, List.mem_cons_of_mem _ hd, hd0⟩

theorem readPattern_body (scanVal : Text → Scan V) (one : V)
    {rest : Text} {es : List (Nat × Nat)} {s : Str} (h : PatBody rest es s.rest) (hg : es ≠ [] → s.good = true) :
    readTriplets scanVal one false es.length s = es.map fun e => oneBased (e.1, e.2, one) := by
  induction es generalizing s with
  | nil => rfl
  | cons e es ih =>
    have hg' := hg (by simp)
    obtain ⟨f, hf⟩ : ∃ f, f = s.rest := ⟨_, rfl⟩
    rw [← hf] at h
    cases h with
    | @cons r c _ w s₁ g₁ s₂ tail hw h₁ hg₁ h₂ he hr =>
      have e1 := extract_int hw h₁ (hg₁.ends (s₂ ++ tail)) 0 hg' hf.symm
      have e2 : extract scanInt (Str.after (g₁ ++ (s₂ ++ tail))) 0 = _ :=
        extract_int hg₁.2 h₂ he 0 (after_good (hg₁.append_ne _)) rfl
      have e3 : readTriplet scanVal one false s = (oneBased (r, c, one), Str.after tail) := by
        unfold readTriplet
        dsimp only
        rw [e1]
        dsimp only
        rw [e2]
        rfl
      rw [List.length_cons, readTriplets]
      rw [e3, List.map_cons]
      refine congrArg _ (ih hr fun hne => ?_)
      cases hr with
      | nil => exact absurd rfl hne
      | cons hw h₁ _ _ _ _ =>
        refine after_good fun hh => ?_
        exact h₁.1 (List.append_eq_nil_iff.1 (List.append_eq_nil_iff.1 hh).2).1

theorem compress_oneBased (sort : List (Util.Trip V) → List (Util.Trip V)) (dbg insertDiag sym : Bool) (m n : Nat)
    (es : List (Nat × Nat × V)) :
    compress sort dbg insertDiag sym m n (es.map oneBased)
      = Util.compressSorted dbg insertDiag m n es.length (sort es) >>= fun A =>
        ok (.matrix A (if sym then -1 else 0)) := by
  have h0 : (es.map oneBased).all (fun e => decide (1 ≤ e.2.1)) = true := by
    rw [List.all_eq_true]
    intro e he
    obtain ⟨d, -, rfl⟩ := List.mem_map.1 he
    unfold oneBased
    exact decide_eq_true (by dsimp only; omega)
  have h1 : (es.map oneBased).all (fun e => decide (1 ≤ e.1)) = true := by
    rw [List.all_eq_true]
    intro e he
    obtain ⟨d, -, rfl⟩ := List.mem_map.1 he
    unfold oneBased
    exact decide_eq_true (by dsimp only; omega)
  have h2 : ((es.map oneBased).map fun e => ((e.1 - 1).toNat, (e.2.1 - 1).toNat, e.2.2)) = es := by
    rw [List.map_map]
    conv_rhs => rw [← List.map_id es]
    refine List.map_congr_left fun e _ => ?_
    obtain ⟨r, c, v⟩ := e
    simp [oneBased]
  unfold compress
  rw [if_neg (by rw [h0]; simp), if_neg (by rw [h1]; simp), h2, List.length_map]

/-- `read_mtx_csc_real` on a Matrix Market text works with exactly the entries of the text. -/
theorem readMtxCsc_eq {W : V → Text → Prop} {scanVal : Text → Scan V} (hW : ScanOk W scanVal) (one : V)
    (sort : List (Util.Trip V) → List (Util.Trip V)) (dbg insertDiag : Bool) {sym : Bool}
    {m n : Nat} {es : List (Nat × Nat × V)} {txt : Text} (h : MtxText W sym m n es txt) {fuel : Nat}
    (hf : txt.length ≤ fuel) :
    readMtxCsc scanVal one sort dbg insertDiag fuel txt
      = Util.compressSorted dbg insertDiag m n es.length (sort es) >>= fun A =>
        ok (.matrix A (if sym then -1 else 0)) := by
  obtain ⟨arith, body, rest, ha, hH, hb⟩ := h
  obtain ⟨a, hwa, haa, hne, hnp⟩ : ∃ a, Word arith ∧ arithOf arith = some a ∧ a ≠ .complex ∧ a ≠ .pattern := by
    rcases ha with rfl | rfl
    · exact ⟨.real, by unfold Word; decide, by decide, by decide, by decide⟩
    · exact ⟨.int, by unfold Word; decide, by decide, by decide, by decide⟩
  unfold readMtxCsc
  rw [readHeader_eq hwa haa hH hf, ok_bind]
  unfold readCscBody
  dsimp only
  rw [if_neg hne, if_neg (by simp), if_neg (by omega), decide_eq_true hnp, Int.toNat_natCast, Int.toNat_natCast,
    Int.toNat_natCast, readTriplets_body hW one (s := ⟨body, false, false⟩) hb (fun _ => rfl), compress_oneBased]

/-- The same for files that hold only the pattern: every value is `one`. -/
theorem readMtxCsc_pattern (scanVal : Text → Scan V) (one : V)
    (sort : List (Util.Trip V) → List (Util.Trip V)) (dbg insertDiag : Bool) {sym : Bool}
    {m n : Nat} {es : List (Nat × Nat)} {txt body rest : Text}
    (h : Header "pattern".toList sym m n es.length txt body) (hb : PatBody rest es body) {fuel : Nat}
    (hf : txt.length ≤ fuel) :
    readMtxCsc scanVal one sort dbg insertDiag fuel txt
      = Util.compressSorted dbg insertDiag m n es.length (sort (es.map fun e => (e.1, e.2, one))) >>= fun A =>
        ok (.matrix A (if sym then -1 else 0)) := by
  unfold readMtxCsc
  rw [readHeader_eq (a := .pattern) (by unfold Word; decide) (by decide) h hf, ok_bind]
  unfold readCscBody
  dsimp only
  have hm : (es.map fun e => oneBased (e.1, e.2, one)) = (es.map fun e => (e.1, e.2, one)).map oneBased := by
    rw [List.map_map]; rfl
  have hd : decide (Arith.pattern ≠ Arith.pattern) = false := by decide
  rw [if_neg (by decide), if_neg (by simp), if_neg (by omega), hd, Int.toNat_natCast, Int.toNat_natCast,
    Int.toNat_natCast, readPattern_body scanVal one (s := ⟨body, false, false⟩) hb (fun _ => rfl), hm,
    compress_oneBased, List.length_map]

end Verif.Mtx
