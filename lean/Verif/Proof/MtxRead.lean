import Verif.Proof.MtxScan

/-!
# Reading a Matrix Market text
-/

namespace Verif.Mtx
open Res

theorem word_matrix : Word "matrix".toList := by unfold Word; decide
theorem word_coordinate : Word "coordinate".toList := by unfold Word; decide
theorem word_banner : Word "%%MatrixMarket".toList := by unfold Word; decide

theorem word_shape (sym : Bool) : Word (if sym then "symmetric".toList else "general".toList) := by
  cases sym <;> (unfold Word; decide)

/-! ### With the C library -/

theorem scanWords_step {w a r : Text} (k : Nat) (hw : Blanks w) (ha : Word a) (hr : Ends r) (hl : a.length < 64) :
    scanWords (k + 1) (w ++ (a ++ r)) = scanWords k r >>= fun l => ok (a :: l) := by
  rw [scanWords, scanStr_word hw ha hr]
  dsimp only
  rw [if_neg (by omega)]

theorem short_of_lower {a b : Text} (h : lower a = b) (hb : b.length < 64) : a.length < 64 := by
  rw [← lower_length, h]; exact hb

theorem readBanner_head {arith shape head : Text} {c2 c3 : Char} (hw3 : Word arith) (hw4 : Word shape)
    (hl3 : arith.length < 64) (hl4 : shape.length < 64)
    (h2 : arithCode arith = some c2) (h3 : shapeCode shape = some c3)
    (h1 : OneLine head) (hh : HeadLine "coordinate".toList arith shape head) (r : Text) :
    readBanner (head ++ '\n' :: r) = ok (some (⟨'M', 'C', c2, c3⟩, r)) := by
  obtain ⟨a₁, a₂, a₃, a₄, ⟨w, g₁, g₂, g₃, g₄, z, e, hw, hg₁, hg₂, hg₃, hg₄, hz⟩, k₁, k₂, k₃, k₄⟩ := hh
  unfold readBanner
  rw [fgets_line h1]
  dsimp only
  have hws : scanWords 5 (head ++ ['\n']) = ok ["%%MatrixMarket".toList, a₁, a₂, a₃, a₄] := by
    rw [e]
    simp only [List.append_assoc]
    rw [scanWords_step 4 hw word_banner (hg₁.ends _) (by decide),
      scanWords_step 3 hg₁.2 (word_of_lower k₁ word_matrix) (hg₂.ends _) (short_of_lower k₁ (by decide)),
      scanWords_step 2 hg₂.2 (word_of_lower k₂ word_coordinate) (hg₃.ends _) (short_of_lower k₂ (by decide)),
      scanWords_step 1 hg₃.2 (word_of_lower k₃ hw3) (hg₄.ends _) (short_of_lower k₃ hl3),
      scanWords_step 0 hg₄.2 (word_of_lower k₄ hw4) (hz.append (ends_newline [])) (short_of_lower k₄ hl4)]
    rfl
  rw [hws, ok_bind]
  have hc : codeOf ["%%MatrixMarket".toList, a₁, a₂, a₃, a₄] = some ⟨'M', 'C', c2, c3⟩ := by
    have hf : formatCode "coordinate".toList = some 'C' := by decide
    unfold codeOf
    dsimp only
    rw [if_neg (by decide), if_neg (by rw [k₁]; simp), k₂, k₃, k₄, h2, h3, hf]
    rfl
  rw [hc]

theorem commentStep_comment {c : Text} (h : OneLine c) (hp : c.head? = some '%') (r : Text) :
    commentStep (c ++ '\n' :: r) = ok (.next r) := by
  unfold commentStep
  rw [fgets_line h]
  dsimp only
  rw [if_pos]
  cases c with
  | nil => simp at hp
  | cons d c => simpa using hp

theorem comments_loop {comments : List Text} (hc : ∀ c ∈ comments, OneLine c ∧ c.head? = some '%') {size : Text}
    (h1 : OneLine size) (hp : size.head? ≠ some '%') (body : Text) :
    ∀ fuel, comments.length < fuel →
      loopF fuel commentStep (comments.flatMap (fun c => c ++ ['\n']) ++ (size ++ '\n' :: body))
        = ok (some (size ++ ['\n'], body)) := by
  induction comments with
  | nil =>
    intro fuel hf
    obtain ⟨k, rfl⟩ : ∃ k, fuel = k + 1 := ⟨fuel - 1, by simp at hf; omega⟩
    rw [List.flatMap_nil, List.nil_append, loopF]
    unfold commentStep
    rw [fgets_line h1]
    dsimp only
    rw [if_neg, ok_bind]
    cases size with
    | nil => simp
    | cons d s => simpa using hp
  | cons c l ih =>
    intro fuel hf
    obtain ⟨k, rfl⟩ : ∃ k, fuel = k + 1 := ⟨fuel - 1, by simp at hf; omega⟩
    have hcc := hc c (List.mem_cons_self ..)
    have e : (c :: l).flatMap (fun c => c ++ ['\n']) ++ (size ++ '\n' :: body)
        = c ++ '\n' :: (l.flatMap (fun c => c ++ ['\n']) ++ (size ++ '\n' :: body)) := by simp
    rw [e, loopF, commentStep_comment hcc.1 hcc.2, ok_bind]
    exact ih (fun d hd => hc d (List.mem_cons_of_mem _ hd)) k (by simpa using hf)

theorem comments_length (comments : List Text) : comments.length ≤ (comments.flatMap fun c => c ++ ['\n']).length := by
  induction comments with
  | nil => simp
  | cons c l ih => rw [List.flatMap_cons, List.length_append, List.length_cons, List.length_append, List.length_singleton]; omega

theorem SizeLine.head_ne {m n nnz : Nat} {l : Text} (h : SizeLine m n nnz l) : l.head? ≠ some '%' := by
  obtain ⟨w, s₁, g₁, s₂, g₂, s₃, z, rfl, hw, h₁, -⟩ := h
  intro hh
  cases w with
  | nil =>
    cases s₁ with
    | nil => exact h₁.1 rfl
    | cons c s =>
      simp only [List.nil_append, List.cons_append, List.head?_cons, Option.some.injEq] at hh
      have := h₁.2.1 c (List.mem_cons_self ..)
      subst hh; revert this; decide
  | cons c w =>
    simp only [List.cons_append, List.head?_cons, Option.some.injEq] at hh
    have := hw c (List.mem_cons_self ..)
    subst hh; revert this; decide

theorem readSize_header {comments : List Text} (hc : ∀ c ∈ comments, OneLine c ∧ c.head? = some '%') {size : Text}
    {m n nnz : Nat} (h1 : OneLine size) (hs : SizeLine m n nnz size) (body : Text) (fuel : Nat) :
    readSize fuel (comments.flatMap (fun c => c ++ ['\n']) ++ (size ++ '\n' :: body))
      = ok (some (((m : Int), (n : Int), (nnz : Int)), body)) := by
  unfold readSize
  rw [comments_loop hc h1 hs.head_ne body _ (by
    have := comments_length comments
    rw [List.length_append]; omega), ok_bind]
  dsimp only
  unfold sizeOf
  obtain ⟨w, s₁, g₁, s₂, g₂, s₃, z, rfl, hw, h₁, hg₁, h₂, hg₂, h₃, hz⟩ := hs
  have e := scanInts_three hw h₁ hg₁ h₂ hg₂ h₃ (hz.append (ends_newline []))
  simp only [List.append_assoc] at e ⊢
  rw [e]

variable {V : Type}

/-- The conversion of values reads every way `W` to write a value. -/
def ScanOk (W : V → Text → Prop) (scanVal : Text → Scan V) : Prop :=
  ∀ v t g rest, W v t → Blanks g → Ends rest → scanVal (g ++ (t ++ rest)) = .ok v rest

theorem Body.drop {W : V → Text → Prop} {rest : Text} {e : Nat × Nat × V} {es : List (Nat × Nat × V)} {s : Text}
    (h : Body W rest (e :: es) s) : Body W rest (e :: es) (s.dropWhile blank) := by
  cases h with
  | cons hw h₁ hg₁ h₂ hg₂ hv he hr =>
    rw [dropWhile_blanks hw, dropWhile_word h₁.word]
    exact Body.cons (w := []) Blanks.nil h₁ hg₁ h₂ hg₂ hv he hr

/-- An entry as it is read, counted from 1. -/
def oneBased (e : Nat × Nat × V) : Int × Int × V := ((e.1 : Int) + 1, (e.2.1 : Int) + 1, e.2.2)

theorem scanEntry_cons [Zero V] {W : V → Text → Prop} {scanVal : Text → Scan V} (hW : ScanOk W scanVal) {r c : Nat}
    {v : V} {w s₁ g₁ s₂ g₂ t tail : Text} (hw : Blanks w) (h₁ : Numeral s₁ (r + 1)) (hg₁ : Gap g₁)
    (h₂ : Numeral s₂ (c + 1)) (hg₂ : Gap g₂) (hv : W v t) (he : Ends tail) :
    scanEntry scanVal (w ++ (s₁ ++ (g₁ ++ (s₂ ++ (g₂ ++ (t ++ tail))))))
      = some (oneBased (r, c, v), tail.dropWhile blank) := by
  unfold scanEntry
  rw [scanInts_two hw h₁ hg₁ h₂ (hg₂.ends _)]
  dsimp only
  unfold scanThird
  rw [hW _ _ _ _ hv hg₂.2 he]
  rfl

theorem scanEntries_body [Zero V] {W : V → Text → Prop} {scanVal : Text → Scan V} (hW : ScanOk W scanVal)
    {rest : Text} {es : List (Nat × Nat × V)} {s : Text} (h : Body W rest es s) :
    scanEntries scanVal es.length s = some (es.map oneBased) := by
  induction es generalizing s with
  | nil => rfl
  | cons e es ih =>
    cases h with
    | cons hw h₁ hg₁ h₂ hg₂ hv he hr =>
      rw [List.length_cons, scanEntries, scanEntry_cons hW hw h₁ hg₁ h₂ hg₂ hv he]
      dsimp only [Option.bind_eq_bind, Option.bind_some]
      cases es with
      | nil => rfl
      | cons d es => rw [ih hr.drop]; rfl

/-- A file that ends too early. -/
theorem scanEntries_short [Zero V] {W : V → Text → Prop} {scanVal : Text → Scan V} (hW : ScanOk W scanVal)
    {rest : Text} (hb : Blanks rest) {es : List (Nat × Nat × V)} {s : Text} (h : Body W rest es s) {k : Nat}
    (hk : es.length < k) : scanEntries scanVal k s = none ∧ scanEntries scanVal k (s.dropWhile blank) = none := by
  induction es generalizing s k with
  | nil =>
    cases h
    obtain ⟨k, rfl⟩ : ∃ j, k = j + 1 := ⟨k - 1, by simp at hk; omega⟩
    have e0 : rest.dropWhile blank = [] := by
      have := dropWhile_blanks hb []
      rw [List.append_nil] at this
      exact this
    have h1 : ∀ u : Text, u.dropWhile blank = [] → scanEntries scanVal (k + 1) u = none := by
      intro u hu
      have : scanInt u = .eof := by unfold scanInt; rw [hu]
      rw [scanEntries]
      unfold scanEntry
      rw [scanInts, this]
      rfl
    exact ⟨h1 _ e0, h1 _ (by rw [dropWhile_idem, e0])⟩
  | cons e es ih =>
    obtain ⟨k, rfl⟩ : ∃ j, k = j + 1 := ⟨k - 1, by simp at hk; omega⟩
    have gen : ∀ u, Body W rest (e :: es) u → scanEntries scanVal (k + 1) u = none := by
      intro u hu
      cases hu with
      | cons hw h₁ hg₁ h₂ hg₂ hv he hr =>
        rw [scanEntries, scanEntry_cons hW hw h₁ hg₁ h₂ hg₂ hv he]
        dsimp only [Option.bind_eq_bind, Option.bind_some]
        rw [(ih hr (by simpa using hk)).2]
        rfl
    exact ⟨gen s h, gen _ h.drop⟩

theorem build_oneBased [Zero V] (sym : Bool) (m n : Nat) (es : List (Nat × Nat × V)) :
    build sym m n (es.map oneBased) = ReadMtx.assemble m n es >>= fun A => ok (.matrix A (if sym then -1 else 0)) := by
  have h1 : (es.map oneBased).all (fun e => decide (1 ≤ e.1) && decide (1 ≤ e.2.1)) = true := by
    rw [List.all_eq_true]
    intro e he
    obtain ⟨d, -, rfl⟩ := List.mem_map.1 he
    unfold oneBased
    exact Bool.and_eq_true_iff.2 ⟨decide_eq_true (by dsimp only; omega), decide_eq_true (by dsimp only; omega)⟩
  have h2 : ((es.map oneBased).map fun e => ((e.1 - 1).toNat, (e.2.1 - 1).toNat, e.2.2)) = es := by
    rw [List.map_map]
    conv_rhs => rw [← List.map_id es]
    refine List.map_congr_left fun e _ => ?_
    obtain ⟨r, c, v⟩ := e
    simp [oneBased]
  unfold build
  rw [if_pos h1, h2]

/-- `read_mtx` on a Matrix Market text works with exactly the entries of the text. -/
theorem readMtxText_eq [Zero V] {W : V → Text → Prop} {scanVal : Text → Scan V} (hW : ScanOk W scanVal) {sym : Bool}
    {m n : Nat} {es : List (Nat × Nat × V)} {txt : Text} (h : MtxText W sym m n es txt) (fuel : Nat) :
    readMtxText scanVal fuel txt = ReadMtx.assemble m n es >>= fun A => ok (.matrix A (if sym then -1 else 0)) := by
  obtain ⟨arith, body, rest, ha, ⟨head, comments, size, rfl, ho, hh, hc, hos, hs⟩, hb⟩ := h
  obtain ⟨c2, hc2, hwa, hla⟩ : ∃ c2, arithCode arith = some c2 ∧ Word arith ∧ arith.length < 64 := by
    rcases ha with rfl | rfl
    · exact ⟨'R', by decide, by unfold Word; decide, by decide⟩
    · exact ⟨'I', by decide, by unfold Word; decide, by decide⟩
  have hc3 : shapeCode (if sym then "symmetric".toList else "general".toList) = some (if sym then 'S' else 'G') := by
    cases sym <;> decide
  unfold readMtxText
  rw [readBanner_head hwa (word_shape sym) hla (by cases sym <;> decide) hc2 hc3 ho hh, ok_bind]
  dsimp only
  rw [readSize_header hc hos hs, ok_bind]
  dsimp only
  rw [if_neg (by omega), Int.toNat_natCast, scanEntries_body hW hb]
  dsimp only
  rw [Int.toNat_natCast, Int.toNat_natCast, build_oneBased]
  cases sym <;> rfl

end Verif.Mtx
