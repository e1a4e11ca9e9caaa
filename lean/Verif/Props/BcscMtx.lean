import Verif.Model.BcscMtx
import Verif.Props.Bcsc
import Verif.Props.MtxText
import Verif.Proof.Bridge

/-!
# C126: a matrix stored by blocks, written to a file and read back
-/

namespace Verif.BcscMtx
open Res Bcsc Mtx Verif

variable {V : Type} {m : Mat V}

/-- A position that is stored in the blocked format: row `r` occurs in some column of the block of column `j`. -/
def Stored (m : Mat V) (nodes : Nat) (super : List Nat) (r j : Nat) : Prop :=
  ∃ s a b, s < nodes ∧ super[s]? = some a ∧ super[s + 1]? = some b ∧ a ≤ j ∧ j < b ∧ r ∈ blockRows m.pat a b

/-- The entries in the order of the columns, in each column in the order of the rows, no position twice. -/
def InOrder (es : List (Nat × Nat × V)) : Prop :=
  es.Pairwise fun x y => x.2.1 < y.2.1 ∨ (x.2.1 = y.2.1 ∧ x.1 < y.1)

theorem append_loop {α : Type} {n : Nat} {body : Nat → List α → Res (List α)} {f : Nat → List α}
    (h : ∀ k, k < n → ∀ s, body k s = ok (s ++ f k)) (s : List α) :
    forRange 0 n body s = ok (s ++ (List.range n).flatMap f) := by
  have : wp (forRange 0 n body s) (fun t => t = s ++ (List.range n).flatMap f) := by
    refine forRange_wp (fun k t => t = s ++ (List.range k).flatMap f) (Nat.zero_le _) (by simp) ?_
    rintro k t - hk rfl
    rw [h k hk, wp_ok, List.range_succ]
    simp
  obtain ⟨t, h1, rfl⟩ := wp_iff.1 this
  exact h1

theorem flatMap_index {α β : Type} (l : List α) (f : α → List β) {g : Nat → List β}
    (h : ∀ k a, l[k]? = some a → g k = f a) : (List.range l.length).flatMap g = l.flatMap f := by
  induction l using List.reverseRecOn with
  | nil => rfl
  | append_singleton l a ih =>
    rw [List.length_append, List.length_singleton, List.range_succ, List.flatMap_append, List.flatMap_append,
      ih (fun k b hk => h k b (by rw [List.getElem?_append_left (List.getElem?_eq_some_iff.1 hk).1]; exact hk))]
    have := h l.length a (by simp)
    simp [this]

/-- The entries of a block. -/
def blockEntries (zero : V) (m : Mat V) (a b : Nat) : List (Nat × Nat × V) :=
  (List.range (b - a)).flatMap fun j => (blockRows m.pat a b).map fun r => (r, a + j, m.entry zero r (a + j))

/-- The entries of all blocks. -/
def allEntries (zero : V) (m : Mat V) (nodes : Nat) (super : List Nat) : List (Nat × Nat × V) :=
  (List.range nodes).flatMap fun s => blockEntries zero m (super.getD s 0) (super.getD (s + 1) 0)

theorem blockText_eq {zero : V} {nodes : Nat} {super : List Nat} (hp : PtrOk super nodes m.n) (fmt : V → Mtx.Text)
    {B : Blocked V} (hs : B.super = super) (hB : IsBlocked zero m nodes super B.nrows B.p B.i B.x)
    {s : Nat} (hsn : s < nodes) (hw : super.getD s 0 < super.getD (s + 1) 0) (t : Mtx.Text)
    (hpl : ∀ s, s ≤ nodes → s < B.p.length) :
    blockText fmt B s t = ok (t ++ (blockEntries zero m (super.getD s 0) (super.getD (s + 1) 0)).flatMap
      fun e => entryLine fmt [] e ++ ['\n']) := by
  have g1 := hp.get (b := s) (by omega)
  have g2 := hp.get (b := s + 1) (by omega)
  obtain ⟨a, ha⟩ : ∃ a, a = super.getD s 0 := ⟨_, rfl⟩
  obtain ⟨b, hb⟩ : ∃ b, b = super.getD (s + 1) 0 := ⟨_, rfl⟩
  rw [← ha] at g1 hw ⊢
  rw [← hb] at g2 hw ⊢
  have p1 : B.p[s]? = some (B.p.getD s 0) := by
    rw [List.getD_eq_getElem?_getD, List.getElem?_eq_getElem (hpl s (by omega))]; rfl
  have p2 := hB.next s hsn a b _ g1 g2 p1
  obtain ⟨o, ho⟩ : ∃ o, o = B.p.getD s 0 := ⟨_, rfl⟩
  rw [← ho] at p1 p2
  unfold blockText
  rw [hs, show rd B.p s = ok o by unfold rd; rw [p1], ok_bind, show rd super (s + 1) = ok b by unfold rd; rw [g2],
    ok_bind, show rd super s = ok a by unfold rd; rw [g1], ok_bind,
    show rd B.p (s + 1) = ok _ by unfold rd; rw [p2], ok_bind, if_neg (by omega)]
  dsimp only
  rw [Nat.add_sub_cancel_left, Nat.mul_div_cancel _ (by omega : 0 < b - a)]
  refine (append_loop (f := fun j => ((blockRows m.pat a b).map fun r => (r, a + j, m.entry zero r (a + j))).flatMap
      fun e => entryLine fmt [] e ++ ['\n']) ?_ t).trans ?_
  · intro j hj u
    refine (append_loop (f := fun k => entryText fmt ((blockRows m.pat a b).getD k 0) (a + j)
      (m.entry zero ((blockRows m.pat a b).getD k 0) (a + j))) ?_ u).trans ?_
    · intro k hk v
      have hr : (blockRows m.pat a b)[k]? = some ((blockRows m.pat a b).getD k 0) := by
        rw [List.getD_eq_getElem?_getD, List.getElem?_eq_getElem hk]; rfl
      obtain ⟨e1, e2⟩ := hB.entry s hsn a b o g1 g2 p1 (a + j) k _ (by omega) (by omega) hr
      rw [Nat.add_sub_cancel_left] at e1 e2
      rw [show rd B.i _ = ok _ by unfold rd; rw [e1], ok_bind, show rd B.x _ = ok _ by unfold rd; rw [e2], ok_bind]
    · rw [List.flatMap_map, flatMap_index (blockRows m.pat a b)
        (fun r => entryLine fmt [] (r, a + j, m.entry zero r (a + j)) ++ ['\n'])]
      intro k r hk
      rw [List.getD_eq_getElem?_getD, hk]
      simp [entryText, entryLine]
  · unfold blockEntries
    rw [List.flatMap_assoc]

theorem p_len {zero : V} {nodes : Nat} {super : List Nat} {nrows p i : List Nat} {x : List V}
    (hB : IsBlocked zero m nodes super nrows p i x) : ∀ s, s ≤ nodes → s < p.length := by
  intro s hs
  have := (List.getElem?_eq_some_iff.1 hB.size.1).1
  omega

theorem bcscToMtx_eq {zero : V} {nodes : Nat} {super : List Nat} (hp : PtrOk super nodes m.n) (fmt : V → Mtx.Text)
    {B : Blocked V} (hn : B.nodes = nodes) (hs : B.super = super)
    (hB : IsBlocked zero m nodes super B.nrows B.p B.i B.x)
    (hw : ∀ s, s < nodes → super.getD s 0 < super.getD (s + 1) 0) (nnz : Nat) :
    bcscToMtx fmt m.n nnz B = ok (bannerText ++ sizeText m.n m.n nnz
      ++ (allEntries zero m nodes super).flatMap fun e => entryLine fmt [] e ++ ['\n']) := by
  unfold bcscToMtx
  rw [hn]
  refine (append_loop (f := fun s => (blockEntries zero m (super.getD s 0) (super.getD (s + 1) 0)).flatMap
      fun e => entryLine fmt [] e ++ ['\n']) ?_ _).trans ?_
  · intro s hs' t
    exact blockText_eq hp fmt hs hB hs' (hw s hs') t (p_len hB)
  · unfold allEntries
    rw [List.flatMap_assoc]

theorem mem_allEntries {zero : V} {nodes : Nat} {super : List Nat} (hp : PtrOk super nodes m.n) {r j : Nat} {v : V} :
    (r, j, v) ∈ allEntries zero m nodes super ↔ Stored m nodes super r j ∧ v = m.entry zero r j := by
  unfold allEntries blockEntries Stored
  simp only [List.mem_flatMap, List.mem_range, List.mem_map, Prod.mk.injEq]
  constructor
  · rintro ⟨s, hs, i, hi, r', hr, rfl, rfl, rfl⟩
    exact ⟨⟨s, _, _, hs, hp.get (by omega), hp.get (by omega), by omega, by omega, hr⟩, rfl⟩
  · rintro ⟨⟨s, a, b, hs, ha, hb, h1, h2, hr⟩, rfl⟩
    have ea : super.getD s 0 = a := by rw [List.getD_eq_getElem?_getD, ha]; rfl
    have eb : super.getD (s + 1) 0 = b := by rw [List.getD_eq_getElem?_getD, hb]; rfl
    refine ⟨s, hs, j - a, by omega, r, by rw [ea, eb]; exact hr, rfl, ?_, ?_⟩
    · omega
    · rw [ea, show a + (j - a) = j by omega]

theorem allEntries_inOrder {zero : V} {nodes : Nat} {super : List Nat} (hp : PtrOk super nodes m.n) :
    InOrder (allEntries zero m nodes super) := by
  unfold InOrder allEntries
  rw [List.pairwise_flatMap]
  constructor
  · intro s _
    unfold blockEntries
    rw [List.pairwise_flatMap]
    constructor
    · intro j _
      rw [List.pairwise_map]
      exact blockRows_sorted.imp fun h => .inr ⟨rfl, h⟩
    · refine List.pairwise_lt_range.imp ?_
      intro i j hij x hx y hy
      obtain ⟨r, -, rfl⟩ := List.mem_map.1 hx
      obtain ⟨r', -, rfl⟩ := List.mem_map.1 hy
      left; dsimp only; omega
  · refine (List.pairwise_lt_range (n := nodes)).imp_of_mem ?_
    intro s t hs ht hst x hx y hy
    unfold blockEntries at hx hy
    obtain ⟨i, hi, hx⟩ := List.mem_flatMap.1 hx
    obtain ⟨j, hj, hy⟩ := List.mem_flatMap.1 hy
    obtain ⟨r, -, rfl⟩ := List.mem_map.1 hx
    obtain ⟨r', -, rfl⟩ := List.mem_map.1 hy
    rw [List.mem_range] at hi hj hs ht
    have := hp.dmono_le (a := s + 1) (b := t) (by omega) (by omega)
    left; dsimp only; omega

theorem allEntries_length {zero : V} {nodes : Nat} {super : List Nat} (hp : PtrOk super nodes m.n)
    {nrows p i : List Nat} {x : List V} (hB : IsBlocked zero m nodes super nrows p i x) :
    (allEntries zero m nodes super).length = i.length := by
  have key : ∀ k, k ≤ nodes → p[k]? = some ((List.range k).flatMap fun s =>
      blockEntries zero m (super.getD s 0) (super.getD (s + 1) 0)).length := by
    intro k
    induction k with
    | zero => intro _; rw [hB.first]; rfl
    | succ k ih =>
      intro hk
      rw [hB.next k (by omega) _ _ _ (hp.get (by omega)) (hp.get (by omega)) (ih (by omega)), List.range_succ,
        List.flatMap_append, List.length_append]
      simp [blockEntries, List.length_flatMap, Nat.mul_comm]
  have := key nodes (le_refl _)
  rw [hB.size.1] at this
  injection this with this
  exact this.symm

/-- **C126.** The file that `BCSC_to_mtx` writes for a matrix stored by blocks is a Matrix Market file: the
number of entries it announces is the number of its lines, and these are the positions of the blocks, each with
the (rounded) value of the matrix there, in the order of the columns and rows.  Every block has a column. -/
theorem C126_file {W : V → Mtx.Text → Prop} {fmt : V → Mtx.Text} {round : V → V} (hf : FmtOk W fmt round) (zero : V)
    {nodes : Nat} {super : List Nat} (hp : PtrOk super nodes m.n)
    (hw : ∀ s a b, s < nodes → super[s]? = some a → super[s + 1]? = some b → a < b)
    {B : Blocked V} (hn : B.nodes = nodes) (hs : B.super = super)
    (hB : IsBlocked zero m nodes super B.nrows B.p B.i B.x) (h1 : m.n < 2 ^ 31) (h2 : B.i.length < 2 ^ 31) :
    ∃ txt es, bcscToMtx fmt m.n B.i.length B = ok txt ∧ MtxText W false m.n m.n es txt ∧ InOrder es ∧
      es.length = B.i.length ∧
      ∀ r j v, (r, j, v) ∈ es ↔ Stored m nodes super r j ∧ v = round (m.entry zero r j) := by
  have hl := allEntries_length hp hB
  refine ⟨_, (allEntries zero m nodes super).map (roundEntry round), bcscToMtx_eq hp fmt hn hs hB
    (fun s hs => hw s _ _ hs (hp.get (by omega)) (hp.get (by omega))) _, ?_, ?_, by rw [List.length_map, hl], ?_⟩
  · have key := mtxText_lines (V := V) hf (indent := []) Blanks.nil (by simp) (by simp) (sym := false) (arith := "real".toList)
      (beg := "%%MatrixMarket matrix coordinate real general".toList) (.inl rfl)
      ⟨"matrix".toList, "coordinate".toList, "real".toList, "general".toList,
        ⟨[], [' '], [' '], [' '], [' '], [], by decide, Blanks.nil, gap_space, gap_space, gap_space, gap_space,
          Ends.nil⟩, by decide, by decide, by decide, by decide⟩
      (by unfold OneLine; decide) h1 h1 id (fun _ => ['\n']) (allEntries zero m nodes super) (by rw [hl]; exact h2)
      (newline_sep _).1 (newline_sep _).2
    rw [hl] at key
    have hb : bannerText = [] ++ "%%MatrixMarket matrix coordinate real general".toList ++ ['\n'] ++ [] := by decide
    rw [hb]
    exact key
  · exact List.pairwise_map.2 (allEntries_inOrder hp)
  · intro r j v
    rw [List.mem_map]
    constructor
    · rintro ⟨⟨r', j', v'⟩, h, he⟩
      obtain ⟨h3, rfl⟩ := (mem_allEntries hp).1 h
      simp only [roundEntry, Prod.mk.injEq] at he
      obtain ⟨rfl, rfl, rfl⟩ := he
      exact ⟨h3, rfl⟩
    · rintro ⟨h, rfl⟩
      exact ⟨(r, j, m.entry zero r j), (mem_allEntries hp).2 ⟨h, rfl⟩, rfl⟩

theorem stored_range (hm : m.WF) {nodes : Nat} {super : List Nat} (hp : PtrOk super nodes m.n) {r j : Nat}
    (h : Stored m nodes super r j) : r < m.n ∧ j < m.n := by
  obtain ⟨s, a, b, hs, ha, hb, h1, h2, hr⟩ := h
  have eb : super.getD (s + 1) 0 = b := by rw [List.getD_eq_getElem?_getD, hb]; rfl
  have hbn : b ≤ m.n := eb ▸ hp.dle (b := s + 1) (by omega)
  obtain ⟨j', _, h, hr'⟩ := (mem_blockRows hm.pat hbn).1 hr
  exact ⟨hm.pat.range j' (show j' < m.n by omega) r hr', by omega⟩

/-- A stored entry of the matrix is a stored position of the blocks. -/
theorem C126_stored_of_mem (hm : m.WF) {nodes : Nat} {super : List Nat} (hp : PtrOk super nodes m.n) {r j : Nat}
    (hj : j < m.n) (hr : r ∈ m.pat.col j) : Stored m nodes super r j := by
  obtain ⟨s, hs, h1, h2⟩ := hp.exists_block hj
  refine ⟨s, _, _, hs, hp.get (by omega), hp.get (by omega), h1, h2, ?_⟩
  exact (mem_blockRows hm.pat (hp.dle (b := s + 1) (by omega))).2 ⟨j, h1, h2, hr⟩

theorem lookup_row {es : List (Nat × V)} (h : es.Pairwise fun x y => x.1 < y.1) {r : Nat} {v : V}
    (hv : (r, v) ∈ es) : es.lookup r = some v := by
  induction es with
  | nil => simp at hv
  | cons e es ih =>
    rw [List.pairwise_cons] at h
    obtain ⟨k, w⟩ := e
    rw [List.lookup_cons]
    rcases List.mem_cons.1 hv with he | he
    · cases he; simp
    · have : k < r := h.1 _ he
      rw [show (r == k) = false by simpa using by omega]
      exact ih h.2 he

theorem lookup_none {es : List (Nat × V)} {r : Nat} (h : ∀ v, (r, v) ∉ es) : es.lookup r = none := by
  rw [List.lookup_eq_none_iff]
  rintro ⟨k, v⟩ hp
  simp only [bne_iff_ne, ne_eq]
  rintro rfl
  exact h v hp

/-- **C126.** Written by `BCSC_to_mtx` and read by `read_mtx`, a matrix without an empty column comes back with
the same (rounded) value at every position; the stored entries are all positions of the blocks. -/
theorem C126_round_trip [Zero V] {W : V → Mtx.Text → Prop} {scanVal : Mtx.Text → Scan V} (hW : ScanOk W scanVal)
    {fmt : V → Mtx.Text} {round : V → V} (hf : FmtOk W fmt round) (zero : V) (hm : m.WF) (h0 : 0 < m.n)
    (hne : ∀ j, j < m.n → m.pat.col j ≠ [])
    {nodes : Nat} {super : List Nat} (hp : PtrOk super nodes m.n)
    (hw : ∀ s a b, s < nodes → super[s]? = some a → super[s + 1]? = some b → a < b)
    {B : Blocked V} (hn : B.nodes = nodes) (hs : B.super = super)
    (hB : IsBlocked zero m nodes super B.nrows B.p B.i B.x) (h1 : m.n < 2 ^ 31) (h2 : B.i.length < 2 ^ 31)
    (fuel : Nat) :
    ∃ txt A, bcscToMtx fmt m.n B.i.length B = ok txt ∧ readMtxText scanVal fuel txt = ok (.matrix A 0) ∧
      A.WF ∧ A.rows = m.n ∧ A.cols = m.n ∧ A.p.getD A.cols 0 = B.i.length ∧ InOrder A.entries ∧
      (∀ r j, (∃ v, (r, j, v) ∈ A.entries) ↔ Stored m nodes super r j) ∧
      ∀ r j, j < m.n → A.toMat.entry (round zero) r j = round (m.entry zero r j) := by
  obtain ⟨txt, es, k1, k2, k3, k4, k5⟩ := C126_file hf zero hp hw hn hs hB h1 h2
  have hr : ∀ e ∈ es, e.1 < m.n ∧ e.2.1 < m.n := by
    rintro ⟨r, j, v⟩ he
    exact stored_range hm hp ((k5 r j v).1 he).1
  obtain ⟨A, a1, a2, a3, a4, a5, a6⟩ := C115_read_mtx hW k2 h0 hr (k3.imp fun h => by omega) (by
    intro c hc
    obtain ⟨r, hr⟩ := List.exists_mem_of_ne_nil _ (hne c hc)
    exact ⟨(r, c, _), (k5 r c _).2 ⟨C126_stored_of_mem hm hp hc hr, rfl⟩, rfl⟩) fuel
  refine ⟨txt, A, k1, a1, a2, a4, a5, by rw [← entries_count a2, a6, k4], by rw [a6]; exact k3, ?_, ?_⟩
  · intro r j
    rw [a6]
    constructor
    · rintro ⟨v, hv⟩
      exact ((k5 r j v).1 hv).1
    · intro h
      exact ⟨_, (k5 r j _).2 ⟨h, rfl⟩⟩
  · intro r j hj
    have hmem : ∀ v, (r, v) ∈ A.toMat.row j ↔ (r, j, v) ∈ es := by
      intro v
      rw [← a6, Sp.mem_entries]
      exact ⟨fun h => ⟨by rw [a5]; exact hj, h⟩, fun h => h.2⟩
    unfold Mat.entry
    by_cases hst : Stored m nodes super r j
    · have hv := (hmem _).2 ((k5 r j _).2 ⟨hst, rfl⟩)
      rw [lookup_row ?_ hv]
      · rfl
      · rw [Sp.toMat_row]
        have := k3
        unfold InOrder at this
        rw [← a6] at this
        unfold Sp.entries at this
        rw [List.pairwise_flatMap] at this
        have := this.1 j (List.mem_range.2 (by rw [a5]; exact hj))
        rw [List.pairwise_map] at this
        exact this.imp fun h => by
          rcases h with h | h
          · exact absurd h (Nat.lt_irrefl _)
          · exact h.2
    · rw [lookup_none (fun v hv => hst ((k5 r j v).1 ((hmem v).1 hv)).1)]
      have : m.entry zero r j = zero := by
        refine entry_none hm hj ?_
        intro h
        exact hst (C126_stored_of_mem hm hp hj h)
      unfold Mat.entry at this
      rw [this]
      rfl

theorem generate_fields {zero : V} {nodes : Nat} {super : List Nat} {B : Blocked V}
    (h : generate zero m nodes super = ok B) : B.nodes = nodes ∧ B.super = super := by
  unfold generate at h
  obtain ⟨u, -, h⟩ := P2P.bind_ok_inv h
  obtain ⟨w, -, h⟩ := P2P.bind_ok_inv h
  injection h with h
  subst h
  exact ⟨rfl, rfl⟩

theorem inOrder_length {es : List (Nat × Nat × V)} {n : Nat} (h : InOrder es) (hr : ∀ e ∈ es, e.1 < n ∧ e.2.1 < n) :
    es.length ≤ n * n := by
  have hnd : (es.map fun e => e.2.1 * n + e.1).Nodup := by
    rw [List.Nodup, List.pairwise_map]
    refine h.imp_of_mem ?_
    intro x y hx hy hxy he
    have h1 := hr x hx
    have h2 := hr y hy
    rcases hxy with hc | ⟨hc, hd⟩
    · have : (x.2.1 + 1) * n ≤ y.2.1 * n := Nat.mul_le_mul_right _ hc
      rw [Nat.add_mul] at this
      omega
    · rw [hc] at he
      omega
  have hsub : (es.map fun e => e.2.1 * n + e.1) ⊆ List.range (n * n) := by
    intro k hk
    obtain ⟨e, he, rfl⟩ := List.mem_map.1 hk
    have h1 := hr e he
    have : (e.2.1 + 1) * n ≤ n * n := Nat.mul_le_mul_right _ h1.2
    rw [Nat.add_mul] at this
    rw [List.mem_range]
    omega
  have := (List.subperm_of_subset hnd hsub).length_le
  rw [List.length_map, List.length_range] at this
  exact this

/-- **C126.** The constructor `BCSCMatrix(A)` followed by `BCSC_to_mtx` and `read_mtx`. -/
theorem C126_constructor [Zero V] {W : V → Mtx.Text → Prop} {scanVal : Mtx.Text → Scan V} (hW : ScanOk W scanVal)
    {fmt : V → Mtx.Text} {round : V → V} (hf : FmtOk W fmt round) (zero : V) (hm : m.WF) (h0 : 0 < m.n)
    (hs : ∀ j, j < m.n → (m.pat.col j).Pairwise (· < ·)) (hne : ∀ j, j < m.n → m.pat.col j ≠ [])
    (h1 : m.n * m.n < 2 ^ 31) (fuel : Nat) :
    ∃ ptr B txt A, Super.supernodes m.n m.n true m.p m.i = ok (ptr.map (fun (v : Nat) => (v : Int))) ∧
      generate zero m (ptr.length - 1) ptr = ok B ∧ bcscToMtx fmt m.n B.i.length B = ok txt ∧
      readMtxText scanVal fuel txt = ok (.matrix A 0) ∧ A.WF ∧ A.rows = m.n ∧ A.cols = m.n ∧
      A.p.getD A.cols 0 = B.i.length ∧ InOrder A.entries ∧
      (∀ r j, (∃ v, (r, j, v) ∈ A.entries) ↔ Stored m (ptr.length - 1) ptr r j) ∧
      ∀ r j, j < m.n → A.toMat.entry (round zero) r j = round (m.entry zero r j) := by
  obtain ⟨ptr, B, g1, g2, g3, g4, -⟩ := C59_constructor hm zero hs hne
  have hp := g3.ptrOk
  obtain ⟨e1, e2⟩ := generate_fields g2
  have hlen : B.i.length < 2 ^ 31 := by
    refine lt_of_le_of_lt ?_ h1
    rw [← allEntries_length hp g4]
    exact inOrder_length (allEntries_inOrder hp) (by
      rintro ⟨r, j, v⟩ he
      exact stored_range hm hp ((mem_allEntries hp).1 he).1)
  have hn : m.n < 2 ^ 31 := lt_of_le_of_lt (Nat.le_mul_self _) h1
  obtain ⟨txt, A, k⟩ := C126_round_trip hW hf zero hm h0 hne hp (fun s a b hs ha hb => (g3.range s a b ha hb).1)
    e1 e2 g4 hn hlen fuel
  exact ⟨ptr, B, txt, A, g1, g2, k⟩

/-- **C126**, finding: if a block has two columns, and the first of them its diagonal entry, the matrix that comes
back is not lower triangular, even if the matrix was: position `(a, a + 1)` is stored. -/
theorem C126_not_lower {nodes : Nat} {super : List Nat} (hm : m.WF) (hp : PtrOk super nodes m.n) {A : Sp V}
    (h : ∀ r j, (∃ v, (r, j, v) ∈ A.entries) ↔ Stored m nodes super r j) {s a b : Nat} (hs : s < nodes)
    (ha : super[s]? = some a) (hb : super[s + 1]? = some b) (hab : a + 1 < b) (hd : a ∈ m.pat.col a) :
    ¬ A.Lower := by
  intro hl
  have eb : super.getD (s + 1) 0 = b := by rw [List.getD_eq_getElem?_getD, hb]; rfl
  obtain ⟨v, hv⟩ := (h a (a + 1)).2 ⟨s, a, b, hs, ha, hb, by omega, hab,
    (mem_blockRows hm.pat (eb ▸ hp.dle (b := s + 1) (by omega))).2 ⟨a, le_refl _, by omega, hd⟩⟩
  have := hl _ hv
  dsimp only at this
  omega

/-- **C126**, finding: with an empty block, which the constructor of the format accepts, the writer divides by
zero. -/
theorem C126_empty_block : ∃ B, generate (0 : Int) ⟨2, [0, 2, 3], [0, 1, 1], [4, -5, 6]⟩ 2 [0, 0, 2] = ok B ∧
    bcscToMtx showInt 2 B.i.length B = ub := ⟨_, rfl, rfl⟩

/-- **C126**, finding: the number of entries of the matrix itself would be wrong in the first line; a dense lower
triangular matrix of order 2 has three entries, its file four. -/
theorem C126_explicit_zero : ∃ B txt, generate (0 : Int) ⟨2, [0, 2, 3], [0, 1, 1], [4, -5, 6]⟩ 1 [0, 2] = ok B ∧
    bcscToMtx showInt 2 B.i.length B = ok txt ∧
    readMtxText scanInt 0 txt = ok (.matrix ⟨2, 2, [0, 2, 4], [0, 1, 0, 1], [4, -5, 0, 6]⟩ 0) := by
  refine ⟨_, _, rfl, rfl, ?_⟩
  decide +kernel

/-- `C126_constructor` for that matrix. -/
example : ∃ ptr B txt A, Super.supernodes 2 2 true [0, 2, 3] [0, 1, 1] = ok (ptr.map (fun (v : Nat) => (v : Int))) ∧
    generate (0 : Int) ⟨2, [0, 2, 3], [0, 1, 1], [4, -5, 6]⟩ (ptr.length - 1) ptr = ok B ∧
    bcscToMtx showInt 2 B.i.length B = ok txt ∧ readMtxText scanInt 0 txt = ok (.matrix A 0) ∧ A.cols = 2 := by
  obtain ⟨ptr, B, txt, A, h1, h2, h3, h4, -, -, h5, -⟩ := C126_constructor scanInt_ok showInt_ok (0 : Int)
    (m := ⟨2, [0, 2, 3], [0, 1, 1], [4, -5, 6]⟩) ⟨⟨rfl, rfl, by decide, by decide, by decide⟩, by decide⟩ (by decide)
    (by decide) (by decide) (by decide) 0
  exact ⟨ptr, B, txt, A, h1, h2, h3, h4, h5⟩

end Verif.BcscMtx
