import Verif.Proof.SmallUtil
import Verif.Proof.Graph
import Verif.Props.TreeUtil
import Verif.Props.Triplets

/-!
# C92: small matrix utilities

`verify_csc_diagonal`, `tridiag`, `tree_to_csc`, `sparse2dense`, `extract_diagonals`
(utils/sparse_utilities.cpp) and `convert_to_one_based` (utils/sparse_io.cpp).
-/

namespace Verif.SmallU
open Res Sp

variable {V : Type}

/-- **C92** `tridiag(n, a0, a1, a2)` for `n ≥ 2`: `a1` on the diagonal, `a0` above and `a2` below it (all entries, not
one half, although `stype` says so), and nothing else. -/
theorem C92_tridiag [Zero V] {n : Nat} (hn : 2 ≤ n) (a0 a1 a2 : V) :
    ∃ A, tridiag n a0 a1 a2 = ok A ∧ A.WF ∧ A.Exact ∧ A.rows = n ∧ A.cols = n ∧
      (∀ c, c < n → (A.colRows c).Pairwise (· < ·)) ∧
      ∀ r c v, (r, c, v) ∈ A.entries ↔ r < n ∧ c < n ∧
        ((r + 1 = c ∧ v = a0) ∨ (r = c ∧ v = a1) ∨ (r = c + 1 ∧ v = a2)) := by
  obtain ⟨A, h1, h2, h3, h4, h5⟩ := wp_iff.1 (tridiag_wp hn a0 a1 a2)
  have hmem : ∀ r c v, c < n → ((r, v) ∈ triCol n a0 a1 a2 c ↔ r < n ∧
      ((r + 1 = c ∧ v = a0) ∨ (r = c ∧ v = a1) ∨ (r = c + 1 ∧ v = a2))) := by
    intro r c v hc
    unfold triCol
    split_ifs with k1 k2
    all_goals simp only [List.mem_cons, List.not_mem_nil, or_false, Prod.mk.injEq]
    · subst k1
      constructor
      · rintro (⟨rfl, rfl⟩ | ⟨rfl, rfl⟩)
        · exact ⟨by omega, .inr (.inl ⟨rfl, rfl⟩)⟩
        · exact ⟨by omega, .inr (.inr ⟨rfl, rfl⟩)⟩
      · rintro ⟨_, ⟨h, _⟩ | ⟨rfl, rfl⟩ | ⟨rfl, rfl⟩⟩
        · omega
        · exact .inl ⟨rfl, rfl⟩
        · exact .inr ⟨rfl, rfl⟩
    · constructor
      · rintro (⟨rfl, rfl⟩ | ⟨rfl, rfl⟩)
        · exact ⟨by omega, .inl ⟨by omega, rfl⟩⟩
        · exact ⟨by omega, .inr (.inl ⟨rfl, rfl⟩)⟩
      · rintro ⟨_, ⟨h, rfl⟩ | ⟨rfl, rfl⟩ | ⟨h, rfl⟩⟩
        · exact .inl ⟨by omega, rfl⟩
        · exact .inr ⟨rfl, rfl⟩
        · omega
    · constructor
      · rintro (⟨rfl, rfl⟩ | ⟨rfl, rfl⟩ | ⟨rfl, rfl⟩)
        · exact ⟨by omega, .inl ⟨by omega, rfl⟩⟩
        · exact ⟨by omega, .inr (.inl ⟨rfl, rfl⟩)⟩
        · exact ⟨by omega, .inr (.inr ⟨rfl, rfl⟩)⟩
      · rintro ⟨_, ⟨h, rfl⟩ | ⟨rfl, rfl⟩ | ⟨rfl, rfl⟩⟩
        · exact .inl ⟨by omega, rfl⟩
        · exact .inr (.inl ⟨rfl, rfl⟩)
        · exact .inr (.inr ⟨rfl, rfl⟩)
  have htot := triCol_tot hn a0 a1 a2 n (Nat.le_refl _)
  rw [if_neg (by omega), if_pos rfl] at htot
  refine ⟨A, h1, h5.wf ?_, ?_, h2, h5.cols, ?_, ?_⟩
  · intro c hc e he
    rw [h2]
    exact ((hmem e.1 c e.2 hc).1 he).1
  · refine ⟨?_, ?_⟩
    · rw [h3, h5.cols, h5.ptr n (Nat.le_refl _), htot]
    · rw [h4, h5.cols, h5.ptr n (Nat.le_refl _), htot]
  · intro c hc
    rw [h5.colRows hc]
    unfold triCol
    split_ifs <;> simp <;> omega
  · intro r c v
    rw [h5.mem_entries]
    constructor
    · rintro ⟨hc, hm⟩
      have := (hmem r c v hc).1 hm
      exact ⟨this.1, hc, this.2⟩
    · rintro ⟨hr, hc, h⟩
      exact ⟨hc, (hmem r c v hc).2 ⟨hr, h⟩⟩

/-- **C92** For `n = 1` it writes a second entry into arrays of length 1. -/
theorem C92_tridiag_one_ub [Zero V] (a0 a1 a2 : V) : tridiag 1 a0 a1 a2 = ub := rfl

/-- **C92** `sparse2dense`: every cell of the dense (column-major) array holds the last value stored for it, 0 if there
is none; elements behind the matrix do not matter. -/
theorem C92_sparse2dense [Zero V] {A : Sp V} (h : A.WF) {D : List V} (hD : A.cols * A.rows ≤ D.length) :
    ∃ D', sparse2dense A false D = ok D' ∧ ∀ r c, r < A.rows → c < A.cols → D'.getD (c * A.rows + r) 0
      = ((A.entries.filter fun e => decide (e.1 = r ∧ e.2.1 = c)).getLast?.map fun e => e.2.2).getD 0 := by
  obtain ⟨D', h1, -, h3⟩ := wp_iff.1 (sparse2dense_wp h (sym := false) (by simp) hD)
  refine ⟨D', h1, fun r c hr hc => ?_⟩
  rw [h3 r c hr hc]
  simp [lastVal, hits]

/-- **C92** With `stype` ±1 every entry also fills the cell mirrored at the diagonal. -/
theorem C92_sparse2dense_sym [Zero V] {A : Sp V} (h : A.WF) (hsq : A.rows = A.cols) {D : List V}
    (hD : A.cols * A.rows ≤ D.length) :
    ∃ D', sparse2dense A true D = ok D' ∧ ∀ r c, r < A.rows → c < A.cols → D'.getD (c * A.rows + r) 0
      = ((A.entries.filter fun e => decide ((e.1 = r ∧ e.2.1 = c) ∨ (e.1 = c ∧ e.2.1 = r))).getLast?.map
          fun e => e.2.2).getD 0 := by
  obtain ⟨D', h1, -, h3⟩ := wp_iff.1 (sparse2dense_wp h (sym := true) (fun _ => hsq) hD)
  refine ⟨D', h1, fun r c hr hc => ?_⟩
  rw [h3 r c hr hc]
  simp [lastVal, hits]

/-- **C92** Hence a symmetric matrix given by one half becomes a symmetric dense matrix. -/
theorem C92_sparse2dense_symmetric [Zero V] {A : Sp V} (h : A.WF) (hsq : A.rows = A.cols) {D : List V}
    (hD : A.cols * A.rows ≤ D.length) :
    ∃ D', sparse2dense A true D = ok D' ∧ ∀ r c, r < A.rows → c < A.cols →
      D'.getD (c * A.rows + r) 0 = D'.getD (r * A.rows + c) 0 := by
  obtain ⟨D', h1, h2⟩ := C92_sparse2dense_sym h hsq hD
  refine ⟨D', h1, fun r c hr hc => ?_⟩
  rw [h2 r c hr hc, h2 c r (by omega) (by omega)]
  have : (fun e : Nat × Nat × V => decide ((e.1 = r ∧ e.2.1 = c) ∨ (e.1 = c ∧ e.2.1 = r)))
      = fun e => decide ((e.1 = c ∧ e.2.1 = r) ∨ (e.1 = r ∧ e.2.1 = c)) := by
    funext e; rw [decide_eq_decide]; exact Or.comm
  rw [this]

/-- **C92** Without repeated entries, a stored value is found in its cell. -/
theorem C92_sparse2dense_value [Zero V] {A : Sp V} (h : A.WF) (hd : A.NoDup) {D : List V}
    (hD : A.cols * A.rows ≤ D.length) :
    ∃ D', sparse2dense A false D = ok D' ∧ (∀ r c v, (r, c, v) ∈ A.entries → D'.getD (c * A.rows + r) 0 = v) ∧
      ∀ r c, r < A.rows → c < A.cols → (¬∃ v, (r, c, v) ∈ A.entries) → D'.getD (c * A.rows + r) 0 = 0 := by
  obtain ⟨D', h1, h2⟩ := C92_sparse2dense h hD
  have hcoord : (A.entries.map fun e => (e.1, e.2.1)).Nodup := by
    rw [entries_eq h, List.map_map]
    exact (coords_nodup hd).sublist (by rw [← tagged_fst]; exact List.Sublist.refl _)
  refine ⟨D', h1, ?_, ?_⟩
  · intro r c v hm
    have hc : c < A.cols := (mem_entries.1 hm).1
    have hr : r < A.rows := h.range c hc r ((h.mem_colRows hc).2 ⟨v, hm⟩)
    rw [h2 r c hr hc]
    have : A.entries.filter (fun e => decide (e.1 = r ∧ e.2.1 = c)) = [(r, c, v)] := by
      generalize A.entries = l at hm hcoord
      induction l with
      | nil => cases hm
      | cons a l ih =>
        rw [List.map_cons, List.nodup_cons] at hcoord
        rcases List.mem_cons.1 hm with rfl | hm'
        · rw [List.filter_cons_of_pos (by simp)]
          congr 1
          rw [List.filter_eq_nil_iff]
          intro e he hh
          simp only [decide_eq_true_eq] at hh
          exact hcoord.1 (List.mem_map.2 ⟨e, he, by rw [hh.1, hh.2]⟩)
        · rw [List.filter_cons_of_neg, ih hm' hcoord.2]
          intro hh
          simp only [decide_eq_true_eq] at hh
          exact hcoord.1 (List.mem_map.2 ⟨_, hm', by rw [hh.1, hh.2]⟩)
    rw [this]
    rfl
  · intro r c hr hc hno
    rw [h2 r c hr hc]
    have : A.entries.filter (fun e => decide (e.1 = r ∧ e.2.1 = c)) = [] := by
      rw [List.filter_eq_nil_iff]
      rintro ⟨r', c', v⟩ he hh
      simp only [decide_eq_true_eq] at hh
      obtain ⟨rfl, rfl⟩ := hh
      exact hno ⟨v, he⟩
    rw [this]
    rfl

/-- **C92** `sparse2dense` undoes `dense_to_csc` (C38): the result is the dense matrix again (transposed storage:
`val` is an array of rows, the result is stored by columns). -/
theorem C92_dense_roundtrip [Zero V] (dbg : Bool) {nz : V → Bool} (hnz : ∀ v, nz v = false → v = 0) {rows cols : Nat}
    {val : List (List V)} (hl : rows ≤ val.length) (hc : ∀ r ∈ val.take rows, cols ≤ r.length) (hn : 0 < cols)
    {D : List V} (hD : cols * rows ≤ D.length) :
    ∃ B D', Util.denseToCsc dbg nz rows cols val = ok B ∧ sparse2dense B false D = ok D' ∧
      ∀ r c, r < rows → c < cols → ∃ l, val[r]? = some l ∧ l[c]? = some (D'.getD (c * rows + r) 0) := by
  obtain ⟨B, h1, h2, -, h4, h5, h6, h7⟩ := Util.C38_dense_to_csc dbg nz hl hc hn
  have hnd : B.NoDup := by
    intro c hc'
    rw [List.nodup_iff_pairwise_ne]
    exact (h7 c (by omega)).imp fun h => Nat.ne_of_lt h
  obtain ⟨D', k1, k2, k3⟩ := C92_sparse2dense_value h2 hnd (D := D) (by rw [h4, h5]; exact hD)
  refine ⟨B, D', h1, k1, fun r c hr hcc => ?_⟩
  have hr' : r < val.length := by omega
  have hlen : cols ≤ val[r].length := hc _ (List.mem_take_iff_getElem.2 ⟨r, by omega, rfl⟩)
  refine ⟨val[r], List.getElem?_eq_getElem hr', ?_⟩
  rw [List.getElem?_eq_getElem (by omega), Option.some.injEq]
  by_cases hz : nz (val[r][c]'(by omega)) = true
  · have := k2 r c _ ((h6 r c _).2 ⟨hr, hcc, ⟨_, List.getElem?_eq_getElem hr', List.getElem?_eq_getElem (by omega)⟩, hz⟩)
    rw [h4] at this
    exact this.symm
  · have h0 : val[r][c]'(by omega) = 0 := hnz _ (by simpa using hz)
    rw [h0]
    have := k3 r c (by omega) (by omega) (by
      rintro ⟨v, hv⟩
      obtain ⟨-, -, ⟨l, e1, e2⟩, e3⟩ := (h6 r c v).1 hv
      rw [List.getElem?_eq_getElem hr', Option.some.injEq] at e1
      subst e1
      rw [List.getElem?_eq_getElem (by omega), Option.some.injEq] at e2
      subst e2
      exact hz e3)
    rw [h4] at this
    exact this.symm

/-- **C92** `extract_diagonals`: the position of the (first) diagonal entry of every column that has one; elements of
other columns are never written and keep whatever the allocated memory held. -/
theorem C92_extract_diagonals {A : Csc} (h : A.WF) {ret : List Nat} (hr : ret.length = A.n) :
    ∃ ret', extractDiag A ret = ok ret' ∧ ret'.length = A.n ∧ ∀ c, c < A.n →
      (c ∈ A.col c → ∃ k, (A.col c)[k]? = some c ∧ c ∉ (A.col c).take k ∧ ret'.getD c 0 = A.ptr c + k) ∧
      (c ∉ A.col c → ret'.getD c 0 = ret.getD c 0) := by
  unfold extractDiag
  let P : Nat → List Nat → Prop := fun c ret' =>
    (c ∈ A.col c → ∃ k, (A.col c)[k]? = some c ∧ c ∉ (A.col c).take k ∧ ret'.getD c 0 = A.ptr c + k) ∧
      (c ∉ A.col c → ret'.getD c 0 = ret.getD c 0)
  have hw : wp (forRange 0 A.n (fun c ret => do
      let lo ← rd A.p c
      let hi ← rd A.p (c + 1)
      let r ← forRangeB lo hi (fun j (ret : List Nat) => do
        let r ← rd A.i j
        if r = c then do
          let ret ← wr ret c j
          ok (Ctl.brk ret)
        else ok (Ctl.next ret)) ret
      match r with
      | .next ret => ok ret
      | .brk ret => ok ret) ret) fun ret' => ret'.length = A.n ∧ ∀ c, c < A.n → P c ret' := by
    refine forRange_wp' (fun m ret' => ret'.length = A.n ∧ (∀ c, c < m → P c ret') ∧
      ∀ c, m ≤ c → ret'.getD c 0 = ret.getD c 0) (Nat.zero_le _) ⟨hr, by omega, fun _ _ => rfl⟩ ?_
      (fun s hs => ⟨hs.1, hs.2.1⟩)
    rintro c s _ hc ⟨h1, h2, h3⟩
    rw [h.rd_p (by omega), ok_bind, h.rd_p (by omega), ok_bind, wp_bind]
    have hle := h.mono c hc
    have hcolidx : ∀ j, A.ptr c ≤ j → j < A.ptr (c + 1) → (A.col c)[j - A.ptr c]? = some (A.i.getD j 0) := by
      intro j hj1 hj2
      have hi : j < A.i.length := by have := h.ptr_le (a := c + 1) (by omega); omega
      unfold Csc.col
      rw [List.getElem?_take_of_lt (by omega), List.getElem?_drop, show A.ptr c + (j - A.ptr c) = j by omega]
      exact getElem?_getD 0 hi
    refine wp_mono (forRangeB_wp (fun j (s' : List Nat) => s' = s ∧ c ∉ (A.col c).take (j - A.ptr c))
      (fun s' : List Nat => ∃ k, (A.col c)[k]? = some c ∧ c ∉ (A.col c).take k ∧ s' = s.set c (A.ptr c + k))
      hle ⟨rfl, by simp⟩ ?_) ?_
    · rintro j s' hj1 hj2 ⟨rfl, hn⟩
      have hi : j < A.i.length := by have := h.ptr_le (a := c + 1) (by omega); omega
      rw [rd_getD 0 hi, ok_bind]
      by_cases he : A.i.getD j 0 = c
      · rw [if_pos he, wr_eq (by omega), ok_bind, wp_ok]
        refine ⟨j - A.ptr c, by rw [hcolidx j hj1 hj2, he], hn, by rw [show A.ptr c + (j - A.ptr c) = j by omega]⟩
      · rw [if_neg he, wp_ok]
        refine ⟨rfl, ?_⟩
        rw [show j + 1 - A.ptr c = j - A.ptr c + 1 by omega, List.take_add_one, hcolidx j hj1 hj2]
        intro hm
        rcases List.mem_append.1 hm with hm | hm
        · exact hn hm
        · simp at hm; exact he hm.symm
    · intro r hpost
      have keep : ∀ v c', c' ≠ c → (s.set c v).getD c' 0 = s.getD c' 0 := by
        intro v c' hne
        rw [getD_set, if_neg (by omega)]
      cases r with
      | next s' =>
        obtain ⟨rfl, hn⟩ := hpost
        dsimp only
        rw [wp_ok]
        have hn' : c ∉ A.col c := by
          rw [List.take_of_length_le (by rw [h.col_length hc])] at hn
          exact hn
        refine ⟨h1, ?_, fun c' hc' => h3 c' (by omega)⟩
        intro c' hc'
        by_cases e : c' = c
        · subst e
          exact ⟨fun hm => absurd hm hn', fun _ => h3 c' (Nat.le_refl _)⟩
        · exact h2 c' (by omega)
      | brk s' =>
        obtain ⟨k, k1, k2, rfl⟩ := hpost
        dsimp only
        rw [wp_ok]
        refine ⟨by simpa using h1, ?_, fun c' hc' => by rw [keep _ _ (by omega)]; exact h3 c' (by omega)⟩
        intro c' hc'
        by_cases e : c' = c
        · subst e
          refine ⟨fun _ => ⟨k, k1, k2, by rw [getD_set, if_pos ⟨rfl, by omega⟩]⟩, fun hn => ?_⟩
          exact absurd (List.mem_of_getElem? k1) hn
        · have := h2 c' (by omega)
          show P c' _
          simp only [P]
          rw [keep _ _ e]
          exact this
  exact wp_iff.1 hw

/-- **C92** `convert_to_one_based` shifts indices and moves the pointers one place, but assigns the new values to
themselves: all values of the result are 0. -/
theorem C92_one_based [Zero V] {A : Sp V} (h : A.PatWF) {nnz : Nat} (hn : nnz ≤ A.i.length) :
    oneBased A nnz false
      = ok ⟨A.rows, A.cols, 0 :: A.p, (A.i.take nnz).map (· + 1), List.replicate nnz 0⟩ := by
  have hpl := h.plen
  have h1 : forRange 0 nnz (fun j (s : List Nat × List V) => do
      let a ← rd A.i j
      let i ← wr s.1 j (a + 1)
      if (false : Bool) = true then ok (i, s.2)
      else do
        let v ← rd s.2 j
        let x ← wr s.2 j v
        ok (i, x)) (List.replicate nnz 0, newVals false nnz)
      = ok ((A.i.take nnz).map (· + 1), List.replicate nnz 0) := by
    have : wp (forRange 0 nnz (fun j (s : List Nat × List V) => do
      let a ← rd A.i j
      let i ← wr s.1 j (a + 1)
      if (false : Bool) = true then ok (i, s.2)
      else do
        let v ← rd s.2 j
        let x ← wr s.2 j v
        ok (i, x)) (List.replicate nnz 0, newVals false nnz))
        fun s => s = ((A.i.take nnz).map (· + 1), List.replicate nnz 0) := by
      refine forRange_wp' (fun k s => s.1.length = nnz ∧ s.1.take k = (A.i.take k).map (· + 1) ∧
        s.2 = List.replicate nnz 0) (Nat.zero_le _) ⟨by simp, by simp, rfl⟩ ?_ ?_
      · rintro k ⟨s1, s2⟩ _ hk ⟨k1, k2, rfl⟩
        dsimp only at k1 k2 ⊢
        rw [rd_getD 0 (by omega), ok_bind, wr_eq (by omega), ok_bind, if_neg (by simp),
          rd_getD 0 (by simpa using hk), ok_bind, wr_eq (by simpa using hk), ok_bind, wp_ok]
        refine ⟨by simpa using k1, ?_, ?_⟩
        · rw [take_set_succ _ (by omega), k2, List.take_add_one, getElem?_getD 0 (show k < A.i.length by omega)]
          simp
        · apply List.ext_getElem (by simp)
          intro m m1 m2
          simp only [List.getElem_set, List.getElem_replicate]
          split
          · exact getD_replicate _ _ _ _ hk
          · rfl
      · rintro ⟨s1, s2⟩ ⟨k1, k2, rfl⟩
        dsimp only at k1 k2
        rw [List.take_of_length_le (by omega)] at k2
        rw [k2]
    obtain ⟨s, hs, rfl⟩ := wp_iff.1 this
    exact hs
  have h2 : forRange 0 (A.cols + 1) (fun k p => do
      let a ← rd A.p k
      wr p (k + 1) a) (List.replicate (newPtrLen (A.cols + 1)) 0) = ok (0 :: A.p) := by
    have : wp (forRange 0 (A.cols + 1) (fun k p => do
      let a ← rd A.p k
      wr p (k + 1) a) (List.replicate (newPtrLen (A.cols + 1)) 0)) fun p => p = 0 :: A.p := by
      refine forRange_wp' (fun k p => p.length = A.cols + 2 ∧ p.take (k + 1) = 0 :: A.p.take k) (Nat.zero_le _)
        ⟨by simp [newPtrLen], by simp [newPtrLen, List.replicate_succ]⟩ ?_ ?_
      · rintro k p _ hk ⟨k1, k2⟩
        rw [rd_getD 0 (by omega), ok_bind, wr_eq (by omega), wp_ok]
        refine ⟨by simpa using k1, ?_⟩
        rw [take_set_succ _ (by omega), k2, List.take_add_one (l := A.p), getElem?_getD 0 (show k < A.p.length by omega)]
        simp
      · rintro p ⟨k1, k2⟩
        rw [List.take_of_length_le (by omega), List.take_of_length_le (by omega)] at k2
        exact k2
    obtain ⟨s, hs, rfl⟩ := wp_iff.1 this
    exact hs
  unfold oneBased
  rw [h1, ok_bind, h2, ok_bind]

/-- **C92** `verify_csc_diagonal` for a matrix without empty columns: true exactly if every column starts with its
diagonal entry. -/
theorem C92_verify_diagonal {A : Sp V} (h : A.PatWF) (hne : ∀ c, c < A.cols → A.colRows c ≠ []) :
    ∃ b, verifyDiag A = ok b ∧ (b = true ↔ ∀ c, c < A.cols → (A.colRows c).head? = some c) := by
  have hpl := h.plen
  have hlt : ∀ c, c < A.cols → A.p.getD c 0 < A.p.getD (c + 1) 0 := by
    intro c hc
    by_contra hcon
    refine hne c hc ?_
    unfold colRows
    rw [show A.p.getD (c + 1) 0 - A.p.getD c 0 = 0 by omega]
    rfl
  have hhead : ∀ c, c < A.cols → (A.colRows c).head? = some (A.i.getD (A.p.getD c 0) 0) := by
    intro c hc
    have h1 := hlt c hc
    have h2 := h.le_len (a := c + 1) (by omega)
    unfold colRows
    rw [List.head?_take, if_neg (by omega), List.head?_drop]
    exact getElem?_getD 0 (by omega)
  unfold verifyDiag
  refine wp_iff.1 ?_
  rw [wp_bind]
  refine wp_mono (forRangeB_wp (fun k (_ : Unit) => ∀ c, c < k → (A.colRows c).head? = some c)
      (fun b : Bool => b = false ∧ ∃ c, c < A.cols ∧ (A.colRows c).head? ≠ some c) (Nat.zero_le _) (by omega) ?_) ?_
  · intro c _ _ hc hI
    have h1 := hlt c hc
    have h2 := h.le_len (a := c + 1) (by omega)
    rw [rd_getD 0 (by omega), ok_bind, rd_getD 0 (by omega), ok_bind, wp_ok]
    by_cases he : A.i.getD (A.p.getD c 0) 0 ≠ c
    · rw [if_pos he]
      exact ⟨rfl, c, hc, by rw [hhead c hc]; simpa using he⟩
    · rw [if_neg he]
      intro c' hc'
      by_cases e : c' = c
      · subst e
        rw [hhead c' hc]; simpa using he
      · exact hI c' (by omega)
  · intro r hr
    cases r with
    | next _ => exact ⟨fun _ => hr, fun _ => rfl⟩
    | brk b =>
      obtain ⟨rfl, c, h1, h2⟩ := hr
      exact ⟨fun h => (by cases h), fun h => absurd (h c h1) h2⟩

/-- **C92** `tree_to_csc`: column `p` lists the children of node `p` of the forest. -/
theorem C92_tree_to_csc {n : Nat} {t : List Int} (hl : t.length = n) (hf : Forest n (parentOf t)) :
    ∃ T, treeToCsc n t = ok T ∧ T.n = n ∧ ∀ p, p < n →
      T.col p = (List.range n).filter (fun c => decide (parentOf t c = some p)) := by
  obtain ⟨ptr, no, cnt, h1, -, -, -, h5⟩ := C65_populate_children hl hf (ptr := List.replicate (n + 1) 0)
    (no := List.replicate n 0) (by simp) (by simp)
  unfold treeToCsc
  rw [h1, ok_bind]
  exact ⟨_, rfl, rfl, fun p hp => (h5 p hp).1⟩

/-! ### Concrete cases -/

example : tridiag 4 (1 : Int) 5 2 = ok ⟨4, 4, [0, 2, 5, 8, 10], [0, 1, 0, 1, 2, 1, 2, 3, 2, 3],
    [5, 2, 1, 5, 2, 1, 5, 2, 1, 5]⟩ := by decide

/-- A 3 by 2 matrix. -/
def exRect : Sp Int := ⟨3, 2, [0, 2, 3], [0, 2, 1], [4, 5, 6]⟩

example : exRect.WF ∧ exRect.NoDup := by
  refine ⟨⟨⟨by decide, by decide, by decide, by decide, by decide⟩, by decide⟩, ?_⟩
  intro c hc
  have : c = 0 ∨ c = 1 := by
    have : c < 2 := hc
    omega
  rcases this with rfl | rfl <;> decide

example : sparse2dense exRect false [9, 9, 9, 9, 9, 9, 9] = ok [4, 0, 5, 0, 6, 0, 9] := by decide

example : sparse2dense (⟨2, 2, [0, 2, 3], [0, 1, 1], [4, 5, 6]⟩ : Sp Int) true [9, 9, 9, 9] = ok [4, 5, 5, 6] := by
  decide

example : oneBased exRect 3 false = ok ⟨3, 2, [0, 0, 2, 3], [1, 3, 2], [0, 0, 0]⟩ := by decide

example : extractDiag ⟨3, [0, 2, 3, 5], [1, 0, 0, 1, 2]⟩ [77, 77, 77] = ok [1, 77, 4] := by decide

example : verifyDiag (⟨2, 2, [0, 2, 3], [0, 1, 1], [4, 5, 6]⟩ : Sp Int) = ok true ∧
    verifyDiag (⟨2, 2, [0, 2, 3], [1, 0, 1], [4, 5, 6]⟩ : Sp Int) = ok false := by decide

example : treeToCsc 4 [2, 2, 3, -1] = ok ⟨4, [0, 0, 0, 2, 3], [0, 1, 2, 0]⟩ := by decide

end Verif.SmallU
