import Verif.Proof.SparseLoop
import Verif.Model.Sparse
import Verif.Spec.Sparse

/-!
# C51: copying matrices

`copy_sparse`, `copy_from_to` and `number_empty_col` (utils/sparse_utilities.cpp 506-553).
-/

namespace Verif.Sp
open Res

variable {V : Type}

/-- A loop that copies the elements `lo, ..., hi - 1` from one array to another. -/
theorem copy_wp {α : Type} {src dst : List α} {lo hi : Nat} (hle : lo ≤ hi)
    (hs : hi ≤ src.length) (hd : hi ≤ dst.length) (h0 : dst.take lo = src.take lo) :
    wp (forRange lo hi (fun k p => rd src k >>= wr p k) dst)
      (fun p => p.length = dst.length ∧ p.take hi = src.take hi ∧ p.drop hi = dst.drop hi) := by
  refine forRange_wp' (fun k (p : List α) => p.length = dst.length ∧ p.take k = src.take k ∧
    p.drop k = dst.drop k) hle ⟨rfl, h0, rfl⟩ ?_ (fun _ h => h)
  rintro k p h1 h2 ⟨h3, h4, h5⟩
  rw [rd_eq (by omega : k < src.length)]
  simp only [ok_bind]
  rw [wr_eq (by omega)]
  simp only [wp_ok]
  refine ⟨by simp [h3], ?_, ?_⟩
  · rw [List.take_add_one, List.take_add_one, List.take_set_of_le (Nat.le_refl k), h4]
    rw [List.getElem?_set, if_pos rfl, if_pos (by omega), List.getElem?_eq_getElem (by omega)]
  · rw [List.drop_set_of_lt (by omega), ← List.drop_drop (j := k) (i := 1),
      ← List.drop_drop (j := k) (i := 1), h5]

/-- The same for two arrays. -/
theorem copy2_wp {src : Sp V} {dst : List Nat × List V} {lo hi : Nat} (hle : lo ≤ hi)
    (hs : hi ≤ src.i.length) (hs' : hi ≤ src.x.length) (hd : hi ≤ dst.1.length)
    (hd' : hi ≤ dst.2.length) (h0 : dst.1.take lo = src.i.take lo)
    (h0' : dst.2.take lo = src.x.take lo) :
    wp (forRange lo hi (fun k (t : List Nat × List V) => do
      let i ← rd src.i k >>= wr t.1 k
      let x ← rd src.x k >>= wr t.2 k
      ok (i, x)) dst)
      (fun t => (t.1.length = dst.1.length ∧ t.1.take hi = src.i.take hi ∧
        t.1.drop hi = dst.1.drop hi) ∧ t.2.length = dst.2.length ∧ t.2.take hi = src.x.take hi ∧
        t.2.drop hi = dst.2.drop hi) := by
  refine forRange_wp' (fun k (t : List Nat × List V) =>
    (t.1.length = dst.1.length ∧ t.1.take k = src.i.take k ∧
        t.1.drop k = dst.1.drop k) ∧ t.2.length = dst.2.length ∧ t.2.take k = src.x.take k ∧
        t.2.drop k = dst.2.drop k) hle ⟨⟨rfl, h0, rfl⟩, rfl, h0', rfl⟩ ?_ (fun _ h => h)
  rintro k t h1 h2 ⟨⟨h3, h4, h5⟩, h6, h7, h8⟩
  rw [rd_eq (by omega : k < src.i.length), rd_eq (by omega : k < src.x.length)]
  simp only [ok_bind]
  rw [wr_eq (by omega)]
  simp only [ok_bind]
  rw [wr_eq (by omega)]
  simp only [ok_bind, wp_ok]
  refine ⟨⟨by simp [h3], ?_, ?_⟩, by simp [h6], ?_, ?_⟩
  · rw [List.take_add_one, List.take_add_one, List.take_set_of_le (Nat.le_refl k), h4]
    rw [List.getElem?_set, if_pos rfl, if_pos (by omega), List.getElem?_eq_getElem (by omega)]
  · rw [List.drop_set_of_lt (by omega), ← List.drop_drop (j := k) (i := 1),
      ← List.drop_drop (j := k) (i := 1), h5]
  · rw [List.take_add_one, List.take_add_one, List.take_set_of_le (Nat.le_refl k), h7]
    rw [List.getElem?_set, if_pos rfl, if_pos (by omega), List.getElem?_eq_getElem (by omega)]
  · rw [List.drop_set_of_lt (by omega), ← List.drop_drop (j := k) (i := 1),
      ← List.drop_drop (j := k) (i := 1), h8]

/-- **C51.**  `copy_sparse` returns an equal matrix: the same dimensions, pointers, row indices and
values (the matrix has at least one column, `nnz` is its number of entries). -/
theorem C51_copy_sparse [Zero V] {A : Sp V} (hA : A.WF) (hE : A.Exact) (hc : 0 < A.cols) :
    A.copySparse (A.p.getD A.cols 0) = ok A := by
  have hw : wp (A.copySparse (A.p.getD A.cols 0)) (fun B => B = A) := by
    unfold copySparse
    have hp := hA.plen
    obtain ⟨e1, e2⟩ := hE
    rw [wp_bind]
    refine wp_mono (copy_wp (Nat.zero_le _) (by omega) (by
      rw [List.length_replicate, newPtrLen, if_neg (by omega)]) (by simp)) ?_
    rintro p ⟨h1, h2, _⟩
    rw [wp_bind]
    refine wp_mono (copy2_wp (src := A) (Nat.zero_le _) (by omega) (by omega) (by simp) (by simp)
      (by simp) (by simp)) ?_
    rintro ⟨i, x⟩ ⟨⟨h3, h4, _⟩, h5, h6, _⟩
    simp only [List.length_replicate, newPtrLen, if_neg (by omega : ¬ A.cols = 0)] at h1 h3 h5
    simp only [wp_ok]
    dsimp only at h4 h6
    rw [List.take_of_length_le (by omega), List.take_of_length_le (by omega)] at h2 h4 h6
    rw [h2, h4, h6]
  obtain ⟨B, h1, h2⟩ := wp_iff.1 hw
  rw [h1, h2]

/-- **C51, `copy_from_to`.**  Row indices and values are copied to the target, but its pointers are
left as they are (the code assigns `dst->p[i]` to itself). -/
theorem C51_copy_from_to_partial {src dst : Sp V} (hs : src.WF)
    (hp : src.cols ≤ dst.p.length) (hi : src.p.getD src.cols 0 ≤ dst.i.length)
    (hx : src.p.getD src.cols 0 ≤ dst.x.length) :
    ∃ B, copyFromTo src dst = ok B ∧ B.rows = dst.rows ∧ B.cols = dst.cols ∧ B.p = dst.p ∧
      B.i.take (src.p.getD src.cols 0) = src.i.take (src.p.getD src.cols 0) ∧
      B.x.take (src.p.getD src.cols 0) = src.x.take (src.p.getD src.cols 0) ∧
      B.i.drop (src.p.getD src.cols 0) = dst.i.drop (src.p.getD src.cols 0) ∧
      B.x.drop (src.p.getD src.cols 0) = dst.x.drop (src.p.getD src.cols 0) := by
  have hpl := hs.plen
  have hb := hs.bound
  have hb' := hs.xlen
  have hle : ∀ c, c ≤ src.cols → src.p.getD c 0 ≤ src.p.getD src.cols 0 := by
    intro c hc
    exact (PtrOk.mk' (by omega) hs.p0 rfl hs.mono : PtrOk src.p src.cols _).dle hc
  have hw : wp (copyFromTo src dst) (fun B => B.rows = dst.rows ∧ B.cols = dst.cols ∧ B.p = dst.p ∧
      B.i.take (src.p.getD src.cols 0) = src.i.take (src.p.getD src.cols 0) ∧
      B.x.take (src.p.getD src.cols 0) = src.x.take (src.p.getD src.cols 0) ∧
      B.i.drop (src.p.getD src.cols 0) = dst.i.drop (src.p.getD src.cols 0) ∧
      B.x.drop (src.p.getD src.cols 0) = dst.x.drop (src.p.getD src.cols 0)) := by
    unfold copyFromTo
    rw [wp_bind]
    refine forRange_wp' (fun c (s : List Nat × List Nat × List V) => s.1 = dst.p ∧
      s.2.1.length = dst.i.length ∧ s.2.2.length = dst.x.length ∧
      s.2.1.take (src.p.getD c 0) = src.i.take (src.p.getD c 0) ∧
      s.2.2.take (src.p.getD c 0) = src.x.take (src.p.getD c 0) ∧
      s.2.1.drop (src.p.getD c 0) = dst.i.drop (src.p.getD c 0) ∧
      s.2.2.drop (src.p.getD c 0) = dst.x.drop (src.p.getD c 0)) (Nat.zero_le _) ?_ ?_ ?_
    · rw [hs.p0]; simp
    · rintro c ⟨p, i, x⟩ _ hc ⟨h1, h2, h3, h4, h5, h6, h7⟩
      dsimp only at h1 h2 h3 h4 h5 h6 h7 ⊢
      subst h1
      have hm := hs.mono c hc
      have hh := hle (c + 1) hc
      rw [rd_eq (by omega : c < dst.p.length), rd_getD 0 (by omega : c < src.p.length),
        rd_getD 0 (by omega : c + 1 < src.p.length)]
      simp only [ok_bind]
      rw [wr_eq (by omega)]
      simp only [ok_bind]
      rw [wp_bind]
      refine wp_mono (copy2_wp (src := src) hm (by omega) (by omega) (by dsimp only; omega)
        (by dsimp only; omega) h4 h5) ?_
      rintro ⟨i', x'⟩ ⟨⟨g1, g2, g3⟩, g4, g5, g6⟩
      dsimp only at g1 g2 g3 g4 g5 g6
      simp only [wp_ok]
      obtain ⟨d, hd⟩ : ∃ d, src.p.getD (c + 1) 0 = src.p.getD c 0 + d :=
        ⟨src.p.getD (c + 1) 0 - src.p.getD c 0, by omega⟩
      refine ⟨by simp, by omega, by omega, g2, g5, ?_, ?_⟩
      · rw [g3, hd, ← List.drop_drop, h6, List.drop_drop]
      · rw [g6, hd, ← List.drop_drop, h7, List.drop_drop]
    · rintro ⟨p, i, x⟩ ⟨h1, _, _, h4, h5, h6, h7⟩
      simp only [wp_ok]
      exact ⟨trivial, trivial, h1, h4, h5, h6, h7⟩
  obtain ⟨B, h1, h2⟩ := wp_iff.1 hw
  exact ⟨B, h1, h2⟩

/-- Consequence: if the target already has the dimensions, the pointers and the array sizes of the
source, it becomes equal to the source. -/
theorem C51_copy_from_to_same_pointers {src dst : Sp V} (hs : src.WF) (hE : src.Exact)
    (hr : dst.rows = src.rows) (hc : dst.cols = src.cols) (hp : dst.p = src.p)
    (hi : dst.i.length = src.i.length) (hx : dst.x.length = src.x.length) :
    copyFromTo src dst = ok src := by
  have hpl := hs.plen
  obtain ⟨e1, e2⟩ := hE
  obtain ⟨⟨r, c, p, i, x⟩, h1, h2, h3, h4, h5, h6, h7, h8⟩ :=
    C51_copy_from_to_partial (dst := dst) hs (by rw [hp]; omega) (by omega) (by omega)
  dsimp only at h2 h3 h4 h5 h6 h7 h8
  rw [List.drop_eq_nil_of_le (by omega : dst.i.length ≤ _), List.drop_eq_nil_iff] at h7
  rw [List.drop_eq_nil_of_le (by omega : dst.x.length ≤ _), List.drop_eq_nil_iff] at h8
  rw [List.take_of_length_le h7, List.take_of_length_le (by omega)] at h5
  rw [List.take_of_length_le h8, List.take_of_length_le (by omega)] at h6
  rw [h1, h2, h3, h4, h5, h6, hr, hc, hp]

/-- **C51, violation.**  Copying to a freshly allocated matrix (all pointers 0) gives a matrix
without entries. -/
theorem C51_copy_from_to_stale_pointers :
    copyFromTo ⟨2, 2, [0, 1, 2], [0, 1], [5, 7]⟩ ⟨2, 2, [0, 0, 0], [0, 0], [0, 0]⟩
      = ok (⟨2, 2, [0, 0, 0], [0, 1], [5, 7]⟩ : Sp Nat) ∧
    (⟨2, 2, [0, 0, 0], [0, 1], [5, 7]⟩ : Sp Nat).entries = [] ∧
    (⟨2, 2, [0, 1, 2], [0, 1], [5, 7]⟩ : Sp Nat).entries ≠ [] := by decide

/-- **C51, empty columns.**  `number_empty_col` counts the columns without an entry. -/
theorem C51_number_empty_col {A : Sp V} (hA : A.WF) :
    A.numberEmptyCol = ok ((List.range A.cols).countP (fun c => (A.colRows c).isEmpty)) := by
  have hpl := hA.plen
  have hb := hA.bound
  have hw : wp A.numberEmptyCol
      (fun r => r = (List.range A.cols).countP (fun c => (A.colRows c).isEmpty)) := by
    unfold numberEmptyCol
    refine forRange_wp (fun k (r : Nat) =>
      r = (List.range k).countP (fun c => (A.colRows c).isEmpty)) (Nat.zero_le _) (by simp) ?_
    rintro c r _ hc rfl
    rw [rd_getD 0 (by omega : c + 1 < A.p.length), rd_getD 0 (by omega : c < A.p.length)]
    simp only [ok_bind, wp_ok]
    rw [List.range_succ, List.countP_append, List.countP_singleton]
    have hm := hA.mono c hc
    have hle := (PtrOk.mk' (by omega) hA.p0 rfl hA.mono : PtrOk A.p A.cols _).dle (b := c + 1) hc
    have hlen : (A.colRows c).length = A.p.getD (c + 1) 0 - A.p.getD c 0 := by
      unfold colRows
      simp only [List.length_take, List.length_drop]
      omega
    have : (A.colRows c).isEmpty = true ↔ (A.p.getD (c + 1) 0 : Int) - A.p.getD c 0 = 0 := by
      rw [List.isEmpty_iff_length_eq_zero, hlen]; omega
    by_cases h : (A.p.getD (c + 1) 0 : Int) - A.p.getD c 0 = 0
    · rw [if_pos h, if_pos (this.2 h)]
    · rw [if_neg h, if_neg (fun h' => h (this.1 h'))]; rfl
  obtain ⟨r, h1, h2⟩ := wp_iff.1 hw
  rw [h1, h2]

/-- A matrix with an empty column that meets the hypotheses. -/
example : (⟨3, 3, [0, 2, 2, 3], [0, 2, 1], [5, 6, 7]⟩ : Sp Nat).WF ∧
    (⟨3, 3, [0, 2, 2, 3], [0, 2, 1], [5, 6, 7]⟩ : Sp Nat).Exact ∧
    (⟨3, 3, [0, 2, 2, 3], [0, 2, 1], [5, 6, 7]⟩ : Sp Nat).numberEmptyCol = ok 1 := by
  refine ⟨⟨⟨by decide, by decide, by decide, by decide, by decide⟩, by decide⟩, ⟨by decide, by decide⟩,
    by decide⟩

end Verif.Sp
