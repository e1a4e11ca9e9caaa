import Verif.Proof.Dense
import Verif.Proof.Triplets

/-!
# C38, C39: building a CSC matrix from a dense matrix or from triplets
-/

namespace Verif.Util
open Res Sp

variable {V : Type} [Zero V]

/-- **C38.** `dense_to_csc` stores exactly the entries of the dense matrix `val` (`rows` arrays of
`cols` elements) that pass the test `nz` (`!= 0`), the rows of each column increasing; no access
is out of bounds and the assertion holds. -/
theorem C38_dense_to_csc (dbg : Bool) (nz : V → Bool) {rows cols : Nat} {val : List (List V)}
    (hl : rows ≤ val.length) (hc : ∀ r ∈ val.take rows, cols ≤ r.length) (hn : 0 < cols) :
    ∃ B, denseToCsc dbg nz rows cols val = ok B ∧ B.WF ∧ B.Exact ∧ B.rows = rows ∧ B.cols = cols ∧
      (∀ r c v, (r, c, v) ∈ B.entries ↔
        r < rows ∧ c < cols ∧ (∃ l, val[r]? = some l ∧ l[c]? = some v) ∧ nz v = true) ∧
      ∀ c, c < cols → (B.colRows c).Pairwise (· < ·) := by
  obtain ⟨B, h1, h2, h3, h4, h5⟩ := wp_iff.1 (denseToCsc_wp dbg nz hl hc hn)
  refine ⟨B, h1, h5.wf, h4, h2, h3, ?_, ?_⟩
  · intro r c v
    have hval : r < rows → c < cols →
        ((∃ l, val[r]? = some l ∧ l[c]? = some v) ↔ dval val (r, c) = v) := by
      intro hr hcc
      have hr' : r < val.length := by omega
      have hlen : cols ≤ val[r].length := hc _ (List.mem_take_iff_getElem.2 ⟨r, by omega, rfl⟩)
      have e : dval val (r, c) = val[r][c] := by
        simp [dval, List.getD_eq_getElem?_getD, hr', show c < val[r].length by omega]
      rw [e, List.getElem?_eq_getElem hr']
      constructor
      · rintro ⟨l, hl, hv⟩
        cases hl
        rw [List.getElem?_eq_getElem (by omega)] at hv
        exact Option.some.inj hv
      · rintro rfl
        exact ⟨_, rfl, List.getElem?_eq_getElem _⟩
    rw [h5.entries_items, List.mem_map]
    constructor
    · rintro ⟨a, ha, he⟩
      simp only [Prod.mk.injEq] at he
      obtain ⟨rfl, rfl, rfl⟩ := he
      rw [mem_bucket, List.mem_filter, mem_cells] at ha
      exact ⟨ha.1.1.1, ha.1.1.2, (hval ha.1.1.1 ha.1.1.2).2 rfl, ha.1.2⟩
    · rintro ⟨hr, hcc, hv, hz⟩
      have e := (hval hr hcc).1 hv
      refine ⟨(r, c), mem_bucket.2 ⟨List.mem_filter.2 ⟨mem_cells.2 ⟨hr, hcc⟩, ?_⟩, by rw [h3]; exact hcc⟩, ?_⟩
      · rw [e]; exact hz
      · rw [e]
  · intro c hcc
    rw [h5.colRows_items (by rw [h3]; exact hcc), List.pairwise_map]
    have hp := ((cells_pairwise rows cols).filter fun c => nz (dval val c)).filter
      (fun a : Nat × Nat => decide (a.2 = c))
    refine List.Pairwise.imp_of_mem ?_ hp
    intro a b ha hb hab
    have e1 : a.2 = c := by simpa using (List.mem_filter.1 ha).2
    have e2 : b.2 = c := by simpa using (List.mem_filter.1 hb).2
    omega

/-- The dense matrix `[[1,0,2],[0,0,3]]`. -/
example : denseToCsc true (· != 0) 2 3 [[1, 0, 2], [0, 0, (3 : Int)]]
    = ok ⟨2, 3, [0, 1, 1, 3], [0, 0, 1], [1, 2, 3]⟩ := by decide

/-- Finding: for a matrix without columns the assertion reads `p[0]`, but `p` is not allocated. -/
theorem C38_no_columns : denseToCsc true (· != 0) 1 0 [([] : List Int)] = Res.ub := by decide

/-! ### Triplets -/

/-- Sorted by column, then by row: the result of the `std::sort`. -/
def TripSorted (vec : List (Trip V)) : Prop :=
  vec.Pairwise fun a b => a.2.1 < b.2.1 ∨ (a.2.1 = b.2.1 ∧ a.1 ≤ b.1)

omit [Zero V] in
/-- `TripSorted` is sortedness for the comparison function given to `std::sort`: no element compares
less than an earlier one. -/
theorem tripSorted_iff (vec : List (Trip V)) :
    TripSorted vec ↔ vec.Pairwise fun a b => tripLt b a = false := by
  unfold TripSorted
  constructor <;> intro h <;> refine h.imp ?_ <;> intro a b hab
  · simp only [tripLt, Bool.or_eq_false_iff, Bool.and_eq_false_iff, decide_eq_false_iff_not]
    omega
  · simp only [tripLt, Bool.or_eq_false_iff, Bool.and_eq_false_iff, decide_eq_false_iff_not] at hab
    omega

/-- **C39.** Without `add_diags`, or if no column is empty, `compress_triplets_to_csc` stores exactly
the triplets, sorted by column and row.  `vec` is the vector after `std::sort`. -/
theorem C39_triplets_partial (dbg addDiags : Bool) {rows cols : Nat} {trips vec : List (Trip V)}
    (hp : vec.Perm trips) (hs : TripSorted vec) (hn : 0 < cols)
    (hr : ∀ t ∈ trips, t.1 < rows ∧ t.2.1 < cols)
    (he : addDiags = true → ∀ c, c < cols → ∃ t ∈ trips, t.2.1 = c) :
    ∃ B, compressSorted dbg addDiags rows cols trips.length vec = ok B ∧ B.WF ∧ B.Exact ∧
      B.rows = rows ∧ B.cols = cols ∧ B.entries = vec ∧ B.entries.Perm trips ∧ B.ColsSorted := by
  have hk : ∀ t ∈ vec, tcol t < cols := fun t ht => (hr t (hp.mem_iff.1 ht)).2
  have hs' : vec.Pairwise fun a b => tcol a ≤ tcol b := hs.imp fun h => by
    show _ ≤ _; unfold tcol; omega
  obtain ⟨B, h1, h2, h3, h4, h5, h6⟩ := wp_iff.1
    (compressSorted_wp dbg addDiags (rows := rows) hn hs' hk)
  rw [hp.length_eq] at h1
  have hbl : ∀ j, j < cols → trBlock addDiags vec j = vec.filter fun t => tcol t = j := by
    intro j hj
    unfold trBlock
    rw [if_neg]
    rintro ⟨hc, ha⟩
    obtain ⟨t, ht, htc⟩ := he ha j hj
    have := List.countP_eq_zero.1 hc t (hp.mem_iff.2 ht)
    exact this (decide_eq_true htc)
  have hfm : ∀ m, m ≤ cols → (List.range m).flatMap (trBlock addDiags vec) = bucket m tcol vec := by
    intro m hm
    unfold bucket
    refine List.flatMap_congr ?_
    intro j hj
    exact hbl j (by have := List.mem_range.1 hj; omega)
  have hall : (List.range cols).flatMap (trBlock addDiags vec) = vec := by
    rw [hfm cols (le_refl _), bucket_sorted_all hs' hk]
  rw [hall, List.take_length] at h5 h6
  have hF : FromItems false B tcol (fun t => t.1) (fun t => t.2.2) vec := by
    refine ⟨?_, by rw [h3]; exact hk, fun a ha => by rw [h2]; exact (hr a (hp.mem_iff.1 ha)).1, ?_, ?_⟩
    · rw [h4, h3]
      refine List.map_congr_left ?_
      intro m hm
      have hm' : m ≤ cols := by have := List.mem_range.1 hm; omega
      rw [tot, hfm m hm', bucket_length_below]
    · rw [h3, bucket_sorted_all hs' hk, h5, List.take_of_length_le (by simp)]
    · intro _
      rw [h3, bucket_sorted_all hs' hk, h6, List.take_of_length_le (by simp)]
  have hent : B.entries = vec := by
    rw [hF.entries_items, h3, bucket_sorted_all hs' hk]
    exact List.map_id _
  refine ⟨B, h1, hF.wf, ⟨?_, ?_⟩, h2, h3, hent, by rw [hent]; exact hp, ?_⟩
  · rw [hF.ptr (le_refl _), h3, below_all _ _ _ hk, h5, List.length_map]
  · rw [hF.ptr (le_refl _), h3, below_all _ _ _ hk, h6, List.length_map]
  · intro c hc
    rw [hF.colRows_items hc, List.pairwise_map]
    have hp := hs.filter (fun a => decide (tcol a = c))
    refine List.Pairwise.imp_of_mem ?_ hp
    intro a b ha hb hab
    have e1 : a.2.1 = c := of_decide_eq_true (List.mem_filter.1 ha).2
    have e2 : b.2.1 = c := of_decide_eq_true (List.mem_filter.1 hb).2
    omega

/-- **C39, what is missing.** Whenever `add_diags` is set and some column is empty, the function
ends with pointers that go past the arrays `i` and `x` (by the number of inserted diagonals):
the result is never a well-formed matrix, and as many triplets as were inserted are lost. -/
theorem C39_add_diags_arrays_too_short (dbg : Bool) {rows cols : Nat} {trips vec : List (Trip V)}
    (hp : vec.Perm trips) (hs : TripSorted vec) (hn : 0 < cols)
    (hr : ∀ t ∈ trips, t.1 < rows ∧ t.2.1 < cols)
    (he : ∃ c, c < cols ∧ ∀ t ∈ trips, t.2.1 ≠ c) :
    ∃ B, compressSorted dbg true rows cols trips.length vec = ok B ∧
      B.i.length = trips.length ∧ B.x.length = trips.length ∧
      trips.length < B.p.getD cols 0 ∧ ¬ B.WF := by
  have hk : ∀ t ∈ vec, tcol t < cols := fun t ht => (hr t (hp.mem_iff.1 ht)).2
  have hs' : vec.Pairwise fun a b => tcol a ≤ tcol b := hs.imp fun h => by
    show _ ≤ _; unfold tcol; omega
  obtain ⟨B, h1, h2, h3, h4, h5, h6⟩ := wp_iff.1
    (compressSorted_wp dbg true (rows := rows) hn hs' hk)
  rw [hp.length_eq] at h1
  obtain ⟨c, hc, hce⟩ := he
  have hzero : cntKey tcol vec c = 0 := by
    apply List.countP_eq_zero.2
    intro t ht
    exact fun h => hce t (hp.mem_iff.1 ht) (of_decide_eq_true h)
  have gen : ∀ m, below tcol vec m + (if c < m then 1 else 0) ≤ tot (trBlock true vec) m := by
    intro m
    induction m with
    | zero => rw [below_zero, if_neg (by omega)]; exact Nat.zero_le _
    | succ m ih =>
      rw [below_succ, tot_succ, block_length]
      by_cases e : c = m
      · subst e
        rw [if_neg (by omega)] at ih
        rw [hzero, if_pos (by omega), if_pos (by simp)]
        omega
      · by_cases hlt : c < m
        · rw [if_pos hlt] at ih; rw [if_pos (by omega)]; omega
        · rw [if_neg hlt] at ih; rw [if_neg (by omega)]; omega
  have hg := gen cols
  rw [if_pos hc, below_all _ _ _ hk, hp.length_eq] at hg
  have hpl : B.p.getD cols 0 = tot (trBlock true vec) cols := by
    rw [h4]
    simp [List.getD_eq_getElem?_getD]
  have hfl : ((List.range cols).flatMap (trBlock true vec)).length = tot (trBlock true vec) cols := rfl
  have hil : B.i.length = trips.length := by
    rw [h5, List.length_map, List.length_take, hfl, hp.length_eq]; omega
  have hxl : B.x.length = trips.length := by
    rw [h6, List.length_map, List.length_take, hfl, hp.length_eq]; omega
  refine ⟨B, h1, hil, hxl, by omega, fun hw => ?_⟩
  have := hw.bound
  rw [h3] at this
  omega

/-- The hypotheses of the first theorem hold for these triplets; the result is as stated. -/
example : TripSorted [(0, 0, (4 : Int)), (1, 0, 5), (1, 1, 6)] ∧
    compressSorted true true 2 2 3 [(0, 0, (4 : Int)), (1, 0, 5), (1, 1, 6)]
      = ok ⟨2, 2, [0, 2, 3], [0, 1, 1], [4, 5, 6]⟩ := by
  refine ⟨?_, by decide⟩
  unfold TripSorted
  decide

/-- Finding: one triplet `(1, 1, 5)` in a 2 × 2 matrix.  The value `5` is lost: the arrays hold only
the inserted diagonal of column 0, and `p[2] = 2` for arrays of length one. -/
theorem C39_add_diags_loses_values :
    compressSorted true true 2 2 1 [(1, 1, (5 : Int))] = ok ⟨2, 2, [0, 1, 2], [0], [0]⟩ := by decide

end Verif.Util
