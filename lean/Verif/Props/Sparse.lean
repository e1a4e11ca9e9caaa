import Verif.Proof.SparseHalf

/-!
# Properties C26 - C29: conversions between sparse formats

A matrix is `Sp` (Spec/Sparse.lean); a CSR matrix is an `Sp` whose compressed dimension is rows, so
its entries read `(column, row, value)` and `swapEntry` brings them back to `(row, column, value)`.
-/

namespace Verif.Sp
open Res

variable {V : Type} [Zero V]

/-- `B` is `A` in the other format: same entries, indices increasing in every row. -/
structure Converted (A B : Sp V) : Prop where
  wf : B.WF
  rows : B.rows = A.cols
  cols : B.cols = A.rows
  entries : (B.entries.map swapEntry).Perm A.entries
  sorted : B.ColsSorted
  strict : A.NoDup → ∀ r, r < B.cols → (B.colRows r).Pairwise (· < ·)

theorem FromItems.converted {A B : Sp V} (h : A.WF) (h1 : B.rows = A.cols) (h2 : B.cols = A.rows)
    (hB : FromItems false B eRow eCol A.eVal A.tagged) : Converted A B := by
  refine ⟨hB.wf, h1, h2, hB.swap_perm h, hB.colsSorted h.toPatWF, ?_⟩
  intro hd r hr
  exact ((hB.colsSorted h.toPatWF r hr).and (hB.noDup hd r hr)).imp fun hab => by
    have := hab.1; have := hab.2; omega

/-- **C26.** `csc_to_csr` returns a CSR matrix with exactly the same entries, column indices
increasing within each row, without out-of-bounds accesses.  `nnz` is the allocated size `A->nnz`. -/
theorem C26_csc_to_csr_keeps_matrix {A : Sp V} {nnz : Nat} (h : A.WF) (hr : 0 < A.rows)
    (hn : A.p.getD A.cols 0 ≤ nnz) :
    ∃ B, cscToCsr A nnz false = ok B ∧ Converted A B := by
  obtain ⟨B, h1, h2, h3, h4, _⟩ := wp_iff.1 (cscToCsr_wp h.toPatWF (pat := false)
    (fun _ => h.xlen) hr hn)
  exact ⟨B, h1, h4.converted h h2 h3⟩

/-- **C26.** The same for pattern matrices (no values): the coordinates are kept. -/
theorem C26_csc_to_csr_keeps_pattern {A : Sp V} {nnz : Nat} (h : A.PatWF) (hr : 0 < A.rows)
    (hn : A.p.getD A.cols 0 ≤ nnz) :
    ∃ B, cscToCsr A nnz true = ok B ∧ B.PatWF ∧ B.rows = A.cols ∧ B.cols = A.rows ∧
      (B.coords.map Prod.swap).Perm A.coords ∧ B.ColsSorted := by
  obtain ⟨B, h1, h2, h3, h4, _⟩ := wp_iff.1 (cscToCsr_wp h (pat := true) (by simp) hr hn)
  exact ⟨B, h1, h4.patWF, h2, h3, h4.coords_perm, h4.colsSorted h⟩

/-- **C26.** The version on arrays. -/
theorem C26_csc_to_csr_arrays_keeps_matrix {A : Sp V} (h : A.WF) :
    ∃ B, cscToCsrArrays A = ok B ∧ Converted A B ∧ B.Exact := by
  obtain ⟨B, h1, h2, h3, h4, h5, h6⟩ := wp_iff.1 (cscToCsrArrays_wp h)
  refine ⟨B, h1, h4.converted h h2 h3, ?_⟩
  have e : B.p.getD B.cols 0 = A.p.getD A.cols 0 := by
    rw [h4.ptr (le_refl _), below_all _ _ _ h4.keys, tagged_length h.toPatWF]
  exact ⟨by rw [h5, e], by rw [h6, e]⟩

/-- **C26.** Converting to CSR and back restores the arrays, if the columns were sorted. -/
theorem C26_round_trip {A : Sp V} (h : A.WF) (hs : A.ColsSorted) (he : A.Exact) :
    (cscToCsrArrays A >>= csrToCscArrays) = ok A := by
  obtain ⟨B, h1, h2, h3, h4, h5, h6⟩ := wp_iff.1 (cscToCsrArrays_wp h)
  obtain ⟨C, k1, k2, k3, k4, k5, k6⟩ := wp_iff.1 (cscToCsrArrays_wp h4.wf)
  rw [h1, ok_bind, csrToCscArrays, k1]
  congr 1
  have e1 : B.p.getD B.cols 0 = A.p.getD A.cols 0 := by
    rw [h4.ptr (le_refl _), below_all _ _ _ h4.keys, tagged_length h.toPatWF]
  have e2 : C.p.getD C.cols 0 = B.p.getD B.cols 0 := by
    rw [k4.ptr (le_refl _), below_all _ _ _ k4.keys, tagged_length h4.patWF]
  refine ext_entries k4.wf h ⟨?_, ?_⟩ he (by omega) (by omega)
    (entries_twice h hs h4.wf h3 (by omega) h4 k4)
  · rw [k5, e2]
  · rw [k6, e2]

/-- **C26.** `csr_to_csc(CSR*)` is correct for square matrices. -/
theorem C26_csr_to_csc_square {B : Sp V} (h : B.WF) (hsq : B.rows = B.cols) :
    ∃ C, csrToCsc B = ok C ∧ Converted B C := by
  have : (⟨B.cols, B.rows, B.p, B.i, B.x⟩ : Sp V) = B := by
    cases B; simp only at hsq; subst hsq; rfl
  obtain ⟨C, h1, h2, _⟩ := C26_csc_to_csr_arrays_keeps_matrix h
  exact ⟨C, by rw [csrToCsc, this, h1], h2⟩

/-- **C27.** `transpose_general` returns the transposed matrix, in debug and in release builds. -/
theorem C27_transpose {A : Sp V} {nnz : Nat} (dbg : Bool) (h : A.WF) (hr : 0 < A.rows)
    (hn : A.p.getD A.cols 0 ≤ nnz) :
    ∃ B, transposeGeneral dbg A nnz false = ok (some B) ∧ Converted A B := by
  obtain ⟨o, h1, B, rfl, h2, h3, h4, _⟩ := wp_iff.1 (transposeGeneral_wp (dbg := dbg) h.toPatWF
    (pat := false) (fun _ => h.xlen) hr hn)
  exact ⟨B, h1, h4.converted h h2 h3⟩

/-- **C27.** The same for patterns. -/
theorem C27_transpose_pattern {A : Sp V} {nnz : Nat} (dbg : Bool) (h : A.PatWF) (hr : 0 < A.rows)
    (hn : A.p.getD A.cols 0 ≤ nnz) :
    ∃ B, transposeGeneral dbg A nnz true = ok (some B) ∧ B.PatWF ∧ B.rows = A.cols ∧
      B.cols = A.rows ∧ (B.coords.map Prod.swap).Perm A.coords ∧ B.ColsSorted := by
  obtain ⟨o, h1, B, rfl, h2, h3, h4, _⟩ := wp_iff.1 (transposeGeneral_wp (dbg := dbg) h
    (pat := true) (by simp) hr hn)
  exact ⟨B, h1, h4.patWF, h2, h3, h4.coords_perm, h4.colsSorted h⟩

/-- **C27.** Transposing twice returns the very same arrays, if the columns are sorted (duplicates
are allowed) and the arrays have no unused space. -/
theorem C27_transpose_twice {A : Sp V} (dbg : Bool) (h : A.WF) (hs : A.ColsSorted) (he : A.Exact)
    (hr : 0 < A.rows) (hc : 0 < A.cols) :
    ∃ B, transposeGeneral dbg A A.i.length false = ok (some B) ∧
      transposeGeneral dbg B B.i.length false = ok (some A) := by
  obtain ⟨o, h1, B, rfl, h2, h3, h4, h5, h6⟩ := wp_iff.1 (transposeGeneral_wp (dbg := dbg)
    (nnz := A.i.length) h.toPatWF (pat := false) (fun _ => h.xlen) hr h.bound)
  refine ⟨B, h1, ?_⟩
  obtain ⟨o, k1, C, rfl, k2, k3, k4, k5, k6⟩ := wp_iff.1 (transposeGeneral_wp (dbg := dbg)
    (nnz := B.i.length) h4.patWF (pat := false) (fun _ => h4.wf.xlen) (by omega) h4.patWF.bound)
  rw [k1]
  congr 2
  have e1 : B.p.getD B.cols 0 = A.p.getD A.cols 0 := by
    rw [h4.ptr (le_refl _), below_all _ _ _ h4.keys, tagged_length h.toPatWF]
  have e2 : C.p.getD C.cols 0 = B.p.getD B.cols 0 := by
    rw [k4.ptr (le_refl _), below_all _ _ _ k4.keys, tagged_length h4.patWF]
  have e3 := he.1
  simp only [Bool.false_eq_true, if_false] at h6 k6
  exact ext_entries k4.wf h ⟨by rw [k5, h5, e2, e1, e3], by rw [k6, h5, e2, e1, e3]⟩ he (by omega)
    (by omega) (entries_twice h hs h4.wf h3 (by omega) h4 k4)

/-- **C27.** A matrix without rows has no transpose: the result is `NULL`. -/
theorem C27_no_rows {A : Sp V} {nnz : Nat} (dbg pat : Bool) (h : A.rows = 0) :
    transposeGeneral dbg A nnz pat = ok none := by
  simp [transposeGeneral, h]

theorem half_entries {A B : Sp V} {lower : Bool} (h : A.WF)
    (hB : FromItems false B eCol eRow A.eVal (A.tagged.filter (eKeep lower))) :
    B.entries = A.entries.filter fun e => keep lower e.1 e.2.1 := by
  rw [hB.entries_items, bucket_sorted_all
    (((tagged_pairwise h.toPatWF).imp fun h => h.1).filter _) hB.keys, entries_eq h,
    List.filter_map]
  rfl

/-- **C28.** `make_half` returns exactly the entries of the requested triangle, in their original
order. -/
theorem C28_make_half {A : Sp V} (lower : Bool) (h : A.WF) (hn : A.rows = A.cols)
    (hc : 0 < A.cols) :
    ∃ B, makeHalf A false lower = ok B ∧ B.WF ∧ B.Exact ∧ B.rows = A.rows ∧ B.cols = A.cols ∧
      B.entries = A.entries.filter fun e => if lower then e.2.1 ≤ e.1 else e.1 ≤ e.2.1 := by
  obtain ⟨B, h1, h2, h3, h4, h5, h6⟩ := wp_iff.1 (makeHalf_wp h.toPatWF (pat := false)
    (lower := lower) (fun _ => h.xlen) hn hc)
  have e : B.p.getD B.cols 0 = (A.tagged.filter (eKeep lower)).length := by
    rw [h4.ptr (le_refl _), below_all _ _ _ h4.keys]
  refine ⟨B, h1, h4.wf, ⟨by rw [h5, e], by rw [h6, e]; rfl⟩, by omega, h3, ?_⟩
  rw [half_entries h h4]
  refine List.filter_congr ?_
  intro e _
  unfold keep
  cases lower <;> simp

/-- **C28.** The same for patterns. -/
theorem C28_make_half_pattern {A : Sp V} (lower : Bool) (h : A.PatWF) (hn : A.rows = A.cols)
    (hc : 0 < A.cols) :
    ∃ B, makeHalf A true lower = ok B ∧ B.PatWF ∧ B.rows = A.rows ∧ B.cols = A.cols ∧
      B.coords = A.coords.filter fun e => if lower then e.2 ≤ e.1 else e.1 ≤ e.2 := by
  obtain ⟨B, h1, h2, h3, h4, _⟩ := wp_iff.1 (makeHalf_wp h (pat := true)
    (lower := lower) (by simp) hn hc)
  refine ⟨B, h1, h4.patWF, by omega, h3, ?_⟩
  rw [h4.coords_eq, bucket_sorted_all
    (((tagged_pairwise h).imp fun h => h.1).filter _) h4.keys, ← tagged_fst A, List.filter_map]
  rfl

/-- Sorting commutes with taking a subset. -/
theorem bucket_filter {α : Type} (m : Nat) (key : α → Nat) (q : α → Bool) (l : List α) :
    (bucket m key l).filter q = bucket m key (l.filter q) := by
  unfold bucket
  rw [List.filter_flatMap]
  refine List.flatMap_congr ?_
  intro k _
  rw [List.filter_filter, List.filter_filter]
  refine List.filter_congr ?_
  intro a _
  rw [Bool.and_comm]

/-- **C29.** `make_full` returns exactly the entries of the matrix and their mirror images, diagonal
entries once. -/
theorem C29_make_full {A : Sp V} {nnz : Nat} (h : A.WF) (hn : A.rows = A.cols) (hc : 0 < A.cols)
    (hnz : A.p.getD A.cols 0 ≤ nnz) :
    ∃ B, makeFull A false nnz = ok (some B) ∧ B.WF ∧ B.rows = A.rows ∧ B.cols = A.cols ∧
      B.entries.Perm (A.entries.flatMap mirrored) := by
  obtain ⟨o, h1, B, rfl, h2, h3, h4, _⟩ := wp_iff.1 (makeFull_wp h hn hc hnz)
  refine ⟨B, h1, h4.wf, h2, h3, ?_⟩
  rw [h4.entries_items]
  refine ((bucket_perm h4.keys).map _).trans (List.Perm.of_eq ?_)
  rw [entries_eq h, List.map_flatMap, List.flatMap_map]
  refine List.flatMap_congr ?_
  intro e _
  unfold dup mirrored
  by_cases hrc : e.1.1 = e.1.2
  · rw [if_pos hrc, if_pos hrc]; rfl
  · rw [if_neg hrc, if_neg hrc]; rfl

omit [Zero V] in
theorem flatMap_perm {α β : Type} {f g : α → List β} (l : List α) (h : ∀ a ∈ l, (f a).Perm (g a)) :
    (l.flatMap f).Perm (l.flatMap g) := by
  induction l with
  | nil => exact List.Perm.refl _
  | cons a l ih =>
    rw [List.flatMap_cons, List.flatMap_cons]
    exact (h a List.mem_cons_self).append (ih fun b hb => h b (List.mem_cons_of_mem _ hb))

/-- **C29.** The full matrix is symmetric. -/
theorem C29_make_full_symmetric {A : Sp V} {nnz : Nat} (h : A.WF) (hn : A.rows = A.cols)
    (hc : 0 < A.cols) (hnz : A.p.getD A.cols 0 ≤ nnz) :
    ∃ B, makeFull A false nnz = ok (some B) ∧ (B.entries.map swapEntry).Perm B.entries := by
  obtain ⟨B, h1, _, _, _, h5⟩ := C29_make_full h hn hc hnz
  refine ⟨B, h1, (h5.map _).trans (List.Perm.trans ?_ h5.symm)⟩
  rw [List.map_flatMap]
  refine flatMap_perm _ ?_
  rintro ⟨r, c, v⟩ _
  unfold mirrored swapEntry
  by_cases hrc : r = c
  · simp [hrc]
  · simpa [hrc] using List.Perm.swap _ _ _

theorem filter_dup {lower : Bool} {l : List ((Nat × Nat) × Nat)}
    (hl : ∀ e ∈ l, eKeep lower e = true) : (l.flatMap dup).filter (eKeep lower) = l := by
  induction l with
  | nil => rfl
  | cons e l ih =>
    rw [List.flatMap_cons, List.filter_append, ih fun e he => hl e (List.mem_cons_of_mem _ he)]
    have he := hl e List.mem_cons_self
    suffices (dup e).filter (eKeep lower) = [e] by rw [this]; rfl
    unfold dup
    by_cases hrc : e.1.1 = e.1.2
    · rw [if_pos hrc, List.filter_cons_of_pos he]; rfl
    · rw [if_neg hrc, List.filter_cons_of_pos he, List.filter_cons_of_neg]
      · rfl
      · unfold eKeep keep at he ⊢
        cases lower <;> simp at he ⊢ <;> omega

/-- **C29.** Taking the half of the full matrix gives back the very same arrays (for a lower
triangular matrix the lower half, for an upper triangular one the upper half). -/
theorem C29_half_of_full {A : Sp V} {nnz : Nat} (lower : Bool) (h : A.WF) (hn : A.rows = A.cols)
    (hc : 0 < A.cols) (hnz : A.p.getD A.cols 0 ≤ nnz) (he : A.Exact)
    (htri : if lower then A.Lower else A.Upper) :
    ∃ B, makeFull A false nnz = ok (some B) ∧ makeHalf B false lower = ok A := by
  obtain ⟨o, h1, B, rfl, h2, h3, h4, _⟩ := wp_iff.1 (makeFull_wp h hn hc hnz)
  obtain ⟨C, k1, k2, k3, k4, k5, k6⟩ := wp_iff.1 (makeHalf_wp h4.patWF (pat := false)
    (lower := lower) (fun _ => h4.wf.xlen) (by omega) (by omega))
  refine ⟨B, h1, ?_⟩
  rw [k1]
  congr 1
  have e : C.p.getD C.cols 0 = (B.tagged.filter (eKeep lower)).length := by
    rw [k4.ptr (le_refl _), below_all _ _ _ k4.keys]
  refine ext_entries k4.wf h ⟨by rw [k5, e], by rw [k6, e]; rfl⟩ he (by omega) (by omega) ?_
  rw [half_entries h4.wf k4, h4.entries_items, List.filter_map, bucket_filter]
  have hk : ∀ e ∈ A.tagged, eKeep lower e = true := by
    intro e he
    have hmem : (e.1.1, e.1.2, A.eVal e) ∈ A.entries := by
      rw [entries_eq h, List.mem_map]; exact ⟨e, he, rfl⟩
    unfold eKeep keep
    cases lower
    · simpa using htri _ hmem
    · simpa using htri _ hmem
  have e2 : (A.tagged.flatMap dup).filter ((fun e => keep lower e.1 e.2.1) ∘
      fun a => (eRow a, eCol a, A.eVal a)) = A.tagged := filter_dup hk
  rw [e2, h3, bucket_sorted_all ((tagged_pairwise h.toPatWF).imp fun h => h.1)
    (tagged_cols h.toPatWF), entries_eq h]

/-- **C29.** A matrix that is not marked symmetric is refused. -/
theorem C29_make_full_unsymmetric {A : Sp V} {nnz : Nat} : makeFull A true nnz = ok none := rfl

/-! ### Where the code fails -/

/-- `csr_to_csc(CSR*)` swaps the dimensions: for a `1 × 2` matrix the result is out of bounds. -/
theorem C26_csr_to_csc_not_square :
    csrToCsc (⟨2, 1, [0, 2], [0, 1], [5, 7]⟩ : Sp Int) = Res.ub := by decide

/-- ... and for a `2 × 1` matrix with an empty second row it silently returns a matrix with the
wrong shape. -/
theorem C26_csr_to_csc_wrong_shape :
    ∃ C, csrToCsc (⟨1, 2, [0, 1, 1], [0], [5]⟩ : Sp Int) = ok C ∧
      ¬ Converted (⟨1, 2, [0, 1, 1], [0], [5]⟩ : Sp Int) C := by
  refine ⟨⟨1, 2, [0, 1, 1], [0], [5]⟩, by decide, fun h => ?_⟩
  exact absurd h.rows (by decide)

/-- `csc_to_csr(CSC*)` writes through a null pointer for a matrix without rows. -/
theorem C26_csc_to_csr_no_rows : cscToCsr (⟨0, 1, [0, 0], [], []⟩ : Sp Int) 0 false = Res.ub := by
  decide

/-- `make_full` writes through a null pointer for the empty matrix. -/
theorem C29_make_full_empty : makeFull (⟨0, 0, [0], [], []⟩ : Sp Int) false 0 = Res.ub := by
  decide

/-! ### Examples: the hypotheses hold for non-trivial matrices -/

/-- A `3 × 4` matrix with an empty column and 5 entries. -/
def exRect : Sp Int := ⟨3, 4, [0, 2, 2, 3, 5], [0, 2, 1, 0, 2], [10, 20, 30, 40, 50]⟩

theorem exRect_wf : exRect.WF where
  plen := rfl
  p0 := rfl
  mono := by decide
  bound := by decide
  range := by decide
  xlen := by decide

theorem exRect_sorted : exRect.ColsSorted := by unfold ColsSorted; decide
theorem exRect_exact : exRect.Exact := by unfold Exact; decide
theorem exRect_noDup : exRect.NoDup := by unfold NoDup; decide

example : ∃ B, cscToCsr exRect 6 false = ok B ∧ Converted exRect B :=
  C26_csc_to_csr_keeps_matrix exRect_wf (by decide) (by decide)

example : (cscToCsrArrays exRect >>= csrToCscArrays) = ok exRect :=
  C26_round_trip exRect_wf exRect_sorted exRect_exact

example : cscToCsrArrays exRect
    = ok ⟨4, 3, [0, 2, 3, 5], [0, 3, 2, 0, 3], [10, 40, 30, 20, 50]⟩ := by decide

example : ∃ B, transposeGeneral true exRect 5 false = ok (some B) ∧
    transposeGeneral true B B.i.length false = ok (some exRect) :=
  C27_transpose_twice true exRect_wf exRect_sorted exRect_exact (by decide) (by decide)

/-- A lower triangular `3 × 3` matrix. -/
def exLower : Sp Int := ⟨3, 3, [0, 3, 5, 6], [0, 1, 2, 1, 2, 2], [1, 2, 3, 4, 5, 6]⟩

theorem exLower_wf : exLower.WF where
  plen := rfl
  p0 := rfl
  mono := by decide
  bound := by decide
  range := by decide
  xlen := by decide

example : ∃ B, makeFull exLower false 6 = ok (some B) ∧ makeHalf B false true = ok exLower :=
  C29_half_of_full true exLower_wf rfl (by decide) (by decide) (by unfold Exact; decide)
    (by simp only [if_true]; unfold Lower; decide)

example : ∃ B, makeHalf exLower false false = ok B ∧ B.entries = [(0, 0, 1), (1, 1, 4), (2, 2, 6)] :=
  ⟨⟨3, 3, [0, 1, 2, 3], [0, 1, 2], [1, 4, 6]⟩, by decide, by decide⟩

end Verif.Sp
