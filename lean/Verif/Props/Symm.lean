import Verif.Proof.Symm
import Verif.Props.TransSym

/-!
# Properties C70, C71: `add` and `make_symmetric`
-/

namespace Verif
open Res Sp Symm

variable {V : Type} [Zero V] [Add V] [Mul V]

/-! ### C70 -/

/-- **C70.** `add(A, B, α, β)` is `α A + β B`: there is an entry exactly where `A` or `B` has one, its value is
the sum of all contributions, and each column is sorted without repetitions - also if entries of `A` or `B`
are repeated or not sorted. -/
theorem C70_add {A B : Sp V} (stype : Int) (hA : A.WF) (hB : B.WF) (hr : B.rows = A.rows) (hcb : B.cols = A.cols)
    (hc : 0 < A.cols) (α β : V) :
    ∃ C, add stype stype false false A B α β = ok (some C) ∧ C.WF ∧ C.rows = A.rows ∧ C.cols = A.cols ∧
      C.ColsSorted ∧ C.NoDup ∧
      ∀ r c v, (r, c, v) ∈ C.entries ↔ c < A.cols ∧ leftSum (contributions A B α β r c) = some v := by
  obtain ⟨o, h1, C, rfl, h⟩ := wp_iff.1 (add_wp (patA := false) (patB := false) (st := stype) (alpha := α) (beta := β)
    (pat := false) rfl hA.toPatWF hB.toPatWF (fun _ => hA.xlen) (fun _ => hB.xlen) hr hcb (by omega))
  refine ⟨C, h1, ⟨h.wf, ?_⟩, h.rows, by rw [h.cols, hcb], ?_, ?_, h.entries hA hB hcb⟩
  · have := h.wf.bound
    rw [h.ilen] at this
    rw [h.xlen rfl]
    exact this
  · intro c hc'
    exact (h.col c (by rw [← h.cols]; exact hc')).sorted.imp (fun h => by omega)
  · intro c hc'
    exact (h.col c (by rw [← h.cols]; exact hc')).sorted.imp (fun h => by omega)

/-- **C70.** The same for patterns; one of the two matrices may have values. -/
theorem C70_add_pattern {A B : Sp V} (stype : Int) {patA patB : Bool} (hp : patA = true ∨ patB = true)
    (hA : A.PatWF) (hB : B.PatWF) (hr : B.rows = A.rows) (hcb : B.cols = A.cols) (hc : 0 < A.cols) (α β : V) :
    ∃ C, add stype stype patA patB A B α β = ok (some C) ∧ C.PatWF ∧ C.rows = A.rows ∧ C.cols = A.cols ∧
      C.ColsSorted ∧ C.NoDup ∧ ∀ e, e ∈ C.coords ↔ e ∈ A.coords ∨ e ∈ B.coords := by
  have hpt : (patA || patB) = true := by rcases hp with rfl | rfl <;> simp
  obtain ⟨o, h1, C, rfl, h⟩ := wp_iff.1 (add_wp (st := stype) (alpha := α) (beta := β)
    hpt hA hB (fun h => by cases h) (fun h => by cases h) hr hcb (by omega))
  refine ⟨C, h1, h.wf, h.rows, by rw [h.cols, hcb], ?_, ?_, h.coords hA hB hcb⟩
  · intro c hc'
    exact (h.col c (by rw [← h.cols]; exact hc')).sorted.imp (fun h => by omega)
  · intro c hc'
    exact (h.col c (by rw [← h.cols]; exact hc')).sorted.imp (fun h => by omega)

/-- **C70.** Matrices whose `stype` differs are not added: the result is `NULL`. -/
theorem C70_other_stype (A B : Sp V) {stA stB : Int} (h : stA ≠ stB) (patA patB : Bool) (α β : V) :
    add stA stB patA patB A B α β = ok none := by
  unfold add
  rw [if_pos h]

/-- Two matrices with 3 rows and columns, with a repeated and an unsorted entry. -/
def addA : Sp Int := ⟨3, 3, [0, 2, 3, 5], [2, 0, 1, 2, 2], [1, 2, 3, 4, 5]⟩
def addB : Sp Int := ⟨3, 3, [0, 1, 3, 4], [2, 0, 1, 0], [10, 20, 30, 40]⟩

theorem addA_wf : addA.WF := ⟨⟨rfl, rfl, by decide, by decide, by decide⟩, by decide⟩
theorem addB_wf : addB.WF := ⟨⟨rfl, rfl, by decide, by decide, by decide⟩, by decide⟩

example : ∃ C, add 0 0 false false addA addB 2 1 = ok (some C) ∧ C.WF ∧ C.rows = 3 ∧ C.cols = 3 ∧
    C.ColsSorted ∧ C.NoDup ∧
    ∀ r c v, (r, c, v) ∈ C.entries ↔ c < 3 ∧ leftSum (contributions addA addB 2 1 r c) = some v :=
  C70_add (A := addA) 0 addA_wf addB_wf rfl rfl (by decide) 2 1

example : ∃ C, add 0 0 true false addA addB 2 1 = ok (some C) ∧ C.PatWF ∧ C.rows = 3 ∧ C.cols = 3 ∧
    C.ColsSorted ∧ C.NoDup ∧ ∀ e, e ∈ C.coords ↔ e ∈ addA.coords ∨ e ∈ addB.coords :=
  C70_add_pattern (A := addA) 0 (.inl rfl) addA_wf.toPatWF addB_wf.toPatWF rfl rfl (by decide) 2 1

example : leftSum (contributions addA addB 2 1 2 0) = some 12 ∧ leftSum (contributions addA addB 2 1 2 2) = some 18 := by
  decide

/-- **C70, finding.** The number of entries of the sum is not recorded: the field `nnz` of the result (and the
length of its arrays) is the sum of the two numbers, also if entries coincide.  Functions which go
through `nnz` entries, such as `csc_to_csr`, then see entries that do not exist. -/
theorem C70_nnz_too_large :
    ∃ A B C : Sp Int, A.WF ∧ B.WF ∧ A.NoDup ∧ B.NoDup ∧ add 0 0 false false A B 1 1 = ok (some C) ∧
      C.entries.length < A.i.length + B.i.length ∧ C.i.length = A.i.length + B.i.length := by
  refine ⟨⟨1, 1, [0, 1], [0], [2]⟩, ⟨1, 1, [0, 1], [0], [3]⟩, ⟨1, 1, [0, 1], [0, 0], [5, 0]⟩,
    ⟨⟨rfl, rfl, by decide, by decide, by decide⟩, by decide⟩, ⟨⟨rfl, rfl, by decide, by decide, by decide⟩, by decide⟩,
    by unfold Sp.NoDup; decide, by unfold Sp.NoDup; decide, by decide, by decide, by decide⟩

/-! ### C71 -/

/-- **C71.** For a matrix that is not marked as symmetric, `make_symmetric` returns the requested triangle of
`(A + Aᵀ) / 2`. -/
theorem C71_unsymmetric (dbg : Bool) (half : V) {A : Sp V} {nnz : Nat} (hA : A.WF) (hsq : A.rows = A.cols)
    (hc : 0 < A.cols) (hn : A.p.getD A.cols 0 ≤ nnz) (lower : Bool) :
    ∃ H, makeSymmetric dbg half A 0 nnz false lower = ok (some (H, if lower then -1 else 1)) ∧ H.WF ∧
      H.rows = A.rows ∧ H.cols = A.cols ∧
      ∀ r c v, (r, c, v) ∈ H.entries ↔ c < A.cols ∧ (if lower then c ≤ r else r ≤ c) ∧
        leftSum (symContributions A half r c) = some v := by
  obtain ⟨o, h1, B, rfl, h2, h3, h4, -⟩ := wp_iff.1 (transposeGeneral_wp (dbg := dbg) hA.toPatWF
    (pat := false) (fun _ => hA.xlen) (by omega) hn)
  obtain ⟨C, c1, c2, c3, c4, -, -, c5⟩ := C70_add 0 hA h4.wf (by omega) (by omega) hc half half
  obtain ⟨H, g1, g2, g3, g4, -⟩ := wp_iff.1 (makeHalf_wp c2.toPatWF (pat := false)
    (lower := lower) (fun _ => c2.xlen) (by omega) (by omega))
  refine ⟨H, ?_, g4.wf, by omega, by omega, ?_⟩
  · unfold makeSymmetric
    rw [if_neg (by omega), if_neg (by omega), h1]
    simp only [ok_bind, deref, c1, g1]
  · intro r c v
    rw [half_entries c2 g4, List.mem_filter, c5]
    unfold contributions symContributions
    rw [valuesAt_transpose hA h4]
    unfold keep
    cases lower <;> simp <;> tauto

/-- **C71.** The same for patterns. -/
theorem C71_unsymmetric_pattern (dbg : Bool) (half : V) {A : Sp V} {nnz : Nat} (hA : A.PatWF)
    (hsq : A.rows = A.cols) (hc : 0 < A.cols) (hn : A.p.getD A.cols 0 ≤ nnz) (lower : Bool) :
    ∃ H, makeSymmetric dbg half A 0 nnz true lower = ok (some (H, if lower then -1 else 1)) ∧ H.PatWF ∧
      H.rows = A.rows ∧ H.cols = A.cols ∧
      ∀ r c, (r, c) ∈ H.coords ↔ (if lower then c ≤ r else r ≤ c) ∧ ((r, c) ∈ A.coords ∨ (c, r) ∈ A.coords) := by
  obtain ⟨B, h1, h2, h3, h4, h5, -⟩ := C27_transpose_pattern dbg hA (by omega) hn
  obtain ⟨C, c1, c2, c3, c4, -, c6, c5⟩ := C70_add_pattern 0 (patA := true) (patB := true) (.inl rfl) hA h2 (by omega)
    (by omega) hc half half
  obtain ⟨H, g1, g2, g3, g4, g5⟩ := C28_make_half_pattern lower c2 (by omega) (by omega)
  refine ⟨H, ?_, g2, by omega, by omega, ?_⟩
  · unfold makeSymmetric
    rw [if_neg (by omega), if_neg (by omega), h1]
    simp only [ok_bind, deref, c1, g1]
  · intro r c
    rw [g5, List.mem_filter, c5]
    have hB : (r, c) ∈ B.coords ↔ (c, r) ∈ A.coords := by
      rw [← h5.mem_iff, List.mem_map]
      constructor
      · intro h; exact ⟨(r, c), h, rfl⟩
      · rintro ⟨⟨a, b⟩, h, he⟩
        cases he
        exact h
    rw [hB]
    cases lower <;> simp <;> tauto

/-- **C71.** If the requested triangle is the stored one, the result is the matrix itself (not a copy). -/
theorem C71_same_triangle (dbg : Bool) (half : V) (A : Sp V) (nnz : Nat) (pat : Bool) {stype : Int} {lower : Bool}
    (h : if lower then stype < 0 else 0 < stype) :
    makeSymmetric dbg half A stype nnz pat lower = ok (some (A, stype)) := by
  unfold makeSymmetric
  cases lower
  · rw [if_pos (.inl ⟨by simpa using h, rfl⟩)]
  · rw [if_pos (.inr ⟨by simpa using h, rfl⟩)]

/-- **C71.** If the other triangle is requested, the result has the entries of the stored triangle, with rows
and columns exchanged. -/
theorem C71_other_triangle (dbg : Bool) (half : V) {A : Sp V} {nnz : Nat} (hA : A.WF) (hsq : A.rows = A.cols)
    (hc : 0 < A.cols) (hn : A.p.getD A.cols 0 ≤ nnz) {stype : Int} {lower : Bool}
    (h : if lower then 0 < stype else stype < 0) :
    ∃ F, makeSymmetric dbg half A stype nnz false lower = ok (some (F, -stype)) ∧ F.WF ∧ F.rows = A.rows ∧
      F.cols = A.cols ∧ F.ColsSorted ∧
      F.entries.Perm ((A.entries.filter fun e => if lower then e.1 ≤ e.2.1 else e.2.1 ≤ e.1).map swapEntry) := by
  obtain ⟨F, f1, f2, f3, f4, -, f6, f7⟩ := C60_transpose_symmetric (A := A) (stype := stype) (nnz := nnz)
    (perm := none) (π := id) hA hsq hc (by cases lower <;> simp at h <;> omega) hn trivial (fun _ _ => rfl)
  refine ⟨F, ?_, f2, by omega, f4, f7 rfl, f6.trans (List.Perm.of_eq ?_)⟩
  · unfold makeSymmetric
    cases lower
    · simp at h
      rw [if_neg (by simp; omega), if_pos (.inl ⟨h, rfl⟩), f1]
    · simp at h
      rw [if_neg (by simp; omega), if_pos (.inr ⟨h, rfl⟩), f1]
  · have hf : (fun e : Nat × Nat × V => inTriangle stype e.1 e.2.1) =
        fun e => if lower then decide (e.1 ≤ e.2.1) else decide (e.2.1 ≤ e.1) := by
      funext e
      unfold inTriangle
      cases lower
      · simp at h
        rw [if_neg (by omega)]
        simp
      · simp at h
        rw [if_pos (by omega)]
        simp
    rw [hf]
    refine List.map_congr_left ?_
    intro e he
    have he := (List.mem_filter.1 he).2
    unfold otherTriangle swapEntry
    cases lower
    · simp at h he
      rw [if_neg (by omega)]
      simp [he]
    · simp at h he
      rw [if_pos (by omega)]
      simp [he]

/-- **C71, finding.** A matrix without rows: the transpose is `NULL` and is used. -/
theorem C71_no_rows_ub (dbg : Bool) (half : V) {A : Sp V} (h : A.rows = 0) (nnz : Nat) (pat lower : Bool) :
    makeSymmetric dbg half A 0 nnz pat lower = ub := by
  unfold makeSymmetric
  rw [if_neg (by omega), if_neg (by omega), C27_no_rows dbg pat h]
  rfl

example : ∃ H, makeSymmetric false 1 addA 0 5 false true = ok (some (H, -1)) ∧ H.WF ∧
    H.rows = 3 ∧ H.cols = 3 ∧
    ∀ r c v, (r, c, v) ∈ H.entries ↔ c < 3 ∧ c ≤ r ∧ leftSum (symContributions addA 1 r c) = some v :=
  C71_unsymmetric false 1 addA_wf rfl (by decide) (by decide) true

example : ∃ H, makeSymmetric false 1 addA 0 5 true false = ok (some (H, 1)) ∧ H.PatWF ∧
    H.rows = 3 ∧ H.cols = 3 ∧
    ∀ r c, (r, c) ∈ H.coords ↔ r ≤ c ∧ ((r, c) ∈ addA.coords ∨ (c, r) ∈ addA.coords) :=
  C71_unsymmetric_pattern false 1 addA_wf.toPatWF rfl (by decide) (by decide) false

end Verif
