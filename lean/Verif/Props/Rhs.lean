import Verif.Proof.Rhs
import Verif.Proof.Bridge
import Verif.Props.Solve
import Verif.Props.Hdagg
import Mathlib.Algebra.BigOperators.Group.List.Basic

/-!
# C41: the right-hand side of the examples

`Sp.LowerCsc`, `Sp.graph`, `Sp.toMat` are defined in Verif/Spec/Sparse.lean: a lower triangular
matrix in compressed columns, its dependence graph, and a matrix in compressed rows as the solvers
see it.
-/

namespace Verif.Sp
open Res

theorem filter_flatMap_range {α : Type} (n : Nat) (f : Nat → List α) (key : α → Nat)
    (hk : ∀ c, c < n → ∀ a ∈ f c, key a = c) {r : Nat} (hr : r < n) :
    ((List.range n).flatMap f).filter (fun a => key a = r) = f r := by
  have hsame : (f r).filter (fun a => key a = r) = f r :=
    List.filter_eq_self.2 fun a ha => by simp [hk r hr a ha]
  have hoth : ∀ c, c < n → c ≠ r → (f c).filter (fun a => key a = r) = [] := by
    intro c hc hcr
    apply List.filter_eq_nil_iff.2
    intro a ha
    simp [hk c hc a ha, hcr]
  have gen : ∀ m, m ≤ n → ((List.range m).flatMap f).filter (fun a => key a = r)
      = if r < m then f r else [] := by
    intro m
    induction m with
    | zero => intro _; rfl
    | succ m ih =>
      intro hm
      rw [List.range_succ, List.flatMap_append, List.filter_append, ih (by omega)]
      simp only [List.flatMap_cons, List.flatMap_nil, List.append_nil]
      by_cases e : m = r
      · subst e
        rw [if_neg (by omega), if_pos (by omega), hsame]; rfl
      · rw [hoth m (by omega) e]
        by_cases hlt : r < m
        · rw [if_pos hlt, if_pos (by omega), List.append_nil]
        · rw [if_neg hlt, if_neg (by omega)]; rfl
  rw [gen n (le_refl _), if_pos hr]

variable {V : Type} {A B : Sp V}

/-- The entries in row `r` of the CSR form. -/
theorem row_of_entries {r : Nat} (hr : r < B.cols) :
    B.entries.filter (fun e => e.2.1 = r) = (B.toMat.row r).map fun e => (e.1, r, e.2) := by
  unfold entries
  rw [toMat_row]
  refine filter_flatMap_range B.cols _ (fun e : Nat × Nat × V => e.2.1) ?_ hr
  intro c _ a ha
  rw [List.mem_map] at ha
  obtain ⟨q, _, rfl⟩ := ha
  rfl

theorem Converted.row_perm [Zero V] (hB : Converted A B) {r : Nat} (hr : r < B.cols) :
    ((B.toMat.row r).map fun e => (r, e.1, e.2)).Perm (A.entries.filter fun e => e.1 = r) := by
  have := hB.entries.filter (fun e => decide (e.1 = r))
  rw [List.filter_map] at this
  have he : ((fun e : Nat × Nat × V => decide (e.1 = r)) ∘ swapEntry)
      = fun e => decide (e.2.1 = r) := rfl
  rw [he, row_of_entries hr, List.map_map] at this
  exact this

theorem LowerCsc.sameDeps [Zero V] (h : A.LowerCsc) (hB : Converted A B) :
    Mat.SameDeps A.graph B.toMat := by
  have hc := hB.cols
  have hsq := h.square
  have hL := h.lowerCsr hB
  refine ⟨by show A.cols = B.cols; omega, fun u v => ?_⟩
  have key : ∀ u v, v < B.cols → ((∃ l, (u, l) ∈ B.toMat.row v) ↔ ∃ l, (v, u, l) ∈ A.entries) := by
    intro u v hv
    have hp := hB.row_perm hv
    constructor
    · rintro ⟨l, hl⟩
      have := hp.mem_iff.1 (List.mem_map.2 ⟨_, hl, rfl⟩)
      exact ⟨l, (List.mem_filter.1 this).1⟩
    · rintro ⟨l, hl⟩
      have := hp.mem_iff.2 (List.mem_filter.2 ⟨hl, by simp⟩)
      rw [List.mem_map] at this
      obtain ⟨⟨a, b⟩, hm, he⟩ := this
      simp only [Prod.mk.injEq] at he
      obtain ⟨_, rfl, rfl⟩ := he
      exact ⟨_, hm⟩
  constructor
  · rintro ⟨hu, hv, hne⟩
    have hvn : v < B.cols := by
      have : v < A.rows := h.wf.range u hu v hv
      omega
    obtain ⟨l, hl⟩ := (key u v hvn).2 ((h.wf.mem_colRows hu).1 hv)
    refine ⟨hvn, l, ?_⟩
    obtain ⟨d, hd⟩ := hL.diag v hvn
    have hne' : B.toMat.row v ≠ [] := List.ne_nil_of_mem hl
    rw [← List.dropLast_append_getLast hne', List.mem_append, List.mem_singleton] at hl
    rcases hl with hl | hl
    · exact hl
    · rw [List.getLast?_eq_getLast_of_ne_nil hne', Option.some.injEq] at hd
      rw [hd] at hl
      exact absurd (congrArg Prod.fst hl) hne
  · rintro ⟨hv, l, hl⟩
    have hlt := hL.lower v hv _ hl
    have hmem : (u, l) ∈ B.toMat.row v := List.dropLast_subset _ hl
    have huv : u < v := hlt
    have hu : u < A.cols := by
      have : v < B.cols := hv
      omega
    exact ⟨hu, (h.wf.mem_colRows hu).2 ((key u v hv).1 ⟨l, hmem⟩), by omega⟩

theorem LowerCsc.acyclic (h : A.LowerCsc) : A.graph.Acyclic := by
  intro v hv
  have : ∀ u v, Relation.TransGen A.graph.Dep u v → u < v := by
    intro u v h'
    induction h' with
    | single hd => have := h.lowerG _ hd.1 _ hd.2.1; have := hd.2.2; omega
    | tail _ hd ih => have := h.lowerG _ hd.1 _ hd.2.1; have := hd.2.2; omega
  exact absurd (this v v hv) (by omega)

end Verif.Sp

namespace Verif.Util
open Res Sp Exec Hdagg

/-- **C41.** `rhs_init` stores the sum of row `r` in `b[r]`, adding the values of the row in storage
order (in any arithmetic). -/
theorem C41_rhs_row_sums {V : Type} [Zero V] [Add V] {A : Sp V} (h : A.WF)
    (hsq : A.rows = A.cols) {b : List V} (hb : b.length = A.cols) :
    ∃ b', rhsInit A.cols A b = ok b' ∧ b'.length = A.cols ∧ ∀ r, r < A.cols → b'.getD r 0
      = ((A.entries.filter fun e => e.1 = r).map fun e => e.2.2).foldl (· + ·) 0 :=
  wp_iff.1 (rhsInit_wp h hsq hb)

section
variable {K : Type} [Field K] {A B : Sp K}

/-- The product of the CSR form with the vector of ones is the vector computed by `rhs_init`. -/
theorem mulRow_ones (h : A.LowerCsc) (hB : Converted A B) {r : Nat} (hr : r < A.cols) :
    B.toMat.mulRow (List.replicate A.cols 1) r = rowSumL A r := by
  have hc := hB.cols
  have hsq := h.square
  have hrB : r < B.cols := by omega
  have hp := ((hB.row_perm hrB).map fun e : Nat × Nat × K => e.2.2).sum_eq
  unfold rowSumL Mat.mulRow
  rw [← List.sum_eq_foldl, ← hp, List.map_map]
  congr 1
  apply List.map_congr_left
  intro e he
  have : e.1 < B.rows := by
    have hm : e.1 ∈ B.colRows r := by
      rw [← hB.wf.row_fst hrB]; exact List.mem_map.2 ⟨e, he, rfl⟩
    exact hB.wf.range r hrB _ hm
  have hlt : e.1 < A.cols := by rw [← hB.rows]; exact this
  rw [getD_replicate _ _ _ _ hlt, mul_one]
  rfl

private theorem diag_ne (hd : ∀ c d, (c, c, d) ∈ A.entries → d ≠ 0)
    (hB : Converted A B) : ∀ r d, r < B.toMat.n → (B.toMat.row r).getLast? = some (r, d) → d ≠ 0 := by
  intro r d hr hl
  have hm : (r, d) ∈ B.toMat.row r := List.mem_of_getLast? hl
  have := (hB.row_perm hr).mem_iff.1 (List.mem_map.2 ⟨_, hm, rfl⟩)
  exact hd r d (List.mem_filter.1 this).1

/-- **C41.** Over a field: for a lower triangular matrix with non-zero diagonal, the vector computed
by `rhs_init` from the CSC form, given to the serial solver with the CSR form of `csc_to_csr`,
gives the vector of ones. -/
theorem C41_solution_is_ones (h : A.LowerCsc) (hn : 0 < A.cols)
    (hd : ∀ c d, (c, c, d) ∈ A.entries → d ≠ 0) {nnz : Nat} (hnz : A.p.getD A.cols 0 ≤ nnz)
    {b : List K} (hb : b.length = A.cols) :
    ∃ b' B, rhsInit A.cols A b = ok b' ∧ cscToCsr A nnz false = ok B ∧
      sptrsvCsr (fieldArith K) A.cols B.p B.i B.x b' = ok (List.replicate A.cols 1) := by
  obtain ⟨b', h1, h2, h3⟩ := C41_rhs_row_sums h.wf h.square hb
  obtain ⟨B, h4, hB⟩ := C26_csc_to_csr_keeps_matrix h.wf (by rw [h.square]; exact hn) hnz
  have hc : B.toMat.n = A.cols := by show B.cols = A.cols; rw [hB.cols, h.square]
  obtain ⟨xs, hx1, _, _, hx4⟩ := C08_serial_solve_correct (h.lowerCsr hB) (diag_ne hd hB)
    (b := b') (by rw [h2, hc])
  refine ⟨b', B, h1, h4, ?_⟩
  have := hx4 (List.replicate A.cols 1) (by simp [hc]) (fun r hr => by
    rw [mulRow_ones h hB (by omega), h3 r (by omega)]; rfl)
  rw [this, ← hc]
  exact hx1

/-- **C41, C16 (the whole pipeline).** Over a field: for every lower triangular CSC matrix with
non-zero diagonal, convert to CSR, build the right-hand side with `rhs_init`, let `HDAGG` inspect
the CSC form and solve in parallel with its schedule: every execution ends in the vector of ones,
for every outcome of the balance tests and all interleavings of inspector and executor. -/
theorem C41_hdagg_pipeline (h : A.LowerCsc) (hn : 0 < A.cols)
    (hd : ∀ c d, (c, c, d) ∈ A.entries → d ≠ 0) {nnz : Nat} (hnz : A.p.getD A.cols 0 ≤ nnz)
    {b : List K} (hb : b.length = A.cols)
    {C : Type} [AddCommGroup C] [LinearOrder C] [IsOrderedAddMonoid C] {rdiv : C → Nat → C}
    {a : Args C} (ha : HdaggHyp A.graph rdiv a) :
    ∃ b' B, rhsInit A.cols A b = ok b' ∧ cscToCsr A nnz false = ok B ∧
      ∀ accept cc cc', wpl (hdagg false rdiv accept cc cc' a) fun r =>
        AlwaysGives (fun sch => sptrsvLbc (fieldArith K) B.p B.i B.x r.2 sch b')
          (List.replicate A.cols 1) := by
  obtain ⟨b', B, h1, h2, h3⟩ := C41_solution_is_ones h hn hd hnz hb
  refine ⟨b', B, h1, h2, ?_⟩
  obtain ⟨B', h4, hB⟩ := C26_csc_to_csr_keeps_matrix h.wf (by rw [h.square]; exact hn) hnz
  rw [h2] at h4
  cases h4
  have hc : B.toMat.n = A.cols := by show B.cols = A.cols; rw [hB.cols, h.square]
  obtain ⟨b'', h5, h6, _⟩ := C41_rhs_row_sums h.wf h.square hb
  rw [h1] at h5
  cases h5
  obtain ⟨xs, h7, h8⟩ := C16_hdagg_end_to_end (fieldArith K) (h.lowerCsr hB) (h.sameDeps hB) ha
    (b := b') (by rw [h6, hc])
  rw [hc] at h7
  have : sptrsvCsr (fieldArith K) A.cols B.p B.i B.x b' = ok xs := h7
  rw [h3] at this
  cases this
  exact h8

end

/-! ### A matrix that meets the hypotheses -/

/-- Columns `[2, _, 1, _]`, `[_, 3, 5, _]`, `[_, _, 4, 7]`, `[_, _, _, 1]`. -/
def exLowerQ : Sp ℚ := ⟨4, 4, [0, 2, 4, 6, 7], [0, 2, 1, 2, 2, 3, 3], [2, 1, 3, 5, 4, 7, 1]⟩

theorem exLowerQ_entries : exLowerQ.entries
    = [(0, 0, 2), (2, 0, 1), (1, 1, 3), (2, 1, 5), (2, 2, 4), (3, 2, 7), (3, 3, 1)] := by
  decide +kernel

/-- The hypotheses of C41 hold for `exLowerQ`, also those of the pipeline. -/
example : exLowerQ.LowerCsc ∧ (∀ c d, (c, c, d) ∈ exLowerQ.entries → d ≠ 0) ∧
    HdaggHyp exLowerQ.graph ceilDiv (exArgs4 true true) := by
  have h4 : ∀ c, c < exLowerQ.cols → c = 0 ∨ c = 1 ∨ c = 2 ∨ c = 3 := by
    intro c hc
    have : c < 4 := hc
    omega
  refine ⟨⟨⟨⟨by decide, by decide, by decide, by decide, by decide⟩, by decide⟩, rfl, ?_, ?_, ?_⟩, ?_,
    exArgs4_hyp true true⟩
  · intro e he
    rw [exLowerQ_entries] at he
    simp only [List.mem_cons, List.not_mem_nil, or_false] at he
    rcases he with rfl | rfl | rfl | rfl | rfl | rfl | rfl <;> decide
  · intro c hc
    rcases h4 c hc with rfl | rfl | rfl | rfl <;> decide
  · intro c hc
    rw [exLowerQ_entries]
    rcases h4 c hc with rfl | rfl | rfl | rfl
    · exact ⟨2, by simp⟩
    · exact ⟨3, by simp⟩
    · exact ⟨4, by simp⟩
    · exact ⟨1, by simp⟩
  · intro c d hm
    rw [exLowerQ_entries] at hm
    simp only [List.mem_cons, Prod.mk.injEq, List.not_mem_nil, or_false] at hm
    rcases hm with ⟨_, _, rfl⟩ | ⟨h1, h2, _⟩ | ⟨_, _, rfl⟩ | ⟨h1, h2, _⟩ | ⟨_, _, rfl⟩ |
      ⟨h1, h2, _⟩ | ⟨_, _, rfl⟩ <;> first | (norm_num; done) | (exfalso; omega)

/-- `rhs_init` on it. -/
example : rhsInit 4 exLowerQ [9, 9, 9, 9] = ok [2, 3, 10, 8] := by decide +kernel

end Verif.Util
