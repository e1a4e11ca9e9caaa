import Verif.Props.Sparse
import Verif.Proof.Graph

/-! # From a lower triangular CSC matrix to the inputs of the solvers -/

namespace Verif.Sp
open Res

variable {V : Type} {A B : Sp V}

theorem drop_zip {α β : Type} (l : List α) (m : List β) (k : Nat) :
    (l.zip m).drop k = (l.drop k).zip (m.drop k) := by
  rw [List.zip_eq_zipWith, List.drop_zipWith, ← List.zip_eq_zipWith]

theorem take_zip {α β : Type} (l : List α) (m : List β) (k : Nat) :
    (l.zip m).take k = (l.take k).zip (m.take k) := by
  rw [List.zip_eq_zipWith, List.take_zipWith, ← List.zip_eq_zipWith]

theorem toMat_row (B : Sp V) (r : Nat) : B.toMat.row r = (B.colRows r).zip (B.colVals r) := by
  unfold Mat.row
  rw [drop_zip, take_zip]
  rfl

theorem mem_entries {e : Nat × Nat × V} :
    e ∈ B.entries ↔ e.2.1 < B.cols ∧ (e.1, e.2.2) ∈ B.toMat.row e.2.1 := by
  unfold entries
  rw [List.mem_flatMap]
  constructor
  · rintro ⟨c, hc, he⟩
    rw [List.mem_map] at he
    obtain ⟨q, hq, rfl⟩ := he
    rw [toMat_row]
    exact ⟨List.mem_range.1 hc, hq⟩
  · rintro ⟨h1, h2⟩
    rw [toMat_row] at h2
    exact ⟨e.2.1, List.mem_range.2 h1, List.mem_map.2 ⟨_, h2, rfl⟩⟩

theorem WF.valLen (h : B.WF) {c : Nat} (hc : c < B.cols) :
    (B.colRows c).length = (B.colVals c).length := by
  have h1 := h.toPatWF.le_len (a := c + 1) hc
  have h2 : B.p.getD (c + 1) 0 ≤ B.x.length :=
    (h.toPatWF.mono_le (show c + 1 ≤ B.cols from hc) (le_refl _)).trans h.xlen
  rw [colRows_eq, colVals_eq, slice_length h1, slice_length h2]

theorem WF.row_fst (h : B.WF) {c : Nat} (hc : c < B.cols) :
    (B.toMat.row c).map Prod.fst = B.colRows c := by
  rw [toMat_row, List.map_fst_zip (le_of_eq (h.valLen hc))]

theorem WF.mem_colRows (h : B.WF) {c r : Nat} (hc : c < B.cols) :
    r ∈ B.colRows c ↔ ∃ v, (r, c, v) ∈ B.entries := by
  rw [← h.row_fst hc, List.mem_map]
  constructor
  · rintro ⟨⟨a, v⟩, hm, rfl⟩
    exact ⟨v, mem_entries.2 ⟨hc, hm⟩⟩
  · rintro ⟨v, hv⟩
    exact ⟨(r, v), (mem_entries.1 hv).2, rfl⟩

theorem WF.graph (h : A.WF) (hsq : A.rows = A.cols) : A.graph.WF where
  plen := h.plen
  p0 := h.p0
  mono := h.mono
  bound := h.bound
  range u hu v hv := by
    have := h.range u hu v hv
    show v < A.cols
    omega

namespace LowerCsc

theorem oneDiag (h : A.LowerCsc) : A.graph.OneDiag := by
  intro u hu
  have hm : u ∈ A.colRows u := by
    obtain ⟨d, hd⟩ := h.diag u hu
    exact (h.wf.mem_colRows hu).2 ⟨d, hd⟩
  exact List.count_eq_one_of_mem (h.noDup u hu) hm

theorem lowerG (h : A.LowerCsc) : A.graph.Lower := by
  intro u hu v hv
  obtain ⟨d, hd⟩ := (h.wf.mem_colRows hu).1 hv
  exact h.lower _ hd

/-- The CSR form of the matrix is what the solvers expect. -/
theorem lowerCsr [Zero V] (h : A.LowerCsc) (hB : Converted A B) : B.toMat.LowerCsr := by
  have hc := hB.cols
  have hr := hB.rows
  have hsq := h.square
  have hwf : B.toMat.WF := ⟨hB.wf.graph (by omega), hB.wf.xlen⟩
  have hmem : ∀ r c v, (c, r, v) ∈ B.entries ↔ (r, c, v) ∈ A.entries := by
    intro r c v
    rw [← hB.entries.mem_iff, List.mem_map]
    constructor
    · intro hm; exact ⟨_, hm, rfl⟩
    · rintro ⟨⟨a, b, d⟩, hm, he⟩
      simp only [swapEntry, Prod.mk.injEq] at he
      obtain ⟨rfl, rfl, rfl⟩ := he
      exact hm
  have hpw : ∀ r, r < B.cols → (B.toMat.row r).Pairwise fun a b => a.1 < b.1 := by
    intro r hr
    have := hB.strict h.noDup r hr
    rw [← hB.wf.row_fst hr, List.pairwise_map] at this
    exact this
  have hle : ∀ r, r < B.cols → ∀ e ∈ B.toMat.row r, e.1 ≤ r := by
    intro r hr e he
    have := (hmem r e.1 e.2).1 (mem_entries.2 ⟨hr, he⟩)
    exact h.lower _ this
  have hdiag : ∀ r, r < B.cols → ∃ d, (r, d) ∈ B.toMat.row r := by
    intro r hr
    obtain ⟨d, hd⟩ := h.diag r (by omega)
    exact ⟨d, (mem_entries.1 ((hmem r r d).2 hd)).2⟩
  have hlast : ∀ r, r < B.cols → ∃ d, (B.toMat.row r).getLast? = some (r, d) ∧
      ∀ e ∈ (B.toMat.row r).dropLast, e.1 < r := by
    intro r hr
    obtain ⟨d, hd⟩ := hdiag r hr
    have hne : B.toMat.row r ≠ [] := List.ne_nil_of_mem hd
    have hsplit := List.dropLast_append_getLast hne
    have hp := hpw r hr
    rw [← hsplit, List.pairwise_append] at hp
    have hl : ((B.toMat.row r).getLast hne).1 = r := by
      have h1 := hle r hr _ (List.getLast_mem hne)
      rw [← hsplit, List.mem_append, List.mem_singleton] at hd
      rcases hd with hd | hd
      · have := hp.2.2 _ hd _ (List.mem_singleton.2 rfl)
        dsimp only at this; omega
      · rw [← hd]
    refine ⟨((B.toMat.row r).getLast hne).2, ?_, ?_⟩
    · rw [List.getLast?_eq_getLast_of_ne_nil hne]
      exact congrArg some (Prod.ext hl rfl)
    · intro e he
      have := hp.2.2 e he _ (List.mem_singleton.2 rfl)
      rwa [hl] at this
  refine ⟨hwf, ?_, ?_⟩
  · intro r hr
    obtain ⟨d, h1, _⟩ := hlast r hr
    exact ⟨d, h1⟩
  · intro r hr e he
    obtain ⟨d, _, h2⟩ := hlast r hr
    exact h2 e he

end LowerCsc
end Verif.Sp
