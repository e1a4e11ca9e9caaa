import Verif.Model.Prepare
import Verif.Props.Metis
import Verif.Props.TransSym
import Verif.Props.Pipeline
import Verif.Props.Rhs

/-!
# C85: the matrix the example programs solve with

The theorems put together C29 (`make_full`), C82 (`metis_perm_general`), C28 (`make_half`), C60
(`transpose_symmetric`) and C26 (`csc_to_csr`), and end with what C49 and the other theorems about the
solvers assume.
-/

namespace Verif
open Res Sp Metis TransSym Prepare

section
variable {V : Type}

namespace Sp

theorem noDup_of_coords {A : Sp V} (h : A.coords.Nodup) : A.NoDup := by
  intro c hc
  unfold coords at h
  exact ((List.nodup_flatMap.1 h).1 c (List.mem_range.2 hc)).of_map _

theorem coords_entries {A : Sp V} [Zero V] (h : A.WF) :
    A.entries.map (fun e => (e.1, e.2.1)) = A.coords := by
  rw [entries_eq h, List.map_map, ← tagged_fst A]
  rfl

theorem mirrored_coords (r c : Nat) (v : V) : (mirrored (r, c, v)).map (fun e => (e.1, e.2.1))
    = if r = c then [(r, c)] else [(r, c), (c, r)] := by
  unfold mirrored swapEntry
  by_cases h : r = c
  · simp [h]
  · simp [h]

/-- The full matrix of a lower triangular one has no entry twice. -/
theorem nodup_mirrored {l : List (Nat × Nat)} (hl : l.Nodup) (hlow : ∀ e ∈ l, e.2 ≤ e.1) :
    (l.flatMap fun e => if e.1 = e.2 then [(e.1, e.2)] else [(e.1, e.2), (e.2, e.1)]).Nodup := by
  rw [List.nodup_flatMap]
  refine ⟨?_, ?_⟩
  · rintro ⟨r, c⟩ _
    dsimp only
    split
    · simp
    · rename_i h; simp; tauto
  · refine hl.imp_of_mem ?_
    rintro ⟨a, b⟩ ⟨c, d⟩ h1 h2 hne
    have l1 := hlow _ h1
    have l2 := hlow _ h2
    dsimp only at l1 l2
    have hne' : ¬ (a = c ∧ b = d) := by simpa using hne
    show List.Disjoint _ _
    intro x hx hy
    dsimp only at hx hy
    split at hx <;> split at hy <;> simp at hx hy <;> rcases x with ⟨x1, x2⟩ <;> simp at hx hy <;> omega

end Sp

/-- The first entry of a sorted column with diagonal. -/
theorem head_of_sorted {l : List Nat} {u : Nat} (hs : l.Pairwise (· ≤ ·)) (hlow : ∀ v ∈ l, u ≤ v)
    (hm : u ∈ l) : l.head? = some u := by
  cases l with
  | nil => cases hm
  | cons a t =>
    rw [List.pairwise_cons] at hs
    have := hlow a List.mem_cons_self
    rw [List.mem_cons] at hm
    rcases hm with rfl | hm
    · rfl
    · have := hs.1 u hm
      rw [show a = u by omega]; rfl

theorem Sp.LowerCsc.diagFirst {A : Sp V} (h : A.LowerCsc) (hs : A.ColsSorted) : A.graph.DiagFirst := by
  intro u hu
  refine head_of_sorted (hs u hu) (h.lowerG u hu) ?_
  have := h.oneDiag u hu
  exact List.count_pos_iff.1 (by omega)

/-- A lower triangular matrix with full diagonal and sorted columns, and its conversion to rows, are an
input for the solvers. -/
theorem Sp.LowerCsc.solverInput [Zero V] {A B : Sp V} (h : A.LowerCsc) (hs : A.ColsSorted)
    (hB : Converted A B) (hn : 0 < A.cols) : SolverInput B.toMat A.graph where
  lower := h.lowerCsr hB
  same := h.sameDeps hB
  wf := h.wf.graph h.square
  oneDiag := h.oneDiag
  diagFirst := h.diagFirst hs
  pos := by
    have h1 := hB.cols
    have h2 := h.square
    show 0 < B.cols
    omega

end

/-- `perm[π[r]] = r` and `π[perm[j]] = j`. -/
def InverseOf (perm : List Nat) (π : Nat → Nat) (n : Nat) : Prop :=
  (∀ j, j < n → π (perm.getD j 0) = j) ∧ ∀ r, r < n → π r < n ∧ perm.getD (π r) 0 = r

theorem inverse_exists {perm : List Nat} {n : Nat} (h : perm.Perm (List.range n)) :
    ∃ π, InverseOf perm π n := by
  have hnd : perm.Nodup := h.nodup_iff.2 List.nodup_range
  have hl : perm.length = n := by simpa using h.length_eq
  refine ⟨fun r => perm.idxOf r, ?_, ?_⟩
  · intro j hj
    have hj' : j < perm.length := by omega
    dsimp only
    rw [List.getD_eq_getElem _ _ hj']
    exact hnd.idxOf_getElem j hj'
  · intro r hr
    have hm : r ∈ perm := h.mem_iff.2 (List.mem_range.2 hr)
    have hlt := List.idxOf_lt_length_of_mem hm
    refine ⟨by rw [← hl]; exact hlt, ?_⟩
    dsimp only
    rw [List.getD_eq_getElem _ _ hlt]
    exact List.getElem_idxOf hlt

variable {V : Type} [Zero V]

/-- `G` is the lower triangle of the symmetric matrix whose lower triangle is `A`, after renumbering rows
and columns by `π`. -/
structure Reordered (π : Nat → Nat) (A G : Sp V) : Prop where
  lower : G.LowerCsc
  cols : G.cols = A.cols
  sorted : G.ColsSorted
  entries : G.entries.Perm (A.entries.map fun e => (max (π e.1) (π e.2.1), min (π e.1) (π e.2.1), e.2.2))
  symmetric : (G.entries.flatMap mirrored).Perm
    ((A.entries.flatMap mirrored).map fun e => (π e.1, π e.2.1, e.2.2))
  exact : G.Exact

/-- **C85.** What the example programs do to a lower triangular matrix with full diagonal (`stype ≠ 0`)
before solving: there is a permutation `perm`, returned by METIS for the adjacency graph of the matrix,
with inverse `π`, and the matrix solved with is the lower triangle of the symmetrically permuted matrix,
with full diagonal and sorted columns. -/
theorem C85_reorder {A : Sp V} {nnz : Nat} (h : A.LowerCsc) (hc : 0 < A.cols)
    (hn : A.p.getD A.cols 0 ≤ nnz) {stype : Int} (hs : stype ≠ 0) {nd : NodeND} (hnd : OrdersNodes nd)
    (debug : Bool) :
    ∃ perm π G gnz, reorder nd debug A stype nnz = ok (G, -1, gnz) ∧ G.p.getD G.cols 0 = gnz ∧
      perm.Perm (List.range A.cols) ∧ InverseOf perm π A.cols ∧ Reordered π A G := by
  have hsq := h.square
  obtain ⟨F, f1, f2, f3, f4, f5⟩ := C29_make_full h.wf hsq hc hn
  have hcoordA := coords_entries h.wf
  have hlowA : ∀ e ∈ A.coords, e.2 ≤ e.1 := by
    intro e he
    rw [← hcoordA, List.mem_map] at he
    obtain ⟨a, ha, rfl⟩ := he
    exact h.lower a ha
  have hcF : F.coords.Perm (A.coords.flatMap fun e =>
      if e.1 = e.2 then [(e.1, e.2)] else [(e.1, e.2), (e.2, e.1)]) := by
    rw [← coords_entries f2, ← hcoordA, List.flatMap_map]
    refine (f5.map _).trans (List.Perm.of_eq ?_)
    rw [List.map_flatMap]
    refine List.flatMap_congr ?_
    rintro ⟨r, c, v⟩ _
    exact mirrored_coords r c v
  have hFnd : F.NoDup := noDup_of_coords (hcF.nodup_iff.2 (nodup_mirrored (coords_nodup h.noDup) hlowA))
  have hFs : F.SymPattern := by
    intro r c hm
    rw [hcF.mem_iff, List.mem_flatMap] at hm ⊢
    obtain ⟨⟨a, b⟩, h1, h2⟩ := hm
    refine ⟨(a, b), h1, ?_⟩
    dsimp only at h2 ⊢
    split at h2
    · rename_i e; rw [if_pos e]; simp at h2 ⊢; omega
    · simp at h2; rename_i e; rw [if_neg e]; simp; omega
  have hFbd : F.p.getD F.cols 0 ≤ F.p.getD F.cols 0 := Nat.le_refl _
  obtain ⟨perm, p1, p2⟩ := C82_perm (pat := false) f2.toPatWF (fun _ => f2.xlen) (by omega) (by omega)
    hFbd hFnd hFs hnd debug
  rw [f4] at p2
  obtain ⟨H, k1, k2, k3, k4, k5, k6⟩ := C28_make_half (A := F) true f2 (by omega) (by omega)
  have hHA : H.entries.Perm A.entries := by
    rw [k6]
    refine (f5.filter _).trans (List.Perm.of_eq ?_)
    rw [List.filter_flatMap]
    have : ∀ e ∈ A.entries, (mirrored e).filter (fun e => if true = true then decide (e.2.1 ≤ e.1)
        else decide (e.1 ≤ e.2.1)) = [e] := by
      rintro ⟨r, c, v⟩ he
      have hrc : c ≤ r := h.lower _ he
      unfold mirrored swapEntry
      by_cases e : r = c
      · subst e; simp
      · simp [e, hrc]; omega
    rw [List.flatMap_congr this]
    simp
  obtain ⟨π, hπ⟩ := inverse_exists p2
  obtain ⟨T, G, t1, t2, g1, g2, g3, g4, g5, g6⟩ := C60_reordered (A := H) (stype := -1)
    (nnz := H.p.getD H.cols 0) (perm := some perm) (π := π) k2 (by omega) (by omega) (by omega)
    (Nat.le_refl _) (show perm.Perm (List.range H.cols) by rw [k5, f4]; exact p2)
    (by intro j hj; exact hπ.1 j (by omega))
  have hGe : G.entries.Perm (A.entries.map fun e =>
      (max (π e.1) (π e.2.1), min (π e.1) (π e.2.1), e.2.2)) := by
    refine g6.trans ?_
    rw [List.filter_eq_self.2]
    · exact hHA.map _
    · intro e he
      have := h.lower e (hHA.mem_iff.1 he)
      unfold inTriangle
      simpa using this
  have hinj : ∀ r s, r < A.cols → s < A.cols → π r = π s → r = s := by
    intro r s hr hs' he
    rw [← (hπ.2 r hr).2, he, (hπ.2 s hs').2]
  have hrange : ∀ e ∈ A.coords, e.1 < A.cols ∧ e.2 < A.cols := by
    rintro ⟨r, c⟩ he
    obtain ⟨h1, h2⟩ := mem_coords.1 he
    have := h.wf.range c h1 r h2
    exact ⟨by omega, h1⟩
  have hGc : G.coords.Perm (A.coords.map fun e => (max (π e.1) (π e.2), min (π e.1) (π e.2))) := by
    rw [← coords_entries g1, ← hcoordA, List.map_map]
    refine (hGe.map _).trans (List.Perm.of_eq ?_)
    rw [List.map_map]; rfl
  have hGnd : G.NoDup := by
    refine noDup_of_coords (hGc.nodup_iff.2 ?_)
    refine (List.nodup_map_iff_inj_on (coords_nodup h.noDup)).2 ?_
    rintro ⟨a, b⟩ h1 ⟨c, d⟩ h2 he
    have l1 := hlowA _ h1
    have l2 := hlowA _ h2
    obtain ⟨r1, r2⟩ := hrange _ h1
    obtain ⟨r3, r4⟩ := hrange _ h2
    dsimp only at *
    simp only [Prod.mk.injEq] at he
    have : (π a = π c ∧ π b = π d) ∨ (π a = π d ∧ π b = π c) := by omega
    rcases this with ⟨e1, e2⟩ | ⟨e1, e2⟩
    · rw [hinj _ _ r1 r3 e1, hinj _ _ r2 r4 e2]
    · have e1 := hinj _ _ r1 r4 e1
      have e2 := hinj _ _ r2 r3 e2
      simp only [Prod.mk.injEq]; omega
  have hnz : G.p.getD G.cols 0 = H.p.getD H.cols 0 := by
    have e1 : G.p.getD G.cols 0 = G.coords.length := by
      rw [← tagged_fst, List.length_map, tagged_length g1.toPatWF]
    have e2 : H.p.getD H.cols 0 = H.entries.length := by
      rw [entries_eq k2, List.length_map, tagged_length k2.toPatWF]
    rw [e1, hGc.length_eq, List.length_map, e2, hHA.length_eq, ← hcoordA, List.length_map]
  have hlen := C60_reordered_length (A := H) (stype := -1)
    (nnz := H.p.getD H.cols 0) (perm := some perm) (π := π) k2 (by omega) (by omega) (by omega)
    (Nat.le_refl _) (show perm.Perm (List.range H.cols) by rw [k5, f4]; exact p2)
    (by intro j hj; exact hπ.1 j (by omega)) t1 t2
  refine ⟨perm, π, G, H.p.getD H.cols 0, ?_, ?_, p2, hπ, ⟨⟨g1, by omega, ?_, hGnd, ?_⟩, by omega, g4, hGe,
    ?_, ⟨hlen.1.trans hnz.symm, hlen.2.trans hnz.symm⟩⟩⟩
  · unfold reorder
    rw [show decide (stype = 0) = false by simpa using hs, f1, ok_bind]
    dsimp only
    rw [rd_getD 0 (by rw [f2.plen]; omega), ok_bind, p1, ok_bind, k1, ok_bind,
      rd_getD 0 (by rw [k2.plen]; omega), ok_bind]
    dsimp only
    rw [t1, ok_bind]
    dsimp only
    rw [t2]
    rfl
  · exact hnz
  · intro e he
    have := g5 e he
    unfold inTriangle at this
    simpa using this
  · intro c hcc
    have hcA : c < A.cols := by omega
    have hr := hπ.1 c hcA
    have hpr : perm.getD c 0 < A.cols := IsPerm.lt (f := some perm) p2 hcA
    obtain ⟨d, hd⟩ := h.diag _ hpr
    refine ⟨d, hGe.mem_iff.2 (List.mem_map.2 ⟨_, hd, ?_⟩)⟩
    dsimp only
    rw [hr, max_self, min_self]
  · rw [List.map_flatMap]
    refine (hGe.flatMap_right _).trans ?_
    rw [List.flatMap_map]
    refine flatMap_perm _ ?_
    rintro ⟨r, c, v⟩ he
    have hrc := hrange (r, c) (by
      rw [← hcoordA]; exact List.mem_map.2 ⟨_, he, rfl⟩)
    dsimp only at hrc ⊢
    unfold mirrored swapEntry
    by_cases e : r = c
    · subst e; simp
    · have e' : π r ≠ π c := fun hh => e (hinj _ _ hrc.1 hrc.2 hh)
      dsimp only
      rw [if_neg e, if_neg (by omega)]
      rcases Nat.lt_or_ge (π r) (π c) with hlt | hge
      · rw [show max (π r) (π c) = π c by omega, show min (π r) (π c) = π r by omega]
        exact List.Perm.swap _ _ _
      · rw [show max (π r) (π c) = π r by omega, show min (π r) (π c) = π c by omega]
        exact List.Perm.refl _

/-- **C85.** With METIS, both forms of the matrix are an input for the solvers (C49). -/
theorem C85_with_metis {A : Sp V} {nnz : Nat} (h : A.LowerCsc) (hc : 0 < A.cols)
    (hn : A.p.getD A.cols 0 ≤ nnz) {stype : Int} (hs : stype ≠ 0) {nd : NodeND} (hnd : OrdersNodes nd)
    (debug : Bool) :
    ∃ perm π G B, prepareMetis nd debug A stype nnz = ok (G, B) ∧ perm.Perm (List.range A.cols) ∧
      InverseOf perm π A.cols ∧ Reordered π A G ∧ Converted G B ∧ SolverInput B.toMat G.graph := by
  obtain ⟨perm, π, G, gnz, h1, h2, h3, h4, h5⟩ := C85_reorder h hc hn hs hnd debug
  have hG := h5.lower
  have hGc := h5.cols
  obtain ⟨B, b1, b2⟩ := C26_csc_to_csr_keeps_matrix hG.wf (by have := hG.square; omega) h2.le
  refine ⟨perm, π, G, B, ?_, h3, h4, h5, b2, hG.solverInput h5.sorted b2 (by omega)⟩
  unfold prepareMetis
  rw [h1, ok_bind]
  dsimp only
  rw [b1]; rfl

/-- **C85.** Without METIS, the lower triangle of the matrix is taken; the matrix need not be triangular,
but its columns must be sorted. -/
theorem C85_without_metis {A : Sp V} (h : A.WF) (hsq : A.rows = A.cols) (hc : 0 < A.cols) (hd : A.NoDup)
    (hs : A.ColsSorted) (hdiag : ∀ c, c < A.cols → ∃ d, (c, c, d) ∈ A.entries) :
    ∃ H B, prepareHalf A = ok (H, B) ∧ H.LowerCsc ∧ H.cols = A.cols ∧
      H.entries = A.entries.filter (fun e => e.2.1 ≤ e.1) ∧ Converted H B ∧
      SolverInput B.toMat H.graph := by
  obtain ⟨H, k1, k2, k3, k4, k5, k6⟩ := C28_make_half (A := A) true h hsq hc
  have k6' : H.entries = A.entries.filter (fun e => e.2.1 ≤ e.1) := by
    rw [k6]; exact List.filter_congr fun e _ => by simp
  have hcoord : H.coords = A.coords.filter fun e => e.2 ≤ e.1 := by
    rw [← coords_entries k2, ← coords_entries h, k6', List.filter_map]
    rfl
  have hcol : ∀ c, c < A.cols → H.colRows c = (A.colRows c).filter fun r => c ≤ r := by
    intro c hcc
    have e : ∀ B : Sp V, c < B.cols → (B.coords.filter fun e => e.2 = c).map Prod.fst = B.colRows c := by
      intro B hcB
      unfold coords
      rw [List.filter_flatMap, List.map_flatMap]
      have : ∀ b ∈ List.range B.cols, ((List.filter (fun e => decide (e.2 = c))
          ((B.colRows b).map fun r => (r, b))).map Prod.fst) = if b = c then B.colRows c else [] := by
        intro b _
        rw [List.filter_map, List.map_map]
        by_cases hb : b = c
        · subst hb
          rw [if_pos rfl]
          have : (B.colRows b).filter ((fun e : Nat × Nat => decide (e.2 = b)) ∘ fun r => (r, b))
            = B.colRows b := List.filter_eq_self.2 (by simp)
          rw [this]
          exact List.map_id _
        · rw [if_neg hb]
          have : (B.colRows b).filter ((fun e : Nat × Nat => decide (e.2 = c)) ∘ fun r => (r, b)) = [] :=
            List.filter_eq_nil_iff.2 (by simp [hb])
          rw [this]; rfl
      rw [List.flatMap_congr this]
      have hnd : (List.range B.cols).Nodup := List.nodup_range
      have hm : c ∈ List.range B.cols := List.mem_range.2 hcB
      obtain ⟨s, t, hst⟩ := List.append_of_mem hm
      rw [hst] at hnd ⊢
      have h1 : c ∉ s := fun hh => by
        have := (List.nodup_append.1 hnd).2.2 c hh c List.mem_cons_self
        exact this rfl
      have h2 : c ∉ t := (List.nodup_cons.1 (List.nodup_append.1 hnd).2.1).1
      rw [List.flatMap_append, List.flatMap_cons, if_pos rfl]
      have z : ∀ l : List Nat, c ∉ l → l.flatMap (fun b => if b = c then B.colRows c else []) = [] := by
        intro l hl
        rw [List.flatMap_eq_nil_iff]
        intro b hb
        rw [if_neg]
        rintro rfl; exact hl hb
      rw [z s h1, z t h2]; simp
    rw [← e H (by omega), ← e A hcc, hcoord, List.filter_map, List.filter_filter, List.filter_filter]
    congr 1
    refine List.filter_congr ?_
    rintro ⟨r, b⟩ _
    by_cases hb : b = c
    · subst hb; simp
    · simp [hb]
  have hL : H.LowerCsc := by
    refine ⟨k2, by omega, ?_, ?_, ?_⟩
    · intro e he
      rw [k6'] at he
      simpa using (List.mem_filter.1 he).2
    · intro c hcc
      rw [hcol c (by omega)]
      exact (hd c (by omega)).filter _
    · intro c hcc
      obtain ⟨d, hdm⟩ := hdiag c (by omega)
      exact ⟨d, by rw [k6']; exact List.mem_filter.2 ⟨hdm, by simp⟩⟩
  have hS : H.ColsSorted := by
    intro c hcc
    rw [hcol c (by omega)]
    exact (hs c (by omega)).filter _
  obtain ⟨B, b1, b2⟩ := C26_csc_to_csr_keeps_matrix hL.wf (by omega) (Nat.le_refl (H.p.getD H.cols 0))
  refine ⟨H, B, ?_, hL, k5, k6', b2, hL.solverInput hS b2 (by omega)⟩
  unfold prepareHalf
  rw [k1, ok_bind, rd_getD 0 (by rw [k2.plen]; omega), ok_bind, b1]; rfl

/-- **C85** (finding): with METIS, a matrix that is not marked symmetric is refused by `make_full`, and the
null pointer is dereferenced. -/
theorem C85_unsymmetric_ub (nd : NodeND) (debug : Bool) (A : Sp V) (nnz : Nat) :
    prepareMetis nd debug A 0 nnz = ub := by
  unfold prepareMetis reorder makeFull
  rfl

/-- A matrix of 4 nodes, with METIS numbering backwards: the hypotheses hold, and this is the result. -/
def exPrep : Sp Int := ⟨4, 4, [0, 3, 5, 6, 7], [0, 1, 3, 1, 2, 2, 3], [1, 2, 3, 4, 5, 6, 7]⟩

example : exPrep.LowerCsc ∧ exPrep.ColsSorted ∧ exPrep.p.getD exPrep.cols 0 ≤ 7 := by
  refine ⟨⟨⟨⟨by decide, by decide, by decide, by decide, by decide⟩, by decide⟩, rfl, ?_, ?_, ?_⟩, ?_, by decide⟩
  · unfold Sp.Lower; decide
  · unfold Sp.NoDup; decide
  · have : ∀ c, c < exPrep.cols → ∃ e ∈ exPrep.entries, e.1 = c ∧ e.2.1 = c := by decide
    intro c hc
    obtain ⟨⟨r, c', d⟩, h1, rfl, h3⟩ := this c hc
    dsimp only at h3
    subst h3
    exact ⟨d, h1⟩
  · unfold Sp.ColsSorted; decide

example : prepareMetis (fun n _ _ => (1, (List.range n).reverse)) true exPrep (-1) 7
    = ok (⟨4, 4, [0, 2, 4, 6, 7], [0, 3, 1, 2, 2, 3, 3], [7, 3, 6, 5, 4, 2, 1]⟩,
      ⟨4, 4, [0, 1, 2, 4, 7], [0, 1, 1, 2, 0, 2, 3], [7, 6, 5, 4, 3, 2, 1]⟩) := by decide +kernel

end Verif
