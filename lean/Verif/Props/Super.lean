import Verif.Proof.SuperDag
import Verif.Proof.LbcDemo

/-!
# C40, C58: supernodes and their dependence graph
-/

namespace Verif
open Res Super

/-- **C40.** `createCSRSupernode` splits the rows into maximal runs in which every row continues the
pattern of the first row of the run; `off_diag_size` is the number of entries of the first row
without the diagonal.  With assertions, the rows must not be empty. -/
theorem C40_csr_supernodes {g : Csc} (hg : g.WF) {debug : Bool}
    (hd : debug = true → ∀ r, r < g.n → g.col r ≠ []) {limit : Nat} (hl : 1 ≤ limit) :
    ∃ r, csrRuns debug g.n limit g.p g.i = ok r ∧ IsSupernodes (NestedRows g) g.n limit r.ptr ∧
      ∀ s a, s + 1 < r.ptr.length → r.ptr[s]? = some a →
        r.off[s]? = some (((g.col a).length : Int) - 1) := by
  obtain ⟨r, h1, h2⟩ := wp_iff.1 (csrRuns_wp hg hd (fun _ => hl))
  refine ⟨r, h1, h2.supernodes, ?_⟩
  intro s a hs ha
  exact (h2.range s a _ ha (List.getElem?_eq_getElem hs)).2.2.2.2

/-- **C40**, for columns.  The value in `off_diag_size` is one less than the number of rows below the
diagonal block of the supernode. -/
theorem C40_csc_supernodes {g : Csc} (hg : g.WF) {debug : Bool}
    (hd : debug = true → ∀ r, r < g.n → g.col r ≠ []) {limit : Nat} (hl : 1 ≤ limit) :
    ∃ r, cscRuns debug g.n limit g.p g.i = ok r ∧ IsSupernodes (NestedCols g) g.n limit r.ptr ∧
      ∀ s a b, r.ptr[s]? = some a → r.ptr[s + 1]? = some b →
        r.off[s]? = some (((g.col a).length : Int) - (b - a : Nat) - 1) := by
  obtain ⟨r, h1, h2⟩ := wp_iff.1 (cscRuns_wp hg hd (fun _ => hl))
  exact ⟨r, h1, h2.supernodes, fun s a b ha hb => (h2.range s a b ha hb).2.2.2.2⟩

/-- **C40.** `BCSCMatrix::supernodes` for a lower triangular matrix: the same runs of columns, but of
up to `limit + 1` columns (`limit = 0` means no limit). -/
theorem C40_block_supernodes {g : Csc} (hg : g.WF) (limit : Int) :
    ∃ ptr : List Nat, supernodes g.n limit true g.p g.i = ok (ptr.map (fun (v : Nat) => (v : Int))) ∧
      IsSupernodes (NestedCols g) g.n ((if limit = 0 then g.n else limit.toNat) + 1) ptr := by
  obtain ⟨l, h1, ptr, h2, h3⟩ := wp_iff.1 (supernodesLower_wp hg limit)
  exact ⟨ptr, by rw [h1, h2], h3⟩

/-- **C40**, for an upper triangular matrix: the runs are listed from the last column down to the
first one, and each column is compared with the last column of its run. -/
theorem C40_block_supernodes_upper {g : Csc} (hg : g.WF) (limit : Int) :
    ∃ l, supernodes g.n limit false g.p g.i = ok l ∧
      IsSupernodesDown (NestedUpper g) g.n ((if limit = 0 then g.n else limit.toNat) + 1) l :=
  wp_iff.1 (supernodesUpper_wp hg limit)

/-- A strictly increasing list of `k` numbers between `a` and `a + k`. -/
theorem eq_range' : ∀ {l : List Nat} {a : Nat}, l.Pairwise (· < ·) → (∀ x ∈ l, a ≤ x ∧ x < a + l.length) →
    l = List.range' a l.length
  | [], _, _, _ => rfl
  | x :: l, a, h, hb => by
    rw [List.pairwise_cons] at h
    have hx := hb x List.mem_cons_self
    have hl : ∀ {l : List Nat} {b c : Nat}, l.Pairwise (· < ·) → (∀ y ∈ l, b ≤ y ∧ y < c) → l.length ≤ c - b := by
      intro l
      induction l with
      | nil => intro b c _ _; simp
      | cons y l ih =>
        intro b c h hb
        rw [List.pairwise_cons] at h
        have := ih (b := y + 1) (c := c) h.2 (fun z hz => ⟨h.1 z hz, (hb z (List.mem_cons_of_mem _ hz)).2⟩)
        have := hb y List.mem_cons_self
        simp only [List.length_cons]; omega
    have h2 := hl (b := x + 1) (c := a + (l.length + 1)) h.2 (fun z hz =>
      ⟨h.1 z hz, by have := (hb z (List.mem_cons_of_mem _ hz)).2; simpa using this⟩)
    simp only [List.length_cons] at hx
    obtain rfl : x = a := by omega
    have h3 := eq_range' (a := x + 1) h.2 (fun z hz => ⟨h.1 z hz, by
      have := (hb z (List.mem_cons_of_mem _ hz)).2
      simp only [List.length_cons] at this; omega⟩)
    rw [List.length_cons, List.range'_succ, ← h3]

/-- **C40.** In a lower triangular matrix with sorted rows and full diagonal the diagonal block of a
supernode is dense: row `c` consists of row `a` and the columns between `a` and `c`. -/
theorem C40_dense_rows {g : Csc} (hs : ∀ r, r < g.n → (g.col r).Pairwise (· < ·))
    (hd : ∀ r, r < g.n → (g.col r).getLast? = some r) {a c : Nat} (hac : a < c) (hc : c < g.n)
    (h : NestedRows g a c) : g.col c = g.col a ++ List.range' (a + 1) (c - a) := by
  obtain ⟨l, hl, he⟩ := h
  rw [he, ← hl]
  congr 1
  have hp := hs c hc
  rw [he, List.pairwise_append] at hp
  refine eq_range' hp.2.1 ?_
  intro x hx
  have ha : a ∈ g.col a := List.mem_of_getLast? (hd a (by omega))
  have h1 := hp.2.2 a ha x hx
  refine ⟨h1, ?_⟩
  have hlast := hd c hc
  have hxc : x ≤ c := by
    have hp := hs c hc
    obtain ⟨ys, hys⟩ := List.getLast?_eq_some_iff.1 hlast
    have hxm : x ∈ g.col c := by rw [he]; exact List.mem_append_right _ hx
    rw [hys] at hp hxm
    rcases List.mem_append.1 hxm with hx | hx
    · exact ((List.pairwise_append.1 hp).2.2 x hx c (by simp)).le
    · rw [List.mem_singleton] at hx; omega
  omega

/-- **C40.** The same for columns: column `a` consists of the rows from `a` to `c` and of column `c`. -/
theorem C40_dense_cols {g : Csc} (hs : ∀ r, r < g.n → (g.col r).Pairwise (· < ·))
    (hd : g.DiagFirst) {a c : Nat} (hac : a < c) (hc : c < g.n)
    (h : NestedCols g a c) : g.col a = List.range' a (c - a) ++ g.col c := by
  obtain ⟨l, hl, he⟩ := h
  rw [he, ← hl]
  congr 1
  have hp := hs a (by omega)
  have hda := hd a (by omega)
  obtain ⟨ys, hys⟩ := List.head?_eq_some_iff.1 hda
  have hmin : ∀ x ∈ g.col a, a ≤ x := by
    intro x hx
    rw [hys] at hx hp
    rcases List.mem_cons.1 hx with rfl | hx
    · exact le_refl _
    · exact ((List.pairwise_cons.1 hp).1 x hx).le
  rw [he, List.pairwise_append] at hp
  refine eq_range' hp.1 ?_
  intro x hx
  have hcc : c ∈ g.col c := List.mem_of_head? (hd c hc)
  have h1 := hp.2.2 x hx c hcc
  exact ⟨hmin x (by rw [he]; exact List.mem_append_left _ hx), by omega⟩

/-- A lower triangular matrix with the supernodes `{0, 1}`, `{2}`, `{3, 4}`, both by rows and by columns. -/
def exSuper : Csc := ⟨5, [0, 3, 5, 7, 9, 10], [0, 1, 4, 1, 4, 2, 3, 3, 4, 4]⟩

def exSuperRows : Csc := ⟨5, [0, 1, 3, 4, 6, 10], [0, 0, 1, 2, 2, 3, 0, 1, 3, 4]⟩

theorem exSuper_wf : exSuper.WF := ⟨by decide, by decide, by decide, by decide, by decide⟩
theorem exSuperRows_wf : exSuperRows.WF := ⟨by decide, by decide, by decide, by decide, by decide⟩

example : cscRuns true 5 5 exSuper.p exSuper.i = ok ⟨[0, 2, 3, 5], [0, 0, -1]⟩ := by decide
example : csrRuns true 5 5 exSuperRows.p exSuperRows.i = ok ⟨[0, 2, 4, 5], [0, 0, 3]⟩ := by decide
example : supernodes 5 0 true exSuper.p exSuper.i = ok [0, 2, 3, 5] := by decide
example : supernodes 5 (-1) true exSuper.p exSuper.i = ok [0, 1, 2, 3, 4, 5] := by decide
example : supernodes 3 0 false [0, 1, 2, 4] [0, 1, 1, 2] = ok [2, 0, -1] := by decide

/-- **C40**, limit of the code: with `limit = 1` `BCSCMatrix::supernodes` makes blocks of two columns. -/
theorem C40_block_limit_exceeded :
    supernodes 5 1 true exSuper.p exSuper.i = ok [0, 2, 3, 5] := by decide

/-- **C40**, limit of the code: `off_diag_size` of a column supernode without rows below it is `-1`. -/
theorem C40_off_diag_negative :
    cscRuns true 1 1 [0, 1] [0] = ok ⟨[0, 1], [-1]⟩ := by decide

/-! ## C58 -/

section Dag

variable {A : Csc} {ptr : List Nat}

/-- What is stated about the dependence graph `H` of the supernodes. -/
structure SuperDagOk (A : Csc) (ptr : List Nat) (H : Csc) : Prop where
  nodes : H.n = ptr.length - 1
  wf : H.WF
  sorted : ∀ s, s < H.n → (H.col s).Pairwise (· < ·)
  oneDiag : H.OneDiag
  diagFirst : H.DiagFirst
  lower : H.Lower
  dep : ∀ a b, H.Dep a b ↔ (rangeGrouping A.n ptr).Dep A a b

theorem superDag {limit : Nat} {Same : Nat → Nat → Prop} (hs : IsSupernodes Same A.n limit ptr) (hA : A.WF)
    (hlow : A.Lower) {inv dag set : List Nat} {nnz : Nat}
    (hI : DagInv A.p A.i inv ptr nnz (ptr.length - 1) dag set) (hnnz : A.ptr A.n ≤ nnz)
    (hinv : ∀ s v, s < ptr.length - 1 → ptr.getD s 0 ≤ v → v < ptr.getD (s + 1) 0 → inv.getD v 0 = s) :
    SuperDagOk A ptr ⟨ptr.length - 1, dag, set.take (dag.getD (ptr.length - 1) 0)⟩ := by
  set H : Csc := ⟨ptr.length - 1, dag, set.take (dag.getD (ptr.length - 1) 0)⟩ with hH
  have hp := hs.ptrOk
  have hpp : PtrOk A.p A.n (A.ptr A.n) := PtrOk.mk' (by rw [hA.plen]; omega) hA.p0 rfl hA.mono
  have hcol : ∀ s, s < H.n → H.col s = slice set (dag.getD s 0) (dag.getD (s + 1) 0) := by
    intro s hs
    have h1 := hI.mono_le (a := s + 1) (b := ptr.length - 1) (show s + 1 ≤ ptr.length - 1 from hs) (le_refl _)
    show slice (set.take _) (dag.getD s 0) (dag.getD (s + 1) 0) = _
    apply slice_congr
    intro k _ hk
    rw [List.getElem?_take, if_pos (by omega)]
  -- entries of the columns of a supernode
  have hent : ∀ s, s < H.n → ∀ k, A.ptr (ptr.getD s 0) ≤ k → k < A.ptr (ptr.getD (s + 1) 0) →
      ∃ u, ptr.getD s 0 ≤ u ∧ u < ptr.getD (s + 1) 0 ∧ u < A.n ∧ A.idx k ∈ A.col u := by
    intro s hs k h1 h2
    have hle := hp.dle (b := s + 1) (show s + 1 ≤ ptr.length - 1 from hs)
    have hm := hA.mono_le hle (le_refl _)
    obtain ⟨u, hu1, hu2, hu3⟩ := hpp.exists_block (k := k) (by omega)
    have hu2 : A.ptr u ≤ k := hu2
    have hu3 : k < A.ptr (u + 1) := hu3
    refine ⟨u, ?_, ?_, hu1, (hA.mem_col hu1).2 ⟨k, hu2, hu3, rfl⟩⟩
    · by_contra hc
      have := hA.mono_le (show u + 1 ≤ ptr.getD s 0 by omega) (by have := hp.dle (b := s) (by simp [hH] at hs; omega); omega)
      omega
    · by_contra hc
      have := hA.mono_le (show ptr.getD (s + 1) 0 ≤ u by omega) (by omega)
      omega
  have hmem : ∀ s, s < H.n → ∀ t, t ∈ H.col s ↔ t = s ∨ (rangeGrouping A.n ptr).Dep A s t := by
    intro s hs t
    have hs' : s < ptr.length - 1 := by simpa [hH] using hs
    rw [hcol s hs, (hI.cont s hs').2 t]
    unfold DagMem
    constructor
    · rintro (h | ⟨k, h1, h2, h3, h4⟩)
      · exact .inl h
      · obtain ⟨u, hu1, hu2, hu3, hu4⟩ := hent s hs k h1 h2
        have hv := hA.range u hu3 _ hu4
        obtain ⟨b, hb1, hb2, hb3⟩ := hp.exists_block hv
        have hb4 := hinv b _ hb1 hb2 hb3
        have hbt : b = t := by rw [← h4, ← hb4]; rfl
        subst hbt
        have h3 : ptr.getD (s + 1) 0 ≤ A.idx k := h3
        have hsb : s ≠ b := by
          rintro rfl; omega
        exact .inr ⟨hsb, u, A.idx k, (rangeGrouping_mem hp).2 ⟨hs', hu1, hu2⟩,
          (rangeGrouping_mem hp).2 ⟨hb1, hb2, hb3⟩, hu3, hu4, by omega⟩
    · rintro (h | ⟨hst, u, v, hu, hv, hu3, huv, hne⟩)
      · exact .inl h
      · rw [rangeGrouping_mem hp] at hu hv
        have hlu := hlow u hu3 v huv
        obtain ⟨k, hk1, hk2, hk3⟩ := (hA.mem_col hu3).1 huv
        have hle := hp.dle (b := s + 1) (by omega)
        have hm1 := hA.mono_le hu.2.1 (by omega)
        have hm2 := hA.mono_le (show u + 1 ≤ ptr.getD (s + 1) 0 by omega) hle
        refine .inr ⟨k, le_trans hm1 hk1, lt_of_lt_of_le hk2 hm2, ?_, ?_⟩
        · show _ ≤ A.idx k
          rw [hk3]
          by_contra hc
          exact hst (hp.block_unique hu.1 hv.1 (k := v) (by omega) (by omega) hv.2.1 hv.2.2)
        · show inv.getD (A.idx k) 0 = t
          rw [hk3]
          exact hinv t v hv.1 hv.2.1 hv.2.2
  have hup : ∀ s t, (rangeGrouping A.n ptr).Dep A s t → s < t := by
    rintro s t ⟨hst, u, v, hu, hv, hu3, huv, hne⟩
    rw [rangeGrouping_mem hp] at hu hv
    have hlu := hlow u hu3 v huv
    by_contra hc
    have := hp.dmono_le (a := t + 1) (b := s) (by omega) (by omega)
    omega
  have hsorted : ∀ s, s < H.n → (H.col s).Pairwise (· < ·) := by
    intro s hs
    rw [hcol s hs]; exact (hI.cont s (by simpa [hH] using hs)).1
  have hlower : H.Lower := by
    intro s hs t ht
    rcases (hmem s hs t).1 ht with h | h
    · omega
    · exact (hup s t h).le
  have hnd : ∀ s, s < H.n → (H.col s).Nodup := fun s hs => (hsorted s hs).imp (fun h => by omega)
  refine ⟨rfl, ⟨hI.len, hI.zero, ?_, ?_, ?_⟩, hsorted, ?_, ?_, hlower, ?_⟩
  · intro s hs
    exact hI.mono s (by simpa [hH] using hs)
  · show dag.getD (ptr.length - 1) 0 ≤ (set.take _).length
    have h1 := hI.le
    rw [hp.dlast] at h1
    have h1 : dag.getD (ptr.length - 1) 0 ≤ A.ptr A.n := h1
    rw [List.length_take, hI.slen]
    omega
  · intro s hs t ht
    rcases (hmem s hs t).1 ht with h | ⟨_, u, v, hu, hv, _⟩
    · rw [h]; exact hs
    · exact ((rangeGrouping_mem hp).1 hv).1
  · intro s hs
    exact List.count_eq_one_of_mem (hnd s hs) ((hmem s hs s).2 (.inl rfl))
  · intro s hs
    have hin := (hmem s hs s).2 (.inl rfl)
    have hso := hsorted s hs
    have hlo := hlower s hs
    cases hc : H.col s with
    | nil => rw [hc] at hin; cases hin
    | cons x l =>
      rw [hc] at hin hso hlo
      rcases List.mem_cons.1 hin with h | h
      · rw [h]; rfl
      · have h1 := (List.pairwise_cons.1 hso).1 s h
        have h2 := hlo x List.mem_cons_self
        omega
  · intro a b
    constructor
    · rintro ⟨ha, hb, hab⟩
      rcases (hmem a ha b).1 hb with h | h
      · exact absurd h.symm hab
      · exact h
    · intro h
      have ha : a < H.n := by
        obtain ⟨_, u, v, hu, _⟩ := h
        exact ((rangeGrouping_mem hp).1 hu).1
      exact ⟨ha, (hmem a ha b).2 (.inr h), h.1⟩

end Dag

/-- The limit that is used by the constructor. -/
def superLimit (n : Nat) (limit : Int) : Nat := if limit < 1 then n else limit.toNat

/-- **C58.** For a lower triangular matrix, given by columns (`A`) and by rows (`B`), the constructor of
`SuperNodal` finds the supernodes of the rows, and the graph it builds is the dependence graph of
the supernodes: well formed, with the diagonal entry first in each column, sorted, and with exactly the
dependences between the supernodes. `hash` is the unknown order of a hash set; `nnz` is the number of
non-zeros stored with `B`. -/
theorem C58_supernodal_rows {A B : Csc} (hA : A.WF) (hd : A.OneDiag) (hlow : A.Lower) (hB : B.WF)
    (hn : B.n = A.n) {debug : Bool} (hne : debug = true → ∀ r, r < B.n → B.col r ≠ []) {nnz : Nat}
    (hnnz : A.ptr A.n ≤ nnz) {hash : List Nat → List Nat} (hhash : ∀ l, (hash l).Perm l) (limit : Int) :
    ∃ o, superNodal debug hash .csr (some A) (some B) nnz limit = ok o ∧
      IsSupernodes (NestedRows B) B.n (superLimit B.n limit) o.ptr ∧
      SuperDagOk A o.ptr ⟨o.ptr.length - 1, o.dagPtr, o.dagSet⟩ := by
  have hl : 0 < B.n → 1 ≤ superLimit B.n limit := by
    intro h; unfold superLimit; split <;> omega
  obtain ⟨r, h1, h2⟩ := wp_iff.1 (csrRuns_wp hB hne hl)
  have hsn := h2.supernodes
  have hsn' : IsSupernodes (NestedRows B) A.n (superLimit B.n limit) r.ptr := by rw [← hn]; exact hsn
  obtain ⟨inv, h3, h4, h5⟩ := wp_iff.1 (nodeToSup_wp hsn.ptrOk)
  obtain ⟨d, h6, set, h7, h8⟩ := wp_iff.1 (createDepDAG_wp (debug := debug) hhash hA hd hnnz hsn'.ptrOk
    (fun s hs => hsn'.strict hs) (inv := inv) (by omega))
  refine ⟨⟨r.ptr, r.off, d.1, d.2⟩, ?_, hsn, ?_⟩
  · unfold superNodal
    dsimp only
    show (csrRuns debug B.n (superLimit B.n limit) B.p B.i >>= _) = _
    rw [h1, ok_bind, h3, ok_bind]
    show (createDepDAG debug hash (some nnz) r.ptr inv A.p A.i >>= _) = _
    rw [h6]; rfl
  · dsimp only
    rw [h7]
    exact superDag hsn' hA hlow h8 hnnz h5

/-- **C58**, for the supernodes of the columns. -/
theorem C58_supernodal_cols {A B : Csc} (hA : A.WF) (hd : A.OneDiag) (hlow : A.Lower) {debug : Bool}
    {nnz : Nat} (hnnz : A.ptr A.n ≤ nnz) {hash : List Nat → List Nat} (hhash : ∀ l, (hash l).Perm l)
    (limit : Int) :
    ∃ o, superNodal debug hash .csc (some A) (some B) nnz limit = ok o ∧
      IsSupernodes (NestedCols A) A.n (superLimit A.n limit) o.ptr ∧
      SuperDagOk A o.ptr ⟨o.ptr.length - 1, o.dagPtr, o.dagSet⟩ := by
  have hl : 0 < A.n → 1 ≤ superLimit A.n limit := by
    intro h; unfold superLimit; split <;> omega
  have hne : debug = true → ∀ r, r < A.n → A.col r ≠ [] := by
    intro _ r hr hc
    have := hd r hr
    rw [hc] at this; simp at this
  obtain ⟨r, h1, h2⟩ := wp_iff.1 (cscRuns_wp hA hne hl)
  have hsn := h2.supernodes
  obtain ⟨inv, h3, h4, h5⟩ := wp_iff.1 (nodeToSup_wp hsn.ptrOk)
  obtain ⟨d, h6, set, h7, h8⟩ := wp_iff.1 (createDepDAG_wp (debug := debug) hhash hA hd hnnz hsn.ptrOk
    (fun s hs => hsn.strict hs) (inv := inv) (by omega))
  refine ⟨⟨r.ptr, r.off, d.1, d.2⟩, ?_, hsn, ?_⟩
  · unfold superNodal
    dsimp only
    show (cscRuns debug A.n (superLimit A.n limit) A.p A.i >>= _) = _
    rw [h1, ok_bind, h3, ok_bind]
    show (createDepDAG debug hash (some nnz) r.ptr inv A.p A.i >>= _) = _
    rw [h6]; rfl
  · dsimp only
    rw [h7]
    exact superDag hsn hA hlow h8 hnnz h5

/-- **C58**, limit of the code: column supernodes cannot be computed from the matrix in column form
alone, although only that form is documented as required: `createDepDAG` dereferences `A_CSR`. -/
theorem C58_null_csr_ub {A : Csc} (hA : A.WF) (hd : A.OneDiag) (debug : Bool) (nnz : Nat)
    (hash : List Nat → List Nat) (limit : Int) :
    superNodal debug hash .csc (some A) none nnz limit = ub := by
  have hl : 0 < A.n → 1 ≤ superLimit A.n limit := by
    intro h; unfold superLimit; split <;> omega
  have hne : debug = true → ∀ r, r < A.n → A.col r ≠ [] := by
    intro _ r hr hc
    have := hd r hr
    rw [hc] at this; simp at this
  obtain ⟨r, h1, h2⟩ := wp_iff.1 (cscRuns_wp hA hne hl)
  obtain ⟨inv, h3, h4, h5⟩ := wp_iff.1 (nodeToSup_wp h2.supernodes.ptrOk)
  unfold superNodal
  dsimp only
  show (cscRuns debug A.n (superLimit A.n limit) A.p A.i >>= _) = _
  rw [h1, ok_bind, h3, ok_bind]
  rfl

/-- **C58.** A schedule of the supernodes that respects their graph is, row by row, a schedule of the
matrix that respects its dependences. -/
theorem C58_schedule {A H : Csc} (hA : A.WF) (hlow : A.Lower) {ptr : List Nat} {limit : Nat}
    {Same : Nat → Nat → Prop} (hs : IsSupernodes Same A.n limit ptr) (hH : SuperDagOk A ptr H) {s : Sched}
    (hv : s.Valid H.n H.Dep) : (s.expand ptr (List.range A.n)).Valid A.n A.Dep := by
  have hp := hs.ptrOk
  have hdep : H.Dep = (rangeGrouping A.n ptr).Dep A := by
    funext a b; exact propext (hH.dep a b)
  rw [hH.nodes, hdep] at hv
  refine expand_valid (G := rangeGrouping A.n ptr) hA (rangeGrouping_partition hp) ?_ hv
  intro j _
  refine List.Pairwise.imp (R := (· < ·)) ?_ ?_
  · intro x y hxy hd
    have := hlow y hd.1 x hd.2.1
    omega
  · exact (List.pairwise_lt_range.sublist (List.drop_sublist _ _)).sublist (List.take_sublist _ _)

example : superNodal true id .csr (some exSuper) (some exSuperRows) 10 0 =
    ok ⟨[0, 2, 4, 5], [0, 0, 3], [0, 2, 4, 5], [0, 2, 1, 2, 2]⟩ := by decide

example : exSuper.OneDiag ∧ exSuper.Lower := by
  constructor <;> intro u hu <;> revert u <;> decide

end Verif
