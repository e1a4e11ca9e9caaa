import Verif.Model.P2PBuild
import Verif.Proof.P2PRegion
import Verif.Props.Final
import Verif.Props.Prepare
import Verif.Proof.Inspect

/-! Point-to-point solvers: the matrix handed to SpMP. -/

namespace Verif.P2P
open Res Exec Relation

variable {V : Type}

/-- The compressed matrix is kept, and the diagonal arrays keep their lengths. -/
structure Kept (M M' : SpmpMat V) : Prop where
  rowptr : M'.rowptr = M.rowptr
  colidx : M'.colidx = M.colidx
  values : M'.values = M.values
  l1 : M'.diagptr.length = M.diagptr.length
  l2 : M'.idiag.length = M.idiag.length
  l3 : M'.diag.length = M.diag.length

/-- The diagonal data of row `r` is the same. -/
def SameDiag (M M' : SpmpMat V) (r : Nat) : Prop :=
  M'.diagptr[r]? = M.diagptr[r]? ∧ M'.idiag[r]? = M.idiag[r]? ∧ M'.diag[r]? = M.diag[r]?

theorem DiagOk.same {recip : V → V} {M M' : SpmpMat V} {r : Nat} (h : M.DiagOk recip r) (hk : Kept M M')
    (hs : SameDiag M M' r) : M'.DiagOk recip r := by
  obtain ⟨j, d, h1, h2, h3, h4, h5, h6⟩ := h
  exact ⟨j, d, by rw [hk.rowptr]; exact h1, by rw [hk.colidx]; exact h2, by rw [hk.values]; exact h3,
    hs.1.trans h4, hs.2.2.trans h5, hs.2.1.trans h6⟩

theorem convertRow_wp {recip : V → V} {n i : Nat} {M : SpmpMat V} (hw : (M.sp n).WF) (hi : i < n)
    (h1 : M.diagptr.length = n) (h2 : M.idiag.length = n) (h3 : M.diag.length = n) :
    wp (convertRow recip i M) fun M' => Kept M M' ∧ (∀ r, r ≠ i → SameDiag M M' r) ∧
      (i ∈ (M.sp n).colRows i → M'.DiagOk recip i) := by
  have hpl : M.rowptr.length = n + 1 := hw.plen
  have hmono : M.rowptr.getD i 0 ≤ M.rowptr.getD (i + 1) 0 := hw.mono i hi
  have hc : M.rowptr.getD (i + 1) 0 ≤ M.colidx.length := hw.toPatWF.le_len (a := i + 1) hi
  have hv : M.rowptr.getD (i + 1) 0 ≤ M.values.length := by
    have : M.rowptr.getD (i + 1) 0 ≤ M.rowptr.getD n 0 := hw.toPatWF.mono_le (a := i + 1) (b := n) hi (le_refl _)
    have h' : M.rowptr.getD n 0 ≤ M.values.length := hw.xlen
    omega
  unfold convertRow
  rw [rd_getD 0 (by omega), ok_bind, rd_getD 0 (by omega), ok_bind]
  refine forRange_wp' (fun k M' => Kept M M' ∧ (∀ r, r ≠ i → SameDiag M M' r) ∧
    ((∃ j, M.rowptr.getD i 0 ≤ j ∧ j < k ∧ M.colidx[j]? = some i) → M'.DiagOk recip i)) hmono
    ⟨⟨rfl, rfl, rfl, rfl, rfl, rfl⟩, fun _ _ => ⟨rfl, rfl, rfl⟩, by rintro ⟨j, a, b, _⟩; omega⟩ ?_ ?_
  · rintro j M' hlo hhi ⟨hk, hs, hd⟩
    have hcj : j < M'.colidx.length := by rw [hk.colidx]; omega
    have hvj : j < M'.values.length := by rw [hk.values]; omega
    rw [rd_eq hcj, ok_bind]
    by_cases hci : M'.colidx[j] = i
    · rw [if_pos hci, wr_eq (by rw [hk.l1, h1]; exact hi), ok_bind, rd_eq hvj, ok_bind,
        wr_eq (by rw [hk.l2, h2]; exact hi), ok_bind, wr_eq (by rw [hk.l3, h3]; exact hi), ok_bind, wp_ok]
      refine ⟨⟨hk.rowptr, hk.colidx, hk.values, by simpa using hk.l1, by simpa using hk.l2,
        by simpa using hk.l3⟩, ?_, fun _ => ?_⟩
      · intro r hr
        obtain ⟨a, b, c⟩ := hs r hr
        exact ⟨by rw [List.getElem?_set_ne (Ne.symm hr)]; exact a,
          by rw [List.getElem?_set_ne (Ne.symm hr)]; exact b,
          by rw [List.getElem?_set_ne (Ne.symm hr)]; exact c⟩
      · refine ⟨j, M'.values[j], ?_, ?_, List.getElem?_eq_getElem hvj, ?_, ?_, ?_⟩
        · refine ⟨M.rowptr.getD i 0, M.rowptr.getD (i + 1) 0, ?_, ?_, hlo, hhi⟩
          · show M'.rowptr[i]? = _
            rw [hk.rowptr, List.getD_eq_getElem?_getD, List.getElem?_eq_getElem (by omega)]; rfl
          · show M'.rowptr[i + 1]? = _
            rw [hk.rowptr, List.getD_eq_getElem?_getD, List.getElem?_eq_getElem (by omega)]; rfl
        · show M'.colidx[j]? = _
          rw [List.getElem?_eq_getElem hcj, hci]
        · exact List.getElem?_set_self (by rw [hk.l1, h1]; exact hi)
        · exact List.getElem?_set_self (by rw [hk.l3, h3]; exact hi)
        · exact List.getElem?_set_self (by rw [hk.l2, h2]; exact hi)
    · rw [if_neg hci, wp_ok]
      refine ⟨hk, hs, ?_⟩
      rintro ⟨j', a, b, c⟩
      refine hd ⟨j', a, ?_, c⟩
      rcases Nat.lt_or_ge j' j with h | h
      · exact h
      · exfalso
        have : j' = j := by omega
        subst this
        rw [← hk.colidx, List.getElem?_eq_getElem hcj] at c
        exact hci (Option.some.inj c)
  · rintro M' ⟨hk, hs, hd⟩
    refine ⟨hk, hs, fun hm => hd ?_⟩
    have hm : i ∈ slice M.colidx (M.rowptr.getD i 0) (M.rowptr.getD (i + 1) 0) := hm
    exact mem_slice.1 hm

theorem convertToSpmp_spec {recip : V → V} {order : Nat → List Nat} {dp0 : List Nat} {id0 d0 : List V}
    {A : Sp V} {nnz : Nat} (h : A.WF) (hsq : A.rows = A.cols) (ho : (order A.cols).Perm (List.range A.cols))
    (h1 : dp0.length = A.cols) (h2 : id0.length = A.cols) (h3 : d0.length = A.cols)
    (hz : A.p.getD A.cols 0 ≤ nnz) (hi : nnz ≤ A.i.length) (hx : nnz ≤ A.x.length) :
    ∃ M, convertToSpmp recip order dp0 id0 d0 A nnz = ok M ∧ (M.sp A.cols).WF ∧
      (M.sp A.cols).entries = A.entries ∧ (M.sp A.cols).coords = A.coords ∧
      ∀ r, r < A.cols → (r, r) ∈ A.coords → M.DiagOk recip r := by
  have hpl : A.p.length = A.cols + 1 := h.plen
  obtain ⟨M0, hM0⟩ : ∃ M0 : SpmpMat V, M0 = ⟨A.p, A.i.take nnz, A.x.take nnz, dp0, id0, d0⟩ := ⟨_, rfl⟩
  have hcol : ∀ c, c < A.cols → (M0.sp A.cols).colRows c = A.colRows c := by
    intro c hc
    have hle := h.toPatWF.mono_le (a := c + 1) (b := A.cols) hc (le_refl _)
    have hm := h.mono c hc
    subst hM0
    show ((A.i.take nnz).drop (A.p.getD c 0)).take (A.p.getD (c + 1) 0 - A.p.getD c 0) = _
    rw [List.drop_take, List.take_take, Nat.min_eq_left (by omega)]
    rfl
  have hval : ∀ c, c < A.cols → (M0.sp A.cols).colVals c = A.colVals c := by
    intro c hc
    have hle := h.toPatWF.mono_le (a := c + 1) (b := A.cols) hc (le_refl _)
    have hm := h.mono c hc
    subst hM0
    show ((A.x.take nnz).drop (A.p.getD c 0)).take (A.p.getD (c + 1) 0 - A.p.getD c 0) = _
    rw [List.drop_take, List.take_take, Nat.min_eq_left (by omega)]
    rfl
  have hent : (M0.sp A.cols).entries = A.entries := by
    unfold Sp.entries
    refine List.flatMap_congr fun c hc => ?_
    rw [hcol c (List.mem_range.1 hc), hval c (List.mem_range.1 hc)]
  have hco : (M0.sp A.cols).coords = A.coords := by
    unfold Sp.coords
    refine List.flatMap_congr fun c hc => ?_
    rw [hcol c (List.mem_range.1 hc)]
  have hwf : (M0.sp A.cols).WF := by
    refine ⟨⟨?_, ?_, ?_, ?_, ?_⟩, ?_⟩
    · subst hM0; exact h.plen
    · subst hM0; exact h.p0
    · subst hM0; exact h.mono
    · subst hM0
      show A.p.getD A.cols 0 ≤ (A.i.take nnz).length
      rw [List.length_take]; omega
    · intro c hc r hr
      rw [hcol c hc] at hr
      have := h.range c hc r hr
      rw [hsq] at this
      exact this
    · subst hM0
      show A.p.getD A.cols 0 ≤ (A.x.take nnz).length
      rw [List.length_take]; omega
  have key := forEach_wp (fun done M => Kept M0 M ∧ ∀ r ∈ done, (r, r) ∈ A.coords → M.DiagOk recip r)
    (f := convertRow recip) (order A.cols) [] M0 ⟨⟨rfl, rfl, rfl, rfl, rfl, rfl⟩, by simp⟩ ?_
  · obtain ⟨M, e1, hk, hd⟩ := wp_iff.1 key
    rw [List.nil_append] at hd
    have hsp : M.sp A.cols = M0.sp A.cols := by
      unfold SpmpMat.sp
      rw [hk.rowptr, hk.colidx, hk.values]
    refine ⟨M, ?_, by rw [hsp]; exact hwf, by rw [hsp, hent], by rw [hsp, hco], ?_⟩
    · unfold convertToSpmp copyN
      rw [if_pos (by omega), ok_bind, if_pos hi, ok_bind, if_pos hx, ok_bind, ← e1, hM0,
        List.take_of_length_le (by omega)]
    · exact fun r hr hm => hd r (ho.mem_iff.2 (List.mem_range.2 hr)) hm
  · rintro p a q M heq ⟨hk, hd⟩
    have ha : a < A.cols := by
      have : a ∈ order A.cols := by
        rw [List.nil_append] at heq
        rw [heq]; simp
      exact List.mem_range.1 (ho.mem_iff.1 this)
    have hsp : M.sp A.cols = M0.sp A.cols := by
      unfold SpmpMat.sp
      rw [hk.rowptr, hk.colidx, hk.values]
    have hnod : (order A.cols).Nodup := ho.nodup_iff.2 List.nodup_range
    have hap : a ∉ p := by
      rw [List.nil_append] at heq
      rw [heq] at hnod
      exact fun hc => (List.nodup_append.1 hnod).2.2 a hc a (by simp) rfl
    refine wp_mono (convertRow_wp (n := A.cols) (by rw [hsp]; exact hwf) ha
      (by rw [hk.l1, hM0]; exact h1) (by rw [hk.l2, hM0]; exact h2) (by rw [hk.l3, hM0]; exact h3)) ?_
    rintro M' ⟨k1, k2, k3⟩
    refine ⟨⟨k1.rowptr.trans hk.rowptr, k1.colidx.trans hk.colidx, k1.values.trans hk.values,
      k1.l1.trans hk.l1, k1.l2.trans hk.l2, k1.l3.trans hk.l3⟩, ?_⟩
    intro r hr hm
    rcases List.mem_append.1 hr with hr | hr
    · exact DiagOk.same (hd r hr hm) k1 (k2 r fun e => hap (e ▸ hr))
    · have : r = a := by simpa using hr
      subst this
      refine k3 ?_
      rw [hsp]
      exact (Inspect.mem_coords.1 (by rw [hco]; exact hm)).2

/-- The environment of `build_set`. -/
structure SpmpEnv.OrdersOk (E : SpmpEnv V) : Prop where
  order : ∀ k, (E.order k).Perm (List.range k)
  order' : ∀ k, (E.order' k).Perm (List.range k)
  order'' : ∀ k, (E.order'' k).Perm (List.range k)
  dp0 : ∀ k, (E.dp0 k).length = k
  d0 : ∀ k, (E.d0 k).length = k

variable [Zero V] [One V]

omit [Zero V] [One V] in
theorem swap_coords_entries {l l' : List (Nat × Nat × V)} (h : (l.map swapEntry).Perm l') (r c : Nat) :
    (c, r) ∈ l.map (fun e => (e.1, e.2.1)) ↔ (r, c) ∈ l'.map (fun e => (e.1, e.2.1)) := by
  constructor
  · intro hm
    obtain ⟨⟨a, b, v⟩, he, heq⟩ := List.mem_map.1 hm
    cases heq
    exact List.mem_map.2 ⟨_, h.mem_iff.1 (List.mem_map.2 ⟨_, he, rfl⟩), rfl⟩
  · intro hm
    obtain ⟨⟨a, b, v⟩, he, heq⟩ := List.mem_map.1 hm
    cases heq
    obtain ⟨⟨a', b', v'⟩, he', heq'⟩ := List.mem_map.1 (h.mem_iff.2 he)
    cases heq'
    exact List.mem_map.2 ⟨_, he', rfl⟩

theorem dagMat_spec {recip : V → V} {order : Nat → List Nat} {dp0 : Nat → List Nat} {d0 : Nat → List V}
    (ho : ∀ n, (order n).Perm (List.range n)) (hdp : ∀ n, (dp0 n).length = n) (hd0 : ∀ n, (d0 n).length = n)
    {g : Csc} (hg : g.WF) (hd : g.OneDiag) (hpos : 0 < g.n) :
    ∃ M, dagMat recip order dp0 d0 g.p g.i = ok M ∧ M.Good recip g.n ∧
      ∀ u v, (u, v) ∈ (M.sp g.n).coords ↔ (u < g.n ∧ v ∈ g.col u) ∨ (v < g.n ∧ u ∈ g.col v) := by
  have hpl := hg.plen
  obtain ⟨D, hD⟩ : ∃ D : Sp V, D = ⟨g.p.length - 1, g.p.length - 1, g.p, g.i,
    List.replicate g.i.length 1⟩ := ⟨_, rfl⟩
  have hDc : D.cols = g.n := by rw [hD]; show g.p.length - 1 = _; omega
  have hDr : D.rows = g.n := by rw [hD]; show g.p.length - 1 = _; omega
  have hDp : D.p = g.p := by rw [hD]
  have hDi : D.i = g.i := by rw [hD]
  have hcr : ∀ c, D.colRows c = g.col c := by
    intro c; subst hD; rfl
  have hDw : D.WF := by
    refine ⟨⟨by rw [hDc, hDp, hpl], by rw [hDp]; exact hg.p0, ?_, ?_, ?_⟩, ?_⟩
    · rw [hDc, hDp]; exact hg.mono
    · rw [hDc, hDp, hDi]; exact hg.bound
    · rw [hDc, hDr]
      intro c hc r hr
      rw [hcr] at hr
      exact hg.range c hc r hr
    · rw [hDc, hDp]
      have : D.x.length = g.i.length := by rw [hD]; simp
      rw [this]; exact hg.bound
  obtain ⟨B, hB, hBw, hBr, hBc, hBe⟩ := Sp.C29_make_full (nnz := g.i.length) hDw (by omega) (by omega)
    (by rw [hDc, hDp]; exact hg.bound)
  have hBn : B.cols = g.n := by omega
  have hBn' : B.rows = g.n := by omega
  have hBpl := hBw.plen
  obtain ⟨C, hC, c1, c2, c3, c4, c5⟩ := wp_iff.1 (Sp.cscToCsr_wp (nnz := B.p.getD B.cols 0) hBw.toPatWF
    (pat := false) (fun _ => hBw.xlen) (by omega) (le_refl _))
  have hconv := c3.converted hBw c1 c2
  have hCn : C.cols = g.n := by omega
  have hCn' : C.rows = g.n := by omega
  obtain ⟨M, m1, m2, _, m4, m5⟩ := convertToSpmp_spec (recip := recip) (order := order)
    (dp0 := dp0 C.cols) (id0 := d0 C.cols) (d0 := d0 C.cols) (A := C) (nnz := B.p.getD B.cols 0)
    hconv.wf (by omega) (ho _) (hdp _) (hd0 _) (hd0 _)
    (by rw [← c4]; exact hconv.wf.bound) (by omega) (by rw [c5]; simp)
  rw [hCn] at m2 m4 m5
  -- the coordinates
  have hBco : ∀ r c, (r, c) ∈ B.coords ↔ (r, c) ∈ D.coords ∨ (c, r) ∈ D.coords := by
    intro r c
    rw [← Sp.coords_entries hBw, ← Sp.coords_entries hDw, (hBe.map _).mem_iff, List.map_flatMap]
    rw [List.mem_flatMap, List.mem_map, List.mem_map]
    constructor
    · rintro ⟨⟨a, b, v⟩, he, hm⟩
      rw [Sp.mirrored_coords] at hm
      by_cases hab : a = b
      · rw [if_pos hab] at hm
        have : (r, c) = (a, b) := by simpa using hm
        cases this
        exact .inl ⟨_, he, rfl⟩
      · rw [if_neg hab] at hm
        have : (r, c) = (a, b) ∨ (r, c) = (b, a) := by simpa using hm
        rcases this with h | h
        · cases h; exact .inl ⟨_, he, rfl⟩
        · cases h; exact .inr ⟨_, he, rfl⟩
    · rintro (⟨⟨a, b, v⟩, he, heq⟩ | ⟨⟨a, b, v⟩, he, heq⟩) <;> cases heq
      · refine ⟨_, he, ?_⟩
        rw [Sp.mirrored_coords]
        by_cases hrc : a = b
        · rw [if_pos hrc]; simp
        · rw [if_neg hrc]; simp
      · refine ⟨_, he, ?_⟩
        rw [Sp.mirrored_coords]
        by_cases hrc : a = b
        · rw [if_pos hrc]; simp [hrc]
        · rw [if_neg hrc]; simp
  have hCco : ∀ r c, (c, r) ∈ C.coords ↔ (r, c) ∈ B.coords := by
    intro r c
    rw [← Sp.coords_entries hconv.wf, ← Sp.coords_entries hBw]
    exact swap_coords_entries hconv.entries r c
  have hall : ∀ r c, (r, c) ∈ (M.sp g.n).coords ↔ (r, c) ∈ D.coords ∨ (c, r) ∈ D.coords := by
    intro r c
    rw [m4, hCco, hBco, or_comm]
  refine ⟨M, ?_, ⟨m2, ?_, ?_⟩, ?_⟩
  · unfold dagMat
    rw [← hD]
    dsimp only
    rw [hB, ok_bind]
    dsimp only
    rw [rd_getD 0 (by omega), ok_bind, hC, ok_bind, m1]
  · intro u v h
    rw [hall] at h ⊢
    exact h.symm
  · intro r hr
    refine m5 r hr ?_
    rw [← m4, hall]
    left
    rw [Inspect.mem_coords, hDc, hcr]
    refine ⟨hr, ?_⟩
    have := hd r hr
    exact List.count_pos_iff.1 (by omega)
  · intro u v
    rw [hall, Inspect.mem_coords, Inspect.mem_coords, hDc, hcr, hcr]
    exact or_comm

theorem dagTasks_spec {E : SpmpEnv V} (hE : E.OrdersOk) {g : Csc} (hg : g.WF) (hd : g.OneDiag) (hpos : 0 < g.n) :
    ∃ M, dagTasks E g.p g.i = ok (E.spmp M) ∧ M.Good E.recip g.n ∧
      ∀ u v, g.Dep u v → (u, v) ∈ (M.sp g.n).coords := by
  obtain ⟨M, h1, h2, h3⟩ := dagMat_spec hE.order'' hE.dp0 hE.d0 hg hd hpos
  refine ⟨M, ?_, h2, fun u v h => (h3 u v).2 (.inl ⟨h.1, h.2.1⟩)⟩
  unfold dagTasks
  rw [h1, ok_bind]

end Verif.P2P
