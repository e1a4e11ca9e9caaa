import Verif.Proof.ReadMtx
import Verif.Props.Prepare

/-!
# C86: `read_mtx`

The lines of the file are (row, column, value), counted from 0.  The matrix is right exactly if the lines
are in the order of the columns and no column is empty (apart from the matrix whose entries are all in the
last column).
-/

namespace Verif
open Res Sp Metis ReadMtx Prepare

variable {V : Type}

theorem assemble_cases {n : Nat} (m : Nat) (lines : List (Nat × Nat × V)) (hn : 0 < n) :
    (∃ p, assemble m n lines = ok ⟨m, n, p, lines.map fun e => e.1, lines.map fun e => e.2.2⟩ ∧
      p.length = n + 1 ∧ p.getD n 0 = lines.length ∧
      (starts (lines.map fun e => e.2.1) lines.length).length ≤ n + 1 ∧
      ∀ k, k < n → p.getD k 0 = (starts (lines.map fun e => e.2.1) lines.length).getD k 0) ∨
    (assemble m n lines = ub ∧ n + 1 < (starts (lines.map fun e => e.2.1) lines.length).length) := by
  have h := loop_wpu (J := lines.map fun e => e.2.1) hn
  rw [List.length_map] at h
  rcases h with ⟨s, e, h1, h2, h3, h4⟩ | ⟨e, h⟩
  · left
    refine ⟨s.p.set n lines.length, ?_, ?_, ?_, h4, ?_⟩
    · unfold assemble
      dsimp only
      rw [e, ok_bind, wr_eq (by omega)]; rfl
    · simpa using h1
    · rw [getD_set, if_pos ⟨rfl, by omega⟩]
    · intro k hk
      rw [getD_set, if_neg (by omega)]
      by_cases hk' : k < (starts (lines.map fun e => e.2.1) lines.length).length
      · exact h2 k hk'
      · rw [h3 k (by omega), List.getD_eq_getElem?_getD, List.getElem?_eq_none (by omega)]; rfl
  · right
    refine ⟨?_, h⟩
    unfold assemble
    dsimp only
    rw [e]; rfl

/-- **C86.** If the lines are in the order of their columns and every column has one, the matrix is that of
the file: every line is stored once, in the order of the file. -/
theorem C86_read [Zero V] {m n : Nat} {lines : List (Nat × Nat × V)} (hn : 0 < n)
    (hr : ∀ e ∈ lines, e.1 < m) (hc : ∀ e ∈ lines, e.2.1 < n)
    (hs : lines.Pairwise fun a b => a.2.1 ≤ b.2.1) (hall : ∀ c, c < n → ∃ e ∈ lines, e.2.1 = c) :
    ∃ A, assemble m n lines = ok A ∧ A.WF ∧ A.Exact ∧ A.rows = m ∧ A.cols = n ∧ A.entries = lines := by
  have hJs : (lines.map fun e => e.2.1).Pairwise (· ≤ ·) := List.pairwise_map.2 hs
  have hst := starts_all (n := n) hJs (by
      intro c h
      obtain ⟨e, he, rfl⟩ := List.mem_map.1 h
      exact hc e he) (by
      intro c h
      obtain ⟨e, he, h1⟩ := hall c h
      exact List.mem_map.2 ⟨e, he, h1⟩)
  rw [List.length_map] at hst
  rcases assemble_cases m lines hn with ⟨p, h1, h2, h3, -, h4⟩ | ⟨-, h⟩
  swap
  · rw [hst] at h; simp at h
  have hp : p = ptrArr (fun e : Nat × Nat × V => e.2.1) n lines := by
    refine ext_getD 0 (by rw [h2, ptrArr_length]) ?_
    intro k hk
    rw [ptrArr_getD _ _ (by omega)]
    rcases Nat.lt_or_ge k n with hlt | hge
    · rw [h4 k hlt, hst, List.getD_eq_getElem _ _ (by simpa using hlt)]
      simp only [List.getElem_map, List.getElem_range]
      unfold below
      rw [List.countP_map]
      rfl
    · rw [show k = n by omega, h3, below_all _ _ _ hc]
  have hb : bucket n (fun e : Nat × Nat × V => e.2.1) lines = lines := bucket_sorted_all hs hc
  have hF : FromItems false (⟨m, n, p, lines.map fun e => e.1, lines.map fun e => e.2.2⟩ : Sp V)
      (fun e : Nat × Nat × V => e.2.1) (fun e => e.1) (fun e => e.2.2) lines := by
    refine ⟨hp, hc, hr, ?_, fun _ => ?_⟩
    · dsimp only; rw [hb, List.take_of_length_le (by simp)]
    · dsimp only; rw [hb, List.take_of_length_le (by simp)]
  refine ⟨_, h1, hF.wf, ⟨?_, ?_⟩, rfl, rfl, ?_⟩
  · dsimp only; rw [h3]; simp
  · dsimp only; rw [h3]; simp
  · rw [hF.entries_items]
    dsimp only
    rw [hb]
    exact List.map_id _

/-- **C86** (finding): for lines in the order of their columns the result is the matrix of the file only if
no column is empty, or if all entries are in the last column. -/
theorem C86_read_iff [Zero V] {m n : Nat} {lines : List (Nat × Nat × V)} (hn : 0 < n)
    (hr : ∀ e ∈ lines, e.1 < m) (hc : ∀ e ∈ lines, e.2.1 < n)
    (hs : lines.Pairwise fun a b => a.2.1 ≤ b.2.1) (hne : lines ≠ []) :
    ∃ A, assemble m n lines = ok A ∧ ((A.WF ∧ A.entries.Perm lines) ↔
      ((∀ c, c < n → ∃ e ∈ lines, e.2.1 = c) ∨ ∀ e ∈ lines, e.2.1 = n - 1)) := by
  have hJs : (lines.map fun e => e.2.1).Pairwise (· ≤ ·) := List.pairwise_map.2 hs
  by_cases hall : ∀ c, c < n → ∃ e ∈ lines, e.2.1 = c
  · obtain ⟨A, h1, h2, -, -, -, h3⟩ := C86_read hn hr hc hs hall
    exact ⟨A, h1, fun _ => .inl hall, fun _ => ⟨h2, h3 ▸ List.Perm.refl _⟩⟩
  obtain ⟨c0, hc0, hmiss⟩ : ∃ c0, c0 < n ∧ ∀ e ∈ lines, e.2.1 ≠ c0 := by
    by_contra hh
    refine hall fun c h => ?_
    by_contra h'
    exact hh ⟨c, h, fun e he h'' => h' ⟨e, he, h''⟩⟩
  generalize hJ : (lines.map fun e => e.2.1) = J at hJs
  have hlen : J.length = lines.length := by rw [← hJ, List.length_map]
  have hmJ : ∀ x ∈ J, ∃ e ∈ lines, e.2.1 = x := by
    rw [← hJ]; intro x hx; exact List.mem_map.1 hx
  have hJn : ∀ k, k < J.length → J.getD k 0 ∈ (List.range n).erase c0 := by
    intro k hk
    have : J.getD k 0 ∈ J := by rw [List.getD_eq_getElem _ _ hk]; exact List.getElem_mem hk
    obtain ⟨e, he, h1⟩ := hmJ _ this
    rw [← h1]
    exact (List.mem_erase_of_ne (hmiss e he)).2 (List.mem_range.2 (hc e he))
  have hlt : (starts J lines.length).length < n := by
    rw [← hlen]
    have hnd : ((starts J J.length).map fun k => J.getD k 0).Nodup := by
      refine (List.nodup_map_iff_inj_on ?_).2 ?_
      · exact List.nodup_range.filter _
      · intro a ha b hb hab
        obtain ⟨h1, h2⟩ := mem_starts.1 ha
        obtain ⟨h3, h4⟩ := mem_starts.1 hb
        have e1 := (start_below hJs h1).1 h2
        have e2 := (start_below hJs h3).1 h4
        rw [← e1, ← e2, hab]
    have hsub : ((starts J J.length).map fun k => J.getD k 0) ⊆ (List.range n).erase c0 := by
      intro x hx
      obtain ⟨k, hk, rfl⟩ := List.mem_map.1 hx
      exact hJn k (mem_starts.1 hk).1
    have h1 := (List.subperm_of_subset hnd hsub).length_le
    rw [List.length_map, List.length_erase_of_mem (List.mem_range.2 hc0), List.length_range] at h1
    omega
  have hpos : 0 < J.length := by rw [hlen]; exact List.length_pos_iff.2 hne
  have h0 : isStart J 0 = true := by simp [isStart]
  rcases assemble_cases m lines hn with ⟨p, h1, h2, h3, -, h4⟩ | ⟨-, h⟩
  swap
  · rw [hJ] at h; omega
  rw [hJ] at h4
  refine ⟨_, h1, ?_⟩
  generalize hst : starts J lines.length = st at *
  have hmem : ∀ k, k ∈ st ↔ k < J.length ∧ isStart J k = true := by
    intro k; rw [← hst, ← hlen]; exact mem_starts
  have hsorted : st.Pairwise (· < ·) := by rw [← hst]; exact List.pairwise_lt_range.filter _
  have hstl : 0 < st.length := List.length_pos_of_mem ((hmem 0).2 ⟨hpos, h0⟩)
  have hpz : p.getD st.length 0 = 0 := by
    rw [h4 _ hlt, List.getD_eq_getElem?_getD, List.getElem?_eq_none (by omega)]; rfl
  have hst0 : st.getD 0 0 = 0 := by
    obtain ⟨i, hi, e⟩ := List.getElem_of_mem ((hmem 0).2 ⟨hpos, h0⟩)
    rcases Nat.eq_zero_or_pos i with rfl | h
    · rw [List.getD_eq_getElem _ _ hi, e]
    · have := List.pairwise_iff_getElem.1 hsorted 0 i hstl hi h
      omega
  -- constant column numbers, if there is one run only
  have hconst : st.length = 1 → ∀ k, k < J.length → J.getD k 0 = J.getD 0 0 := by
    intro hl k
    induction k with
    | zero => intro _; rfl
    | succ k ih =>
      intro hk
      by_contra hne'
      have hm : k + 1 ∈ st := (hmem _).2 ⟨hk, by
        unfold isStart
        rw [show k + 1 - 1 = k by omega, ih (by omega)]
        simpa using hne'⟩
      obtain ⟨i, hi, e⟩ := List.getElem_of_mem hm
      have : i = 0 := by omega
      subst this
      rw [List.getD_eq_getElem _ _ hi, e] at hst0
      omega
  have hlast : st.length = 1 → ∀ k, k < n → p.getD k 0 = 0 := by
    intro hl k hk
    rw [h4 k hk]
    rcases Nat.eq_zero_or_pos k with rfl | hk0
    · exact hst0
    · rw [List.getD_eq_getElem?_getD, List.getElem?_eq_none (by omega)]; rfl
  constructor
  · rintro ⟨hwf, hperm⟩
    right
    have hl : st.length = 1 := by
      by_contra hl
      have h5 : 1 < st.length := by omega
      have h6 : p.getD 1 0 ≤ p.getD st.length 0 :=
        hwf.toPatWF.mono_le (a := 1) (b := st.length) (by omega) (by dsimp only; omega)
      have h7 : p.getD 1 0 = st.getD 1 0 := h4 1 (by omega)
      have h8 := List.pairwise_iff_getElem.1 hsorted 0 1 hstl h5 (by omega)
      rw [List.getD_eq_getElem _ _ h5] at h7
      omega
    intro e he
    have he' := hperm.mem_iff.2 he
    obtain ⟨k1, k2⟩ := mem_entries.1 he'
    dsimp only at k1
    by_contra hne'
    have z1 := hlast hl e.2.1 (by omega)
    have z2 := hlast hl (e.2.1 + 1) (by omega)
    rw [toMat_row] at k2
    have k3 := (List.of_mem_zip k2).1
    unfold colRows at k3
    dsimp only at k3
    rw [z1, z2] at k3
    simp at k3
  · rintro (h | h)
    · exact absurd h hall
    · -- all entries in the last column
      have hone : st.length = 1 := by
        by_contra hl
        have h5 : 1 < st.length := by omega
        have hm := (hmem _).1 (List.getElem_mem h5)
        have h8 := List.pairwise_iff_getElem.1 hsorted 0 1 hstl h5 (by omega)
        have hcv : ∀ k, k < J.length → J.getD k 0 = n - 1 := by
          intro k hk
          have : J.getD k 0 ∈ J := by rw [List.getD_eq_getElem _ _ hk]; exact List.getElem_mem hk
          obtain ⟨e, he, h1⟩ := hmJ _ this
          rw [← h1, h e he]
        have h9 := hm.2
        unfold isStart at h9
        rw [hcv _ hm.1, hcv _ (by omega)] at h9
        simp at h9
        omega
      have hp : p = ptrArr (fun e : Nat × Nat × V => e.2.1) n lines := by
        refine ext_getD 0 (by rw [h2, ptrArr_length]) ?_
        intro k hk
        rw [ptrArr_getD _ _ (by omega)]
        rcases Nat.lt_or_ge k n with hkn | hge
        · rw [hlast hone k hkn]
          unfold below
          symm
          rw [List.countP_eq_zero]
          intro e he
          have := h e he
          simp; omega
        · rw [show k = n by omega, h3, below_all _ _ _ hc]
      have hb : bucket n (fun e : Nat × Nat × V => e.2.1) lines = lines := bucket_sorted_all hs hc
      have hF : FromItems false (⟨m, n, p, lines.map fun e => e.1, lines.map fun e => e.2.2⟩ : Sp V)
          (fun e : Nat × Nat × V => e.2.1) (fun e => e.1) (fun e => e.2.2) lines := by
        refine ⟨hp, hc, hr, ?_, fun _ => ?_⟩
        · dsimp only; rw [hb, List.take_of_length_le (by simp)]
        · dsimp only; rw [hb, List.take_of_length_le (by simp)]
      refine ⟨hF.wf, ?_⟩
      rw [hF.entries_items]
      dsimp only
      rw [hb]
      exact List.Perm.of_eq (List.map_id _)

/-- **C86** (finding): a file whose column changes more than `n` times from one line to the next, for
instance one sorted by rows, makes `read_mtx` write out of bounds. -/
theorem C86_too_many_runs {m n : Nat} {lines : List (Nat × Nat × V)} (hn : 0 < n)
    (h : n < ((List.range lines.length).filter fun k => 0 < k ∧
      (lines.map fun e => e.2.1).getD k 0 ≠ (lines.map fun e => e.2.1).getD (k - 1) 0).length) :
    assemble m n lines = ub := by
  rcases assemble_cases m lines hn with ⟨p, -, -, -, h1, -⟩ | ⟨h, -⟩
  swap
  · exact h
  exfalso
  generalize (lines.map fun e => e.2.1) = J at *
  have hl : 0 < lines.length := by
    by_contra hh
    rw [show lines.length = 0 by omega] at h
    simp at h
  have h0 : 0 ∉ (List.range lines.length).filter (fun k => decide (0 < k ∧ J.getD k 0 ≠ J.getD (k - 1) 0)) := by
    simp
  have hsub : (0 :: (List.range lines.length).filter
      (fun k => decide (0 < k ∧ J.getD k 0 ≠ J.getD (k - 1) 0))) ⊆ starts J lines.length := by
    intro k hk
    unfold starts
    rw [List.mem_filter, List.mem_range]
    rw [List.mem_cons, List.mem_filter, List.mem_range] at hk
    rcases hk with rfl | ⟨h1, h2⟩
    · exact ⟨hl, by simp [isStart]⟩
    · refine ⟨h1, ?_⟩
      have := of_decide_eq_true h2
      unfold isStart
      simpa using Or.inr this.2
  have hnd := List.nodup_cons.2 ⟨h0, List.nodup_range.filter
    (fun k => decide (0 < k ∧ J.getD k 0 ≠ J.getD (k - 1) 0))⟩
  have := (List.subperm_of_subset hnd hsub).length_le
  rw [List.length_cons] at this
  omega

/-- **C86** (finding): lines whose columns are not in ascending order may also give a well-formed matrix
with the columns exchanged. -/
theorem C86_unsorted : assemble 2 2 [(1, 1, (5 : Int)), (0, 0, 7)] = ok ⟨2, 2, [0, 1, 2], [1, 0], [5, 7]⟩ := by
  decide

/-- A file that lists a lower triangular matrix with full diagonal, column by column, rows ascending. -/
structure LowerFile (n : Nat) (lines : List (Nat × Nat × V)) : Prop where
  order : lines.Pairwise fun a b => a.2.1 < b.2.1 ∨ (a.2.1 = b.2.1 ∧ a.1 < b.1)
  lower : ∀ e ∈ lines, e.2.1 ≤ e.1
  rows : ∀ e ∈ lines, e.1 < n
  diag : ∀ c, c < n → ∃ d, (c, c, d) ∈ lines

/-- **C86.** From the file to the solvers: for a file with a lower triangular matrix with full diagonal,
`read_mtx` returns that matrix, with sorted columns; with METIS (the banner must say symmetric) and
without, the example programs then have an input for the solvers (C49). -/
theorem C86_to_solver [Zero V] {n nnz : Nat} {file : List (Nat × Nat × V)} (hn : 0 < n)
    (hz : nnz = file.length) (h : LowerFile n file) (sym : Bool) :
    ∃ A, readMtx sym n n nnz file = ok (some (A, if sym then -1 else 0)) ∧ A.LowerCsc ∧ A.ColsSorted ∧
      A.cols = n ∧ A.p.getD A.cols 0 = nnz ∧ A.entries = file ∧
      (∃ H B, prepareHalf A = ok (H, B) ∧ H.entries = file ∧ Converted H B ∧
        SolverInput B.toMat H.graph) ∧
      (sym = true → ∀ nd, OrdersNodes nd → ∀ debug, ∃ perm π G B,
        prepareMetis nd debug A (-1) nnz = ok (G, B) ∧ perm.Perm (List.range n) ∧ InverseOf perm π n ∧
        Reordered π A G ∧ Converted G B ∧ SolverInput B.toMat G.graph) := by
  have hcol : ∀ e ∈ file, e.2.1 < n := fun e he => by
    have := h.lower e he
    have := h.rows e he
    omega
  obtain ⟨A, h1, h2, h3, h4, h5, h6⟩ := C86_read (m := n) hn h.rows hcol
    (h.order.imp fun hab => by omega) (fun c hc => by
      obtain ⟨d, hd⟩ := h.diag c hc
      exact ⟨_, hd, rfl⟩)
  have hcoord := coords_entries h2
  have hpw : ∀ c, c < A.cols → (A.colRows c).Pairwise (· < ·) := by
    intro c hc
    have hp : A.coords.Pairwise fun a b => a.2 < b.2 ∨ (a.2 = b.2 ∧ a.1 < b.1) := by
      rw [← hcoord, List.pairwise_map, h6]; exact h.order
    unfold coords at hp
    have := (List.pairwise_flatMap.1 hp).1 c (List.mem_range.2 hc)
    rw [List.pairwise_map] at this
    refine this.imp ?_
    intro a b hab
    dsimp only at hab
    omega
  have hL : A.LowerCsc := by
    refine ⟨h2, by omega, ?_, ?_, ?_⟩
    · intro e he
      rw [h6] at he
      exact h.lower e he
    · intro c hc
      exact (hpw c hc).imp fun hab => by omega
    · intro c hc
      rw [h6]
      exact h.diag c (by omega)
  have hS : A.ColsSorted := fun c hc => (hpw c hc).imp fun hab => by omega
  have hlen : A.p.getD A.cols 0 = nnz := by
    have := congrArg List.length h6
    rw [entries_eq h2, List.length_map, tagged_length h2.toPatWF] at this
    omega
  refine ⟨A, ?_, hL, hS, h5, hlen, h6, ?_, ?_⟩
  · unfold readMtx
    rw [if_neg (by omega), hz, List.take_of_length_le (Nat.le_refl _), h1]; rfl
  · obtain ⟨H, B, k1, k2, k3, k4, k5, k6⟩ := C85_without_metis h2 (by omega) (by omega) hL.noDup hS hL.diag
    refine ⟨H, B, k1, ?_, k5, k6⟩
    rw [k4, h6]
    exact List.filter_eq_self.2 fun e he => by simpa using h.lower e he
  · intro _ nd hnd debug
    obtain ⟨perm, π, G, B, k⟩ := C85_with_metis (nnz := nnz) hL (by omega) (by omega) (stype := -1)
      (by omega) hnd debug
    rw [h5] at k
    exact ⟨perm, π, G, B, k⟩

/-- **C86**: with fewer lines than announced, a null pointer is returned. -/
theorem C86_truncated (sym : Bool) {m n nnz : Nat} {file : List (Nat × Nat × V)} (h : file.length < nnz) :
    readMtx sym m n nnz file = ok none := by
  unfold readMtx
  rw [if_pos h]

/-! ### Examples -/

def exFile : List (Nat × Nat × Int) := [(0, 0, 2), (2, 0, 1), (1, 1, 3), (2, 2, 4)]

example : LowerFile 3 exFile := by
  refine ⟨by decide, by decide, by decide, ?_⟩
  have : ∀ c, c < 3 → ∃ e ∈ exFile, e.1 = c ∧ e.2.1 = c := by decide
  intro c hc
  obtain ⟨⟨r, c', d⟩, h1, rfl, h3⟩ := this c hc
  dsimp only at h3
  subst h3
  exact ⟨d, h1⟩

example : readMtx true 3 3 4 exFile = ok (some (⟨3, 3, [0, 2, 3, 4], [0, 2, 1, 2], [2, 1, 3, 4]⟩, -1)) := by
  decide +kernel

/-- An empty column in the middle: the pointers are not monotone. -/
example : assemble 3 3 [(0, 0, (2 : Int)), (2, 2, 4)] = ok ⟨3, 3, [0, 1, 0, 2], [0, 2], [2, 4]⟩ := by
  decide +kernel

/-- The identity matrix and one more entry, sorted by rows: too many runs for `C86_too_many_runs`. -/
example : 2 < ((List.range 4).filter fun k => 0 < k ∧
    ([0, 1, 0, 1] : List Nat).getD k 0 ≠ ([0, 1, 0, 1] : List Nat).getD (k - 1) 0).length := by decide

end Verif
