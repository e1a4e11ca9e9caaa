import Verif.Proof.RunDag
import Verif.Props.QueueLevels
import Verif.Props.Exec
import Verif.Proof.Slices

/-!
# C44, C52: groups of consecutive rows and the solver built on them

`group::inspection_sptrsvcsr_v1`, `inspection_spicocsc_v1`, `NaiveGrouping` (src/group.cpp) and
`SpTrsvCSR_Grouping` (example/sptrsv_demo_utils.h).
-/

namespace Verif
open Res Csc RunGroup Exec

/-- The output arrays of a grouping function describe a partition of `0..n-1` into non-empty groups
of consecutive nodes, listed in increasing order, with a correct inverse map. -/
structure RunPartition (o : Out) (n : Nat) : Prop where
  /-- every node is in exactly one group -/
  part : o.grouping.Partition n
  nonEmpty : o.grouping.NonEmpty
  /-- `groupInv[v]` is the group of `v` -/
  inv : ∀ v, v < n → ∃ j, o.inv[v]? = some j ∧ o.grouping.Mem v j
  /-- the nodes between two members are members -/
  convex : ∀ j u v w, o.grouping.Mem u j → o.grouping.Mem w j → u ≤ v → v ≤ w → o.grouping.Mem v j
  /-- each group is listed in increasing order -/
  sorted : ∀ j, j < o.num → (groupRows o.ptr o.set j).Pairwise (· < ·)

/-- `u` and `v` are in the same group. -/
def Out.Same (o : Out) (u v : Nat) : Prop := ∃ j, o.grouping.Mem u j ∧ o.grouping.Mem v j

theorem RunGroup.Done.runPartition {n N : Nat} {link : Nat → Bool} {o : Out} (h : Done n N link o) :
    RunPartition o n := by
  refine ⟨h.partition, h.nonEmpty, fun v hv => ?_, ?_, ?_⟩
  · refine ⟨grp link v, ?_, h.mem_iff.2 ⟨hv, rfl⟩⟩
    have := h.lenInv
    rw [getElem?_getD 0 (by omega), h.inv v hv]
  · intro j u v w hu hw h1 h2
    rw [h.mem_iff] at hu hw ⊢
    have e1 := grp_mono (link := link) h1
    have e2 := grp_mono (link := link) h2
    omega
  · intro j hj
    rw [h.rows hj]
    exact List.pairwise_lt_range'

theorem RunGroup.Done.same_iff {n N : Nat} {link : Nat → Bool} {o : Out} (h : Done n N link o) {i : Nat}
    (hi : i + 1 < n) : Out.Same o i (i + 1) ↔ link i = true := by
  constructor
  · rintro ⟨j, h1, h2⟩
    rw [h.mem_iff] at h1 h2
    by_contra hc
    have := h2.2
    rw [grp, if_neg hc] at this
    omega
  · intro hl
    refine ⟨grp link i, h.mem_iff.2 ⟨by omega, rfl⟩, h.mem_iff.2 ⟨hi, ?_⟩⟩
    rw [grp, if_pos hl]

variable {g : Csc}

theorem linkCsr_iff (h : g.WF) {i : Nat} (hi : i + 1 < g.n) :
    linkCsr g i = true ↔ ∃ pre d, g.col (i + 1) = pre ++ [i, d] := by
  have hm := h.mono (i + 1) hi
  have hle := h.ptr_le (a := i + 1 + 1) (by omega)
  have hcl := h.col_length hi
  have hget : ∀ k, k < g.ptr (i + 1 + 1) - g.ptr (i + 1) →
      (g.col (i + 1))[k]? = some (g.idx (g.ptr (i + 1) + k)) := by
    intro k hk
    unfold col
    rw [List.getElem?_take, if_pos hk, List.getElem?_drop, getElem?_getD 0 (by omega)]
    rfl
  unfold linkCsr
  simp only [decide_eq_true_eq]
  constructor
  · rintro ⟨_, h1, h2⟩
    refine ⟨(g.col (i + 1)).take (g.ptr (i + 1 + 1) - g.ptr (i + 1) - 2),
      g.idx (g.ptr (i + 1 + 1) - 1), ?_⟩
    apply List.ext_getElem?
    intro k
    by_cases hk : k < g.ptr (i + 1 + 1) - g.ptr (i + 1) - 2
    · rw [List.getElem?_append_left (by rw [List.length_take]; omega), List.getElem?_take, if_pos hk]
    · rw [List.getElem?_append_right (by rw [List.length_take]; omega), List.length_take]
      have hmin : min (g.ptr (i + 1 + 1) - g.ptr (i + 1) - 2) (g.col (i + 1)).length
          = g.ptr (i + 1 + 1) - g.ptr (i + 1) - 2 := by omega
      rw [hmin]
      obtain ⟨d, hd⟩ : ∃ d, k = g.ptr (i + 1 + 1) - g.ptr (i + 1) - 2 + d :=
        ⟨k - (g.ptr (i + 1 + 1) - g.ptr (i + 1) - 2), by omega⟩
      rw [show k - (g.ptr (i + 1 + 1) - g.ptr (i + 1) - 2) = d by omega]
      match d, hd with
      | 0, hd =>
        rw [hget k (by omega), show g.ptr (i + 1) + k = g.ptr (i + 1 + 1) - 2 by omega, h2]
        rfl
      | 1, hd =>
        rw [hget k (by omega), show g.ptr (i + 1) + k = g.ptr (i + 1 + 1) - 1 by omega]
        rfl
      | d + 2, hd =>
        rw [List.getElem?_eq_none (by omega)]
        rfl
  · rintro ⟨pre, d, hc⟩
    have hl : pre.length + 2 = g.ptr (i + 1 + 1) - g.ptr (i + 1) := by
      rw [← hcl, hc]; simp
    refine ⟨hi, by omega, ?_⟩
    have := hget pre.length (by omega)
    rw [hc, List.getElem?_append_right (Nat.le_refl _), Nat.sub_self] at this
    have := Option.some.inj this
    rw [show g.ptr (i + 1 + 1) - 2 = g.ptr (i + 1) + pre.length by omega]
    exact this.symm

theorem linkCsc_iff (h : g.WF) {i : Nat} (hi : i < g.n) :
    linkCsc g i = true ↔ ∃ d rest, g.col i = d :: (i + 1) :: rest := by
  have hm := h.mono i hi
  have hle := h.ptr_le (a := i + 1) (by omega)
  have hcl := h.col_length hi
  have hget : ∀ k, k < g.ptr (i + 1) - g.ptr i → (g.col i)[k]? = some (g.idx (g.ptr i + k)) := by
    intro k hk
    unfold col
    rw [List.getElem?_take, if_pos hk, List.getElem?_drop, getElem?_getD 0 (by omega)]
    rfl
  unfold linkCsc
  simp only [decide_eq_true_eq]
  constructor
  · rintro ⟨_, h1, h2⟩
    have g1 := hget 1 (by omega)
    rw [h2] at g1
    match hc : g.col i, g1 with
    | d :: e :: rest, g1 =>
      simp at g1
      subst g1
      exact ⟨d, rest, rfl⟩
  · rintro ⟨d, rest, hc⟩
    have hl : rest.length + 2 = g.ptr (i + 1) - g.ptr i := by rw [← hcl, hc]; simp
    have g1 := hget 1 (by omega)
    rw [hc] at g1
    simp at g1
    exact ⟨hi, by omega, g1.symm⟩

/-- **C44, `inspection_sptrsvcsr_v1`.**  For every matrix in compressed row form (`g.col r` are the
columns of row `r`) and output arrays that are long enough, the call ends normally and returns a
partition of the rows into non-empty runs, with correct inverse map; rows `i` and `i + 1` share a
group exactly if the last but one entry of row `i + 1` is in column `i`. -/
theorem C44_csr_runs (hwf : g.WF) {ptr set inv : List Nat} (hp : g.n < ptr.length)
    (hs : g.n ≤ set.length) (hi : g.n ≤ inv.length) :
    ∃ o, sptrsvCsrV1 g.n g.p g.i ptr set inv = ok o ∧ RunPartition o g.n ∧
      ∀ i, i + 1 < g.n → (Out.Same o i (i + 1) ↔ ∃ pre d, g.col (i + 1) = pre ++ [i, d]) := by
  obtain ⟨o, h1, h2⟩ := wp_iff.1 (sptrsvCsrV1_wp hwf hp hs hi)
  exact ⟨o, h1, h2.runPartition, fun i hi => (h2.same_iff hi).trans (linkCsr_iff hwf hi)⟩

/-- **C44, `inspection_spicocsc_v1`.**  The same for compressed column form: columns `i` and
`i + 1` share a group exactly if the second entry of column `i` is in row `i + 1`. -/
theorem C44_csc_runs (hwf : g.WF) {ptr set inv : List Nat} (hp : g.n < ptr.length)
    (hs : g.n ≤ set.length) (hi : g.n ≤ inv.length) :
    ∃ o, spicoCscV1 g.n g.p g.i ptr set inv = ok o ∧ RunPartition o g.n ∧
      ∀ i, i + 1 < g.n → (Out.Same o i (i + 1) ↔ ∃ d rest, g.col i = d :: (i + 1) :: rest) := by
  obtain ⟨o, h1, h2⟩ := wp_iff.1 (spicoCscV1_wp hwf hp hs hi)
  exact ⟨o, h1, h2.runPartition,
    fun i hi => (h2.same_iff hi).trans (linkCsc_iff hwf (Nat.lt_of_succ_lt hi))⟩

/-- **C44, `NaiveGrouping`.**  For every number of rows and every block size `b > 0` the groups are
the blocks `j*b, ..., j*b + b - 1`. -/
theorem C44_naive_blocks {n b : Nat} (hb : 0 < b) {ptr set inv : List Nat} (hp : n < ptr.length)
    (hs : n ≤ set.length) (hi : n ≤ inv.length) :
    ∃ o, naive n ptr set inv b = ok o ∧ RunPartition o n ∧ o.num = (n + b - 1) / b ∧
      ∀ v j, o.grouping.Mem v j ↔ v < n ∧ v / b = j := by
  obtain ⟨o, h1, h2⟩ := wp_iff.1 (naive_wp hb hp hs hi)
  refine ⟨o, h1, h2.runPartition, ?_, fun v j => by rw [h2.mem_iff, grp_block]⟩
  rw [h2.num]
  cases n with
  | zero =>
    rw [runs, Nat.zero_add, Nat.div_eq_of_lt (by omega)]
  | succ n =>
    rw [runs, grp_block, show n + 1 + b - 1 = n + b by omega, Nat.add_div_right _ hb]

/-- Finding: block size 0 is a division by zero for every non-empty matrix. -/
theorem C44_naive_zero_ub {n : Nat} (hn : 0 < n) (ptr set inv : List Nat) :
    naive n ptr set inv 0 = ub := by
  obtain ⟨k, rfl⟩ : ∃ k, n = k + 1 := ⟨n - 1, by omega⟩
  rfl

/-- Rows `[0]`, `[0 1]`, `[0 . 2]`, `[. . 2 3]`: the runs are `0 1` and `2 3`. -/
def exRuns : Csc := ⟨4, [0, 1, 3, 5, 7], [0, 0, 1, 0, 2, 2, 3]⟩

theorem exRuns_wf : exRuns.WF := ⟨by decide, by decide, by decide, by decide, by decide⟩

example : exRuns.WF ∧ sptrsvCsrV1 exRuns.n exRuns.p exRuns.i [0, 0, 0, 0, 0] [0, 0, 0, 0] [0, 0, 0, 0]
    = ok ⟨2, [0, 2, 4, 0, 0], [0, 1, 2, 3], [0, 0, 1, 1]⟩ := ⟨exRuns_wf, by decide⟩

example : exGraph.WF ∧ spicoCscV1 exGraph.n exGraph.p exGraph.i [0, 0, 0, 0, 0] [0, 0, 0, 0]
    [0, 0, 0, 0] = ok ⟨2, [0, 1, 4, 0, 0], [0, 1, 2, 3], [0, 1, 1, 1]⟩ := ⟨exGraph_wf, by decide⟩

example : naive 5 [0, 0, 0, 0, 0, 0] [0, 0, 0, 0, 0] [0, 0, 0, 0, 0] 2
    = ok ⟨3, [0, 2, 4, 5, 0, 0], [0, 1, 2, 3, 4], [0, 0, 1, 1, 2]⟩ := by decide

/-! ### C52 -/

/-- The off-diagonal columns of a row. -/
theorem Mat.off_cols {V : Type} {m : Mat V} (h : m.WF) {r : Nat} (hr : r < m.n) (c : Nat) :
    c ∈ (m.pat.col r).dropLast ↔ ∃ l, (c, l) ∈ m.off r := by
  have hm := h.pat.mono r hr
  have hle := h.pat.ptr_le (a := r + 1) hr
  have hb := h.pat.bound
  have hx := h.xlen
  have hle2 : m.pat.ptr (r + 1) ≤ m.pat.ptr m.n := h.pat.mono_le hr (Nat.le_refl _)
  have e : m.pat.col r = (m.row r).map (·.1) := by
    unfold Csc.col Mat.row
    have hpi : m.pat.i = m.i := rfl
    have hpn : m.pat.n = m.n := rfl
    rw [hpi] at hle hb ⊢
    rw [hpn] at hb
    apply List.ext_getElem?
    intro k
    rw [List.getElem?_map, List.getElem?_take, List.getElem?_take]
    split
    · rw [List.getElem?_drop, List.getElem?_drop, List.getElem?_eq_getElem (by omega),
        List.getElem?_eq_getElem (by rw [List.length_zip]; omega)]
      simp
    · rfl
  rw [e, Mat.off, ← List.map_dropLast, List.mem_map]
  constructor
  · rintro ⟨⟨a, l⟩, h1, rfl⟩; exact ⟨l, h1⟩
  · rintro ⟨l, h1⟩; exact ⟨(c, l), h1, rfl⟩

/-- The groups of `SpTrsvCSR_Grouping`, their successor lists and the arrays of the group graph
`gg`. -/
structure GroupGraph {V : Type} (m : Mat V) (o : RunGroup.Out) (dag : List (List Nat))
    (gv gedg : List Nat) (gg : Csc) : Prop where
  runs : sptrsvCsrV1 m.n m.p m.i (List.replicate (m.n + 1) 0) (List.replicate m.n 0)
    (List.replicate m.n 0) = ok o
  done : Done m.pat.n m.n (linkCsr m.pat) o
  succ : inspectorDep o.num o.ptr o.set o.inv m.p m.i = ok dag
  flat : flatten m.n o.num (uniqueAll dag) = ok (gv, gedg)
  graph : gg = ⟨o.num, gv.take (o.num + 1), gedg⟩
  le : o.num ≤ m.n
  gn : gg.n = o.num
  wf : gg.WF
  diagFirst : gg.DiagFirst
  oneDiag : gg.OneDiag
  dep : ∀ a c, gg.Dep a c ↔ a ≠ c ∧ ∃ u v, o.grouping.Mem u a ∧ o.grouping.Mem v c ∧
    m.RowDep u v
  low : ∀ a c, gg.Dep a c → a < c
  acyclic : gg.Acyclic

theorem exists_groupGraph {V : Type} {m : Mat V} (hm : m.LowerCsr) :
    ∃ o dag gv gedg gg, GroupGraph m o dag gv gedg gg := by
  have hwf : m.pat.WF := hm.wf.pat
  obtain ⟨o, h1, h2⟩ := wp_iff.1 (sptrsvCsrV1_wp (g := m.pat) hwf
    (ptr := List.replicate (m.n + 1) 0) (set := List.replicate m.n 0) (inv := List.replicate m.n 0)
    (by rw [List.length_replicate]; exact Nat.lt_succ_self _)
    (by rw [List.length_replicate]; exact Nat.le_refl _)
    (by rw [List.length_replicate]; exact Nat.le_refl _))
  obtain ⟨dag, h3, h4⟩ := wp_iff.1 (inspectorDep_wp hwf h2)
  have hdl : (uniqueAll dag).length = o.num := by rw [uniqueAll, List.length_map, h4.1]
  have hnum : o.num ≤ m.n := by rw [h2.num]; exact runs_le _
  obtain ⟨⟨gv, gedg⟩, h5, h6, h7, h8⟩ := wp_iff.1 (flatten_wp (n := m.n) hnum hdl)
  dsimp only at h6 h7 h8
  -- the group graph
  obtain ⟨gg, hgg⟩ : ∃ gg : Csc, gg = ⟨o.num, gv.take (o.num + 1), gedg⟩ := ⟨_, rfl⟩
  have hcl : (cols o.num (uniqueAll dag)).length = o.num := by simp [cols]
  have hcg : ∀ c, c < o.num →
      (cols o.num (uniqueAll dag)).getD c [] = c :: (uniqueAll dag).getD c [] := by
    intro c hc
    unfold cols
    rw [List.getD_eq_getElem?_getD, List.getElem?_map, List.getElem?_range hc]
    rfl
  have hptr : ∀ k, k ≤ o.num → gg.ptr k = (ofCols (cols o.num (uniqueAll dag))).ptr k := by
    intro k hk
    rw [hgg]
    unfold Csc.ptr
    dsimp only
    rw [h7]
  have hcol : ∀ c, c < o.num → gg.col c = c :: (uniqueAll dag).getD c [] := by
    intro c hc
    rw [← hcg c hc, ← ofCols_col _ (by rw [hcl]; exact hc)]
    unfold Csc.col
    rw [hptr c hc.le, hptr (c + 1) hc]
    obtain ⟨ext, hext⟩ := h8
    have hi : gg.i = (ofCols (cols o.num (uniqueAll dag))).i ++ ext := by rw [hgg]; exact hext.symm
    have hle : (ofCols (cols o.num (uniqueAll dag))).ptr (c + 1)
        ≤ (ofCols (cols o.num (uniqueAll dag))).i.length := by
      rw [ofCols_ptr _ (by rw [hcl]; exact hc)]
      have := Group.flatten_take_le (cols o.num (uniqueAll dag)) (a := c + 1)
        (b := (cols o.num (uniqueAll dag)).length) (by rw [hcl]; exact hc)
      rw [List.take_length] at this
      exact this
    have hle' : (ofCols (cols o.num (uniqueAll dag))).ptr c
        ≤ (ofCols (cols o.num (uniqueAll dag))).ptr (c + 1) := by
      rw [ofCols_ptr _ (by rw [hcl]; exact hc.le), ofCols_ptr _ (by rw [hcl]; exact hc)]
      exact Group.flatten_take_le _ (by omega)
    rw [hi, List.drop_append_of_le_length (by omega),
      List.take_append_of_le_length (by rw [List.length_drop]; omega)]
  have hgn : gg.n = o.num := by rw [hgg]
  have hwfg : gg.WF := by
    refine ⟨?_, ?_, ?_, ?_, ?_⟩
    · rw [hgg]; dsimp only; rw [List.length_take, h6]; omega
    · rw [hptr 0 (Nat.zero_le _), ofCols_ptr _ (Nat.zero_le _)]; rfl
    · intro u hu
      rw [hgn] at hu
      rw [hptr u hu.le, hptr (u + 1) hu, ofCols_ptr _ (by rw [hcl]; exact hu.le),
        ofCols_ptr _ (by rw [hcl]; exact hu)]
      exact Group.flatten_take_le _ (by omega)
    · rw [hgn, hptr _ (Nat.le_refl _), ofCols_ptr _ (by rw [hcl])]
      have : (cols o.num (uniqueAll dag)).take o.num = cols o.num (uniqueAll dag) :=
        List.take_of_length_le hcl.le
      rw [this]
      have := h8.length_le
      rw [hgg]; exact this
    · intro u hu v hv
      rw [hgn] at hu ⊢
      rw [hcol u hu] at hv
      rcases List.mem_cons.1 hv with rfl | hv
      · exact hu
      · exact (((succ_lists h2 h4 hu).2 v).1 hv).1
  have hdf : gg.DiagFirst := by
    intro u hu
    rw [hgn] at hu
    rw [hcol u hu]; rfl
  have hod : gg.OneDiag := by
    intro u hu
    rw [hgn] at hu
    rw [hcol u hu, List.count_cons_self, List.count_eq_zero_of_not_mem]
    intro hc
    exact (((succ_lists h2 h4 hu).2 u).1 hc).2.1 rfl
  have hdep : ∀ a c, gg.Dep a c ↔ a ≠ c ∧ ∃ u v, o.grouping.Mem u a ∧ o.grouping.Mem v c ∧
      m.RowDep u v := by
    intro a c
    constructor
    · rintro ⟨ha, hc, hne⟩
      rw [hgn] at ha
      rw [hcol a ha] at hc
      rcases List.mem_cons.1 hc with rfl | hc
      · exact absurd rfl hne
      · obtain ⟨g1, g2, row, cc, g3, g4, g5, g6⟩ := ((succ_lists h2 h4 ha).2 c).1 hc
        obtain ⟨l, hl⟩ := (Mat.off_cols hm.wf g3 cc).1 g5
        have hcr := hm.lower row g3 _ hl
        dsimp only at hcr
        have g3' : row < m.n := g3
        exact ⟨hne, cc, row, h2.mem_iff.2 ⟨show cc < m.n by omega, g6⟩, h2.mem_iff.2 ⟨g3, g4⟩, g3, l, hl⟩
    · rintro ⟨hne, u, v, hu, hv, hvn, l, hl⟩
      have ha : a < o.num := hu.1
      refine ⟨by rw [hgn]; exact ha, ?_, hne⟩
      rw [hcol a ha, List.mem_cons]
      right
      rw [(succ_lists h2 h4 ha).2 c]
      exact ⟨hv.1, hne, v, u, hvn, (h2.mem_iff.1 hv).2, (Mat.off_cols hm.wf hvn u).2 ⟨l, hl⟩,
        (h2.mem_iff.1 hu).2⟩
  have hlow : ∀ a c, gg.Dep a c → a < c := by
    intro a c hac
    obtain ⟨hne, u, v, hu, hv, hvn, l, hl⟩ := (hdep a c).1 hac
    have := hm.lower v hvn _ hl
    dsimp only at this
    have e1 := (h2.mem_iff.1 hu).2
    have e2 := (h2.mem_iff.1 hv).2
    have := grp_mono (link := linkCsr m.pat) (a := u) (b := v) (by omega)
    omega
  have hac : gg.Acyclic := by
    have : ∀ a c, Relation.TransGen gg.Dep a c → a < c := by
      intro a c h
      induction h with
      | single h => exact hlow _ _ h
      | tail _ h ih => have := hlow _ _ h; omega
    intro v hv
    have := this v v hv
    omega
  rw [List.length_replicate] at h2
  exact ⟨o, dag, gv, gedg, gg, h1, h2, h3, h5, hgg, hnum, hgn, hwfg, hdf, hod, hdep, hlow, hac⟩

/-- **C52.**  For every lower triangular matrix in CSR form and every right-hand side, the set-up of
`SpTrsvCSR_Grouping` ends normally, its groups partition the rows into runs and its level set of
groups lists every group once, each group after the groups it depends on; and whatever the
interleaving of the threads, the grouped executor returns exactly the result of the serial solver. -/
theorem C52_grouping_solver {V : Type} (A : Arith V) {m : Mat V} (hm : m.LowerCsr) :
    ∃ s, buildSet m.n m.p m.i = ok s ∧ RunPartition s.groups m.n ∧
      PtrOk s.levelPtr s.levels s.groups.num ∧
      (s.levelSet.take s.groups.num).Perm (List.range s.groups.num) ∧
      (∀ a c la lc u v, s.groups.grouping.Mem u a → s.groups.grouping.Mem v c → m.RowDep u v →
        la < s.levels → lc < s.levels → InLevel s.levelPtr s.levelSet la a →
        InLevel s.levelPtr s.levelSet lc c → a = c ∨ la < lc) ∧
      ∀ b : List V, b.length = m.n → ∃ xs, sptrsvCsr A m.n m.p m.i m.x b = ok xs ∧
        AlwaysGives (fun sch => fusedCode A m.p m.i m.x s sch b) xs := by
  obtain ⟨o, dag, gv, gedg, gg, h1, h2, h3, h5, hgg, hnum, hgn, hwfg, hdf, hod, hdep, hlow, hac⟩ :=
    exists_groupGraph hm
  obtain ⟨L, lp, ls, k1, k2, k3, k4, k5⟩ := C45_queue_levels_acyclic hwfg hod hdf hac
    (ptr := List.replicate (m.n + 1) 0) (set := List.replicate m.n 0)
    (by rw [hgn, List.length_replicate]; omega) (by rw [getD_replicate _ _ _ _ (by omega)])
    (by rw [hgn, List.length_replicate]; exact hnum)
  rw [hgn] at k2 k4
  have k1' : QLevel.build o.num gv gedg (List.replicate (m.n + 1) 0) (List.replicate m.n 0)
      = ok (L, lp, ls) := by
    have := QLevel.build_ext o.num gv gedg (List.replicate (m.n + 1) 0) (List.replicate m.n 0)
      (o.num + 1)
    refine this.eq_ok ?_
    rw [← k1, hgg]
  have hbuild : buildSet m.n m.p m.i = ok ⟨o, L, lp, ls⟩ := by
    unfold buildSet
    have e1 : sptrsvCsrV1 m.n m.p m.i (List.replicate (m.n + 1) 0) (List.replicate m.n 0)
      (List.replicate m.n 0) = ok o := h1
    have e2 : inspectorDep o.num o.ptr o.set o.inv m.p m.i = ok dag := h3
    rw [e1, ok_bind, e2, ok_bind]
    dsimp only
    rw [h5, ok_bind, k1', ok_bind]
  have hlev : ∀ a c la lc, gg.Dep a c → la < L → lc < L → InLevel lp (ls.take o.num) la a →
      InLevel lp (ls.take o.num) lc c → la < lc := by
    have hdrop : ∀ l v, InLevel lp (ls.take o.num) l v → InLevel lp ls l v := by
      rintro l v ⟨k, hk1, hk2⟩
      rw [List.getElem?_take] at hk2
      split at hk2
      · exact ⟨k, hk1, hk2⟩
      · cases hk2
    intro a c la lc h g1 g2 g3 g4
    exact k5 a c la lc h g1 g2 (hdrop _ _ g3) (hdrop _ _ g4)
  refine ⟨⟨o, L, lp, ls⟩, hbuild, h2.runPartition, k2, k4, ?_, ?_⟩
  · intro a c la lc u v hu hv huv g1 g2 g3 g4
    by_cases hacq : a = c
    · exact .inl hacq
    · exact .inr (k5 a c la lc ((hdep a c).2 ⟨hacq, u, v, hu, hv, huv⟩) g1 g2 g3 g4)
  · intro b hb
    have hlen : (ls.take o.num).length = o.num := by simpa using k4.length_eq
    have hval := levels_expand_valid (g := m.depGraph) m.depGraph_wf (G := o.grouping)
      (by rw [m.depGraph_n]; exact h2.partition) (L := L) (lp := lp) (ls := ls.take o.num)
      hlen k2 k4 (R := (· < ·)) ?_ ?_ (fun j hj => h2.runPartition.sorted j hj)
    · rw [m.depGraph_n] at hval
      have hval' : ((Sched.ofLevels L lp (ls.take o.num)).expand o.ptr o.set).Valid m.n m.RowDep :=
        ⟨hval.ptrs, hval.complete,
          fun u v huv => hval.respects u v ((Mat.depGraph_dep hm).2 huv)⟩
      have hsetl : o.set.length = m.n := by exact h2.lenSet.1
      obtain ⟨xs, x1, x2⟩ := C09_group_levelset_eq_serial A hm (levels := L) (levelPtr := lp)
        (levelSet := ls.take o.num) (groupPtr := o.ptr) (groupSet := o.set) (ngroups := o.num)
        (by rw [hsetl]; exact h2.ptrOk)
        (by
          intro i hi
          rw [← List.take_of_length_le hsetl.le] at hi
          have : i ∈ o.set.take m.pat.n := hi
          rw [h2.set] at this
          exact List.mem_range.1 this)
        (by rw [hlen]; exact k2) (fun gr hgr => List.mem_range.1 (k4.mem_iff.1 hgr)) hval' hb
      have hext : ∀ sch, Ext
          (sptrsvGroupLevelset A m.p m.i m.x L lp (ls.take o.num) o.ptr o.set sch b)
          (fusedCode A m.p m.i m.x ⟨o, L, lp, ls⟩ sch b) :=
        fun sch => groupLevelset_ext A m.p m.i m.x L lp ls o.ptr o.set sch b o.num
      refine ⟨xs, x1, fun sch => ?_, ?_⟩
      · rcases x2.1 sch with h | h
        · exact .inl ((hext sch).eq_ok h)
        · rcases hext sch with e | e
          · exact absurd (e.symm.trans h) (by simp)
          · exact .inr (e.symm.trans h)
      · obtain ⟨sch, h⟩ := x2.2
        exact ⟨sch, (hext sch).eq_ok h⟩
    · intro a c l l' hd g1 g2 g3 g4
      obtain ⟨hne, u, v, hu, hv, huv⟩ := hd
      exact hlev a c l l' ((hdep a c).2 ⟨hne, u, v, hu, hv, (Mat.depGraph_dep hm).1 huv⟩) g1 g2 g3 g4
    · intro u v huv hvu
      obtain ⟨hvn, l, hl⟩ := (Mat.depGraph_dep hm).1 huv
      have := hm.lower v hvn _ hl
      dsimp only at this
      omega

/-- `exMat` has the runs `0`, `1 2 3`, and two levels of groups. -/
example : exMat.LowerCsr ∧ buildSet exMat.n exMat.p exMat.i
    = ok ⟨⟨2, [0, 1, 4, 0, 0], [0, 1, 2, 3], [0, 1, 1, 1]⟩, 2, [0, 1, 2, 0, 0], [0, 1, 0, 0]⟩ :=
  ⟨exMat_lower, by decide⟩

end Verif
