import Verif.Model.Profile
import Verif.Props.StatSp
import Verif.Props.DagTest
import Verif.Props.LbcSeq
import Verif.Props.LbcDag
import Verif.Props.Rhs

/-!
# C134: what example/sptrsv_csr_profile.cpp reports

Vocabulary: `DagTest.Numbered` (the triangle of the file, with METIS renumbered), `LbcMain.Uses`, `LevelReport`, `Counted`,
`Levelled` (C133), `Sched.Valid`, `RunPartition`.
-/

namespace Verif.Profile
open Res Sp Mtx Prepare Metis LbcMain DagTest StatSp Stat RunGroup

variable {V K : Type} [Zero V] [Add K] [LT K] [DecidableLT K]

/-- `g` has the rows of the triangle `es`. -/
structure RowsOf (n : Nat) (es : List (Nat × Nat × V)) (g : Csc) : Prop where
  lower : LowerRows g
  size : g.n = n
  mem : ∀ r c, r < n → (c ∈ g.col r ↔ ∃ x, (r, c, x) ∈ es)
  nnz : g.ptr g.n = es.length

omit [Add K] [LT K] [DecidableLT K] in
theorem lowerRows {L B : Sp V} (hL : L.LowerCsc) (hB : Converted L B) : LowerRows B.graph := by
  have hm := hL.lowerCsr hB
  have hsq := hL.square
  have hc := hB.cols
  have hr := hB.rows
  have hcol : ∀ i, i < B.cols → (B.toMat.row i).map Prod.fst = B.graph.col i := fun i hi => hB.wf.row_fst hi
  have hst : ∀ i, i < B.cols → (B.graph.col i).Pairwise (· < ·) := fun i hi => hB.strict hL.noDup i hi
  have hlast : ∀ i, i < B.cols → (B.graph.col i).getLast? = some i := by
    intro i hi
    obtain ⟨d, hd⟩ := hm.diag i hi
    rw [← hcol i hi, List.getLast?_map, hd]
    rfl
  refine ⟨hB.wf.graph (by omega), hlast, fun i hi => (hst i hi).imp Nat.ne_of_lt, ?_⟩
  intro i hi v hv
  have h1 := hlast i hi
  have hne : B.graph.col i ≠ [] := List.ne_nil_of_mem hv
  have h2 := List.dropLast_append_getLast hne
  rw [List.getLast?_eq_some_getLast hne] at h1
  have h3 := hst i hi
  rw [Option.some.inj h1] at h2
  rw [← h2, List.mem_append] at hv
  rw [← h2, List.pairwise_append] at h3
  rcases hv with hv | hv
  · exact Nat.le_of_lt (h3.2.2 v hv i (by simp))
  · simp at hv; omega

/-- The part up to the two forms of the matrix. -/
theorem prepared {W : V → Text → Prop} {scanVal : Text → Scan V} (hW : ScanOk W scanVal) {n : Nat} (hn : 0 < n)
    {es : List (Nat × Nat × V)} (hes : LowerList n es) {txt : Text} (htxt : MtxText W true n n es txt) (fuel : Nat)
    {metis : Option NodeND} (hm : ∀ nd, metis = some nd → OrdersNodes nd) (debug : Bool) :
    ∃ es' L B, Numbered n metis es es' ∧ L.LowerCsc ∧ L.cols = n ∧ L.entries.Perm es' ∧ Converted L B ∧
      RowsOf n es' B.graph ∧
      ∀ (E : Env K) (option : Int), program E option metis debug scanVal fuel txt
        = (report E option L (-1) es'.length B >>= fun rep => ok (some rep)) := by
  obtain ⟨M, r1, r2, r3, r4, r5, r6⟩ := C115_read_mtx hW htxt hn (fun e he => ⟨(hes.range e he).2, by
    have := hes.range e he; omega⟩) hes.order (fun c hc => by
      obtain ⟨d, hd⟩ := hes.diag c hc
      exact ⟨_, hd, rfl⟩) fuel
  rw [if_pos rfl] at r1
  have hL := lowerCsc_of_list hes r2 r4 r5 r6
  have key : ∀ (es' : List (Nat × Nat × V)) (L : Sp V), L.LowerCsc → L.cols = n → L.entries.Perm es' →
      ∃ B, cscToCsr L es'.length false = ok B ∧ Converted L B ∧ RowsOf n es' B.graph ∧
        L.p.getD L.cols 0 = es'.length := by
    intro es' L hL hc hent
    have hsq := hL.square
    have hlen : L.p.getD L.cols 0 = es'.length := by
      rw [← hent.length_eq, entries_count hL.wf]
    obtain ⟨B, b1, b2⟩ := C26_csc_to_csr_keeps_matrix hL.wf (by omega) hlen.le
    have hbc := b2.cols
    refine ⟨B, b1, b2, ⟨lowerRows hL b2, by show B.cols = n; omega, ?_, ?_⟩, hlen⟩
    · intro r c hr
      show c ∈ B.colRows r ↔ _
      rw [b2.wf.mem_colRows (by omega)]
      have hmem : ∀ r c v, (c, r, v) ∈ B.entries ↔ (r, c, v) ∈ L.entries := by
        intro r c v
        rw [← b2.entries.mem_iff, List.mem_map]
        constructor
        · intro hm; exact ⟨_, hm, rfl⟩
        · rintro ⟨⟨a, b, d⟩, hm, he⟩
          simp only [swapEntry, Prod.mk.injEq] at he
          obtain ⟨rfl, rfl, rfl⟩ := he
          exact hm
      simp only [hmem, hent.mem_iff]
    · show B.p.getD B.cols 0 = _
      rw [← entries_count b2.wf, ← hent.length_eq, ← b2.entries.length_eq, List.length_map]
  cases metis with
  | none =>
    obtain ⟨B, b1, b2, b3, b4⟩ := key es M hL r5 (by rw [r6])
    refine ⟨es, M, B, rfl, hL, r5, by rw [r6], b2, b3, fun E option => ?_⟩
    unfold program
    rw [r1, ok_bind]
    have hl : M.i.length = es.length := by rw [← b4]; exact r3.1
    dsimp only
    rw [ok_bind, hl, b1, ok_bind]
  | some nd =>
    obtain ⟨perm, π, G, gnz, g1, g2, g3, g4, g5⟩ := C85_reorder hL (by omega) r3.1.ge (stype := -1) (by decide)
      (hm nd rfl) debug
    rw [r5] at g3 g4
    have hGc := g5.cols
    have hent : G.entries.Perm (renamedLower π es) := by
      have := g5.entries
      rw [r6] at this
      exact this
    obtain ⟨B, b1, b2, b3, b4⟩ := key (renamedLower π es) G g5.lower (by omega) hent
    refine ⟨renamedLower π es, G, B, ⟨perm, π, g3, g4, rfl⟩, g5.lower, by omega, hent, b2, b3, fun E option => ?_⟩
    unfold program
    rw [r1, ok_bind]
    dsimp only
    rw [g1, ok_bind]
    dsimp only
    rw [← g2, b4, b1, ok_bind]

/-- `x` is the number of levels reported: -1 if every row uses the row before it, otherwise the length of a longest list
of rows in which every row uses the next one. -/
def IsLevelNo (n : Nat) (es : List (Nat × Nat × V)) (x : Int) : Prop :=
  ((∀ j, j + 1 < n → Uses es j (j + 1)) → x = -1) ∧
  ((∃ j, j + 1 < n ∧ ¬ Uses es j (j + 1)) → ∃ h : Nat, x = h ∧
    (∃ c : List Nat, c.length = h ∧ (∀ v ∈ c, v < n) ∧ c.IsChain (fun v u => Uses es u v)) ∧
    ∀ c : List Nat, (∀ v ∈ c, v < n) → c.IsChain (fun v u => Uses es u v) → c.length ≤ h)

theorem path_list {g : Csc} {R : Nat → Nat → Prop} (hR : ∀ u v, g.Dep u v ↔ R u v) {k v : Nat} (h : g.PathTo k v) :
    (∀ u w, g.Dep u w → w < g.n) →
    ∃ t : List Nat, t.length = k ∧ (∀ u ∈ v :: t, u < g.n) ∧ (v :: t).IsChain (fun v u => R u v) := by
  intro hr
  induction h with
  | @nil v hv => exact ⟨[], rfl, by simpa using hv, .singleton _⟩
  | @snoc k u v _ hd ih =>
    obtain ⟨t, h1, h2, h3⟩ := ih
    refine ⟨u :: t, by simp [h1], ?_, List.isChain_cons_cons.2 ⟨(hR _ _).1 hd, h3⟩⟩
    intro w hw
    rcases List.mem_cons.1 hw with rfl | hw
    · exact hr _ _ hd
    · exact h2 w hw

theorem list_path {g : Csc} {R : Nat → Nat → Prop} (hR : ∀ u v, g.Dep u v ↔ R u v) : ∀ (t : List Nat) (v : Nat),
    (∀ u ∈ v :: t, u < g.n) → (v :: t).IsChain (fun v u => R u v) → g.PathTo t.length v := by
  intro t
  induction t with
  | nil => intro v hv _; exact .nil (hv v (by simp))
  | cons u t ih =>
    intro v hv hc
    obtain ⟨h1, h2⟩ := List.isChain_cons_cons.1 hc
    exact .snoc (ih u (fun w hw => hv w (List.mem_cons_of_mem _ hw)) h2) ((hR _ _).2 h1)

omit [Zero V] in
theorem levelNo {L : Sp V} (hL : L.LowerCsc) (hn : 0 < L.cols) {es : List (Nat × Nat × V)} (h : L.entries.Perm es) :
    ∃ o, LevelSet.buildLevelSet L.cols L.p L.i = ok o ∧ IsLevelNo L.cols es o.ret := by
  have hwf := hL.wf.graph hL.square
  obtain ⟨o, o1, o2, o3⟩ := C04_error_code_exact hwf hL.oneDiag
  have hu : ∀ u v, L.graph.Dep u v ↔ Uses es u v := fun u v => uses_iff hL h
  refine ⟨o, o1, fun hch => o2.2 (.inr ?_), fun hch => ?_⟩
  · exact (chain_iff hL hn).2 fun j hj => (hu _ _).2 (hch j hj)
  · have hne : o.ret ≠ -1 := by
      intro hr
      rcases o2.1 hr with hr | hr
      · exact hr hL.acyclic
      · exact no_chain hL h hch hr
    obtain ⟨o', d1, d2⟩ := C03_levels_longest_path hwf hL.oneDiag
    rw [o1] at d1
    cases d1
    obtain ⟨H, e1, -, e3, e4⟩ := d2 (o3 hne).1
    obtain ⟨k, v, p1, p2⟩ := e4 hn
    refine ⟨H, e1, ?_, ?_⟩
    · obtain ⟨t, t1, t2, t3⟩ := path_list hu p1 (fun u w hd => hwf.range u hd.1 w hd.2.1)
      exact ⟨v :: t, by simp [t1, p2], t2, t3⟩
    · intro c hc hcc
      cases c with
      | nil => simp
      | cons v t =>
        have := e3 _ _ (list_path hu t v hc hcc)
        simpa using this

/-- **C134, level sets (option 0).**  For every file of a lower triangular matrix, with METIS or without, the program
reports the numbers of C133 for the level sets of the groups of rows, with the number of entries of the triangle. -/
theorem C134_levels {W : V → Text → Prop} {scanVal : Text → Scan V} (hW : ScanOk W scanVal) {n : Nat} (hn : 0 < n)
    {es : List (Nat × Nat × V)} (hes : LowerList n es) {txt : Text} (htxt : MtxText W true n n es txt) (fuel : Nat)
    {metis : Option NodeND} (hm : ∀ nd, metis = some nd → OrdersNodes nd) (debug : Bool) {E : Env K} (hT : E.T.Ok) :
    ∃ es' g r, Numbered n metis es es' ∧ RowsOf n es' g ∧
      program E 0 metis debug scanVal fuel txt = ok (some r) ∧ LevelReport E.T g es'.length r := by
  obtain ⟨es', L, B, h1, h2, h3, h4, h5, h6, h7⟩ := prepared (K := K) hW hn hes htxt fuel hm debug
  subst h3
  obtain ⟨o, o1, -⟩ := levelNo h2 hn h4
  obtain ⟨r, r1, r2⟩ := C133_levels hT h6.lower (by rw [h6.size]; exact hn) es'.length
  refine ⟨es', B.graph, r, h1, h6, ?_, r2⟩
  rw [h7]
  unfold report
  rw [o1, ok_bind, if_pos rfl]
  have r1' : fromMatrix E.T B.cols B.p B.i es'.length = ok r := r1
  rw [r1', ok_bind]

omit [Zero V] in
theorem valid_bounds {s : Sched} {n : Nat} {dep : Nat → Nat → Prop} (hn : 0 < n) (h : s.Valid n dep) :
    ∃ parts, PtrOk s.levelPtr s.levels parts ∧ PtrOk s.partPtr parts n ∧ n ≤ s.nodes.length ∧
      (∀ x ∈ s.nodes.take n, x < n) ∧ 0 < s.levels ∧ rd s.levelPtr s.levels = ok parts := by
  obtain ⟨parts, h1, h2⟩ := h.ptrs
  have h3 : (s.nodes.take n).Perm (List.range n) := h.complete
  refine ⟨parts, h1, h2, ?_, fun x hx => List.mem_range.1 (h3.subset hx), ?_, ?_⟩
  · have := h3.length_eq
    rw [List.length_take, List.length_range] at this
    omega
  · obtain ⟨b, hb, -⟩ := h2.exists_block hn
    obtain ⟨l, hl, -⟩ := h1.exists_block hb
    omega
  · have h5 := h1.len
    have := h1.last
    rw [rd_getD 0 (by omega), List.getD_eq_getElem?_getD, this]
    rfl

/-- **C134, LBC (options other than 0 and 1).**  If the elimination tree of the triangle is not a path, the inspector
gives a schedule that contains each row once and respects the uses; the program reports the number of its parts as
groups, the number of level sets of the rows as levels, and the loads of the threads that run the parts. -/
theorem C134_lbc {W : V → Text → Prop} {scanVal : Text → Scan V} (hW : ScanOk W scanVal) {n : Nat} (hn : 0 < n)
    {es : List (Nat × Nat × V)} (hes : LowerList n es) {txt : Text} (htxt : MtxText W true n n es txt) (fuel : Nat)
    {metis : Option NodeND} (hm : ∀ nd, metis = some nd → OrdersNodes nd) (debug : Bool) {E : Env K} (hT : E.T.Ok)
    (hsort : ∀ l, (E.P.sort l).Perm l) (hd : 2 ≤ E.p2 ∨ E.P.innerParts < 2 * LbcTree.rate E.p3)
    {option : Int} (h0 : option ≠ 0) (h1 : option ≠ 1) :
    ∃ es' g, Numbered n metis es es' ∧ RowsOf n es' g ∧
      ((∃ j, j + 1 < n ∧ ¬ Fill (fun k i => Uses es' i k) (j + 1) j) →
        ∃ (s : Sched) (parts : Nat) (r : Stats), s.Valid n (Uses es') ∧ PtrOk s.levelPtr s.levels parts ∧
          program E option metis debug scanVal fuel txt = ok (some r) ∧
          r.npart = none ∧ r.ngroup = parts ∧ IsLevelNo n es' r.nlevels ∧ Counted g es'.length r ∧
          Levelled E.T.len s.levels parts es'.length (fun l => load g.p (block s.partPtr s.nodes) (E.T.tid l)
            (s.levelPtr.getD l 0) (s.levelPtr.getD (l + 1) 0)) r) := by
  obtain ⟨es', L, B, e1, h2, h3, h4, h5, h6, h7⟩ := prepared (K := K) hW hn hes htxt fuel hm debug
  subst h3
  refine ⟨es', B.graph, e1, h6, fun hch => ?_⟩
  obtain ⟨o, o1, o2⟩ := levelNo h2 hn h4
  have hsame := h2.sameDeps h5
  have hrel : B.toMat.RowDep = Uses es' := by
    funext u v
    exact propext ((hsame.2 u v).symm.trans (uses_iff h2 h4))
  have hBn : B.toMat.n = L.cols := h6.size
  obtain ⟨s, xs, s1, s2, -⟩ := C73_lbc_tree_demo (⟨fun _ _ _ => 0, fun _ _ => 0⟩ : Arith V) (h2.lowerCsr h5)
    (h2.wf.graph h2.square) hsame (by rw [hBn, hrel]; exact hch) (stype := -1) (by decide) hsort E.p3 hd E.conv E.zero
    (b := List.replicate B.toMat.n 0) (by simp)
  rw [hrel, hBn] at s2
  obtain ⟨parts, p1, p2, p3, p4, p5, p6⟩ := valid_bounds hn s2
  obtain ⟨r, r1, r2, r3, r4, r5, r6⟩ := C133_sched hT h6.lower (by rw [h6.size]; exact hn) p1 p2 p3
    (by rw [h6.size]; exact p4) p5 es'.length parts o.ret
  refine ⟨s, parts, r, s2, p1, ?_, r2, r3, by rw [r4]; exact o2, r5, r6⟩
  rw [h7]
  unfold report
  have s1' : Symm.lbcTreeDemo E.P true E.conv E.zero B.cols B.p L.p L.i (-1) E.p2 E.p3 = ok s := s1
  have r1' : fromSched E.T B.cols B.p B.i es'.length s parts o.ret = ok r := r1
  rw [o1, ok_bind, if_neg h0, if_neg h1, s1', ok_bind, p6, ok_bind, r1', ok_bind]

/-- Group `c` uses group `a`. -/
def GroupUses (es : List (Nat × Nat × V)) (o : RunGroup.Out) (a c : Nat) : Prop :=
  a ≠ c ∧ ∃ u v, o.grouping.Mem u a ∧ o.grouping.Mem v c ∧ Uses es u v

/-- **C134, LBC of groups (option 1).**  The rows are put into groups `o` (runs of rows, joined where row `i + 1` ends with
the entries `i, i + 1`).  If there are two groups of which neither uses the other one, also not through others, the
inspector gives a schedule that contains each group once and respects the uses; the program reports its parts, the
groups, the level sets of the rows as levels, and the loads of the threads that run the parts. -/
theorem C134_groups {W : V → Text → Prop} {scanVal : Text → Scan V} (hW : ScanOk W scanVal) {n : Nat} (hn : 0 < n)
    (hmax : n ≤ Lbc.intMax) {es : List (Nat × Nat × V)} (hes : LowerList n es) {txt : Text}
    (htxt : MtxText W true n n es txt) (fuel : Nat) {metis : Option NodeND}
    (hm : ∀ nd, metis = some nd → OrdersNodes nd) (debug : Bool) {E : Env K} (hT : E.T.Ok)
    (hin : E.P.innerParts ≠ 0) (hsort : ∀ l, (E.P.sort l).Perm l) (hp3 : 1 ≤ E.p3) (hp23 : 1 ≤ E.p2 + E.p3)
    (hxi : ∀ k, (E.xi0 k).length = k) (hps : ∀ k, (E.ps0 k).length = k) :
    ∃ es' g o, Numbered n metis es es' ∧ RowsOf n es' g ∧ RunPartition o n ∧
      (∀ i, i + 1 < n → (Out.Same o i (i + 1) ↔ ∃ pre d, g.col (i + 1) = pre ++ [i, d])) ∧
      ((∃ a c, a < o.num ∧ c < o.num ∧ a ≠ c ∧ ¬ Relation.TransGen (GroupUses es' o) a c ∧
          ¬ Relation.TransGen (GroupUses es' o) c a) →
        ∃ (s : Sched) (parts : Nat) (r : Stats), s.Valid o.num (GroupUses es' o) ∧ PtrOk s.levelPtr s.levels parts ∧
          program E 1 metis debug scanVal fuel txt = ok (some r) ∧
          r.npart = some parts ∧ r.ngroup = o.num ∧ IsLevelNo n es' r.nlevels ∧ Counted g es'.length r ∧
          Levelled E.T.len s.levels parts es'.length
            (fun l => load g.p (fun q => (block s.partPtr s.nodes q).flatMap (groupRows o.ptr o.set)) (E.T.tid l)
              (s.levelPtr.getD l 0) (s.levelPtr.getD (l + 1) 0)) r) := by
  obtain ⟨es', L, B, e1, h2, h3, h4, h5, h6, h7⟩ := prepared (K := K) hW hn hes htxt fuel hm debug
  subst h3
  obtain ⟨ol, ol1, ol2⟩ := levelNo h2 hn h4
  have hsame := h2.sameDeps h5
  have hrel : B.toMat.RowDep = Uses es' := by
    funext u v
    exact propext ((hsame.2 u v).symm.trans (uses_iff h2 h4))
  have hBn : B.graph.n = L.cols := h6.size
  obtain ⟨o, o1, o2⟩ := wp_iff.1 (RunGroup.sptrsvCsrV1_wp h6.lower.wf (ptr := List.replicate (B.graph.n + 1) 0)
    (set := List.replicate B.graph.n 0) (inv := List.replicate B.graph.n 0) (by simp) (by simp) (by simp))
  have op := o2.runPartition
  have hgd : Lbc.GroupDep B.toMat o = GroupUses es' o := by
    funext a c
    unfold Lbc.GroupDep GroupUses
    rw [hrel]
  refine ⟨es', B.graph, o, e1, h6, hBn ▸ op, fun i hi => (o2.same_iff (i := i) (by omega)).trans
    (linkCsr_iff h6.lower.wf (by omega)), fun hch => ?_⟩
  obtain ⟨s, xs, s1, s2, -⟩ := Lbc.C57_grouped_lbc_solver (⟨fun _ _ _ => 0, fun _ _ => 0⟩ : Arith V)
    (h2.lowerCsr h5) o1 (by rw [hgd]; exact hch) (by show B.graph.n ≤ _; omega) hin hsort hp3 hp23 hxi hps E.conv
    E.zero false (b := List.replicate B.toMat.n 0) (by simp)
  rw [hgd] at s2
  have hpos : 0 < o.num := by
    obtain ⟨a, _, ha, _⟩ := hch
    omega
  have hset : o.set = List.range B.graph.n := by
    have := o2.set
    have hl := o2.lenSet.1
    rw [List.length_replicate] at hl
    rwa [List.take_of_length_le (by omega)] at this
  obtain ⟨parts, p1, p2, p3, p4, p5, p6⟩ := valid_bounds hpos s2
  obtain ⟨r, r1, r2, r3, r4, r5, r6⟩ := C133_group_sched (groupSet := o.set) hT h6.lower (by omega) p1 p2 p3 p4 o2.ptrOk
    (by rw [hset]; simp) (fun x hx => by rw [hset] at hx; exact List.mem_range.1 hx) p5 es'.length ol.ret o.num
  refine ⟨s, parts, r, s2, p1, ?_, r2, r3, by rw [r4]; exact ol2, r5, r6⟩
  rw [h7]
  unfold report
  have s1' : Lbc.buildSetH2 E.P E.conv E.zero false B.cols B.p B.i E.p2 E.p3 E.xi0 E.ps0 = ok (o, s) := s1
  have r1' : fromGroupSched E.T B.cols B.p B.i es'.length s o.ptr o.set ol.ret o.num = ok r := r1
  rw [ol1, ok_bind, if_neg (by decide), if_pos rfl, s1', ok_bind]
  dsimp only
  rw [r1', ok_bind]

/-! ### Examples: the file of C122 with the rows `0`, `1` and `0 2` -/

/-- The parameters of the command line have their default values; two threads. -/
def exEnv : Env Nat where
  P := { Lbc.exParams with innerParts := 6 }
  conv := Int.toNat
  zero := 0
  p2 := -1
  p3 := 4000
  xi0 := fun k => List.replicate k 5
  ps0 := fun k => List.replicate k 7
  T := exThreads

def exList : List (Nat × Nat × ℚ) := [(0, 0, 4), (2, 0, -5), (1, 1, 6), (2, 2, 3)]

example {nd : NodeND} (hnd : OrdersNodes nd) :=
  C134_levels scanRat_ok (by decide) exTwoParts_ok exTwoParts_rat 0 (metis := some nd)
    (by rintro _ ⟨⟩; exact hnd) true (E := exEnv) exThreads_ok

/-- Without METIS: 4 entries, 5 operations. -/
example : ∃ r, program exEnv 0 none true scanRat 0 exTwoParts = ok (some r) ∧ r.nnz = 4 ∧ r.nFlops = 5 := by
  have h := C134_levels scanRat_ok (by decide) exTwoParts_ok exTwoParts_rat 0 (metis := none) (by simp) true
    (E := exEnv) exThreads_ok
  generalize program exEnv 0 none true scanRat 0 exTwoParts = p at h ⊢
  obtain ⟨es', g, r, h1, h2, h3, o, gg, L, lp, ls, -, -, -, -, -, -, -, -, -, -, -, -, -, h4, -⟩ := h
  cases h1
  have a := h4.flops
  have b := h4.nnz
  rw [h2.nnz, h2.size] at a
  simp only [List.length_cons, List.length_nil] at a b
  exact ⟨r, h3, b, by omega⟩

example : ∃ r, ∃ s : Sched, program exEnv 2 none true scanRat 0 exTwoParts = ok (some r) ∧ s.Valid 3 (Uses exList) ∧ r.npart = none := by
  have h := C134_lbc scanRat_ok (by decide) exTwoParts_ok exTwoParts_rat 0 (metis := none) (by simp) true
    (E := exEnv) exThreads_ok (fun l => .refl _) (.inr (by decide)) (option := 2) (by decide) (by decide)
  generalize program exEnv 2 none true scanRat 0 exTwoParts = p at h ⊢
  obtain ⟨es', g, h1, h2, h3⟩ := h
  cases h1
  obtain ⟨s, parts, r, h4, -, h5, h6, -⟩ := h3 exTwoParts_not_chain
  exact ⟨r, s, h5, h4, h6⟩

theorem exList_uses {u v : Nat} (h : Uses exList u v) : u = 0 ∧ v = 2 := by
  obtain ⟨hne, x, hx⟩ := h
  simp only [exList, List.mem_cons, Prod.mk.injEq, List.not_mem_nil, or_false] at hx
  omega

/-- The groups of rows 0 and 1 are independent. -/
example : ∃ r, ∃ s : Sched, ∃ o : RunGroup.Out, program exEnv 1 none true scanRat 0 exTwoParts = ok (some r) ∧
    s.Valid o.num (GroupUses exList o) ∧ r.ngroup = o.num := by
  have h := C134_groups scanRat_ok (by decide) (by decide) exTwoParts_ok exTwoParts_rat 0 (metis := none) (by simp) true
    (E := exEnv) exThreads_ok (by decide) (fun l => .refl _) (by decide) (by decide) (fun k => by simp [exEnv])
    (fun k => by simp [exEnv])
  generalize program exEnv 1 none true scanRat 0 exTwoParts = p at h ⊢
  obtain ⟨es', g, o, h1, h2, h3, h4, h5⟩ := h
  have hes : es' = exList := h1
  subst hes
  have n01 : ¬ Out.Same o 0 1 := by
    intro hs
    obtain ⟨pre, d, hp⟩ := (h4 0 (by decide)).1 hs
    obtain ⟨x, hx⟩ := (h2.mem 1 0 (by decide)).1 (by rw [hp]; simp)
    simp [exList] at hx
  have n12 : ¬ Out.Same o 1 2 := by
    intro hs
    obtain ⟨pre, d, hp⟩ := (h4 1 (by decide)).1 hs
    obtain ⟨x, hx⟩ := (h2.mem 2 1 (by decide)).1 (by rw [hp]; simp)
    simp [exList] at hx
  obtain ⟨a, -, ha⟩ := h3.inv 0 (by decide)
  obtain ⟨c, -, hc⟩ := h3.inv 1 (by decide)
  have hlast : ∀ x y, Relation.TransGen (GroupUses exList o) x y → o.grouping.Mem 2 y := by
    intro x y ht
    have : ∀ x y, GroupUses exList o x y → o.grouping.Mem 2 y := by
      rintro x y ⟨-, u, v, -, hv, huv⟩
      rw [(exList_uses huv).2] at hv
      exact hv
    cases ht with
    | single e => exact this _ _ e
    | tail _ e => exact this _ _ e
  obtain ⟨s, parts, r, r1, -, r2, -, r3, -⟩ := h5 ⟨a, c, ha.1, hc.1, fun e => n01 ⟨a, ha, e ▸ hc⟩,
    fun ht => n12 ⟨c, hc, hlast _ _ ht⟩,
    fun ht => n01 ⟨a, ha, h3.convex a 0 1 2 ha (hlast _ _ ht) (by decide) (by decide)⟩⟩
  exact ⟨r, s, o, r2, r1, r3⟩

/-- The longest list of rows has two rows. -/
example : IsLevelNo 3 exList 2 := by
  refine ⟨fun h => absurd (exList_uses (h 0 (by decide))).2 (by decide), fun _ => ⟨2, rfl, ⟨[2, 0], rfl, by decide, ?_⟩, ?_⟩⟩
  · exact List.isChain_cons_cons.2 ⟨⟨by decide, -5, by simp [exList]⟩, .singleton _⟩
  · intro c _ hc
    match c, hc with
    | [], _ => simp
    | [_], _ => simp
    | [_, _], _ => simp
    | a :: b :: d :: t, hc =>
      have h1 := exList_uses (List.isChain_cons_cons.1 hc).1
      have h2 := exList_uses (List.isChain_cons_cons.1 (List.isChain_cons_cons.1 hc).2).1
      omega

end Verif.Profile
