import Verif.Proof.LbcDemo
import Verif.Props.Lbc

/-!
# C55, C56, C57: LBC with the sequential inspector

`get_coarse_Level_set_DAG_CSC03` (src/lbc_csc_dag.cpp 401-685) and the solvers `SptrsvLBCDAG`,
`SptrsvLBC_W_Sorting` and `SpTrsvCSR_Grouping_H2` of the demo (example/sptrsv_demo_utils.h).
Vocabulary: `Csc.Dep`, `Csc.Acyclic`, `Csc.IsDepth` (Verif/Spec/Graph.lean), `Sched.Valid`
(Verif/Spec/Sched.lean), `Mat.LowerCsr`, `Mat.RowDep` (Verif/Spec/Mat.lean).
-/

namespace Verif.Lbc
open Res Csc LevelSet Hdagg

variable {g : Csc}

/-- What a caller of the sequential inspector has to provide: a well-formed acyclic graph with one
diagonal entry in each column, of at most `INT32_MAX` nodes, in which no path visits all nodes; a
cost for every node; not the value 0 for the number of parts; tuning parameters for which the cutting
into windows is sound (C35).  `sort` is the sorting of the components of `std::sort`; `xi0` and `ps0`
are the contents of the uninitialised scratch array. -/
structure SeqHyp {K : Type} (g : Csc) (P : Params K) (minDist divRate : Int) (nodeCost : List K)
    (xi0 ps0 : List Nat) : Prop where
  wf : g.WF
  oneDiag : g.OneDiag
  acyclic : g.Acyclic
  nonempty : 0 < g.n
  small : g.n ≤ intMax
  shallow : ¬ ∃ v, g.IsDepth v (g.n - 1)
  costLen : nodeCost.length = g.n
  xiLen : xi0.length = g.n
  psLen : ps0.length = g.n
  innerParts : P.innerParts ≠ 0
  steps : (1 ≤ divRate ∧ 1 ≤ minDist + divRate) ∨ (0 ≤ minDist ∧ ∀ v, ¬ g.PathTo minDist.toNat v)
  sort : ∀ l, (P.sort l).Perm l

section
variable {K : Type} [Add K] [LT K] [DecidableLT K]

omit [Add K] [LT K] [DecidableLT K] in
theorem SeqHyp.noPath {P : Params K} {minDist divRate : Int} {nodeCost : List K}
    {xi0 ps0 : List Nat} (h : SeqHyp g P minDist divRate nodeCost xi0 ps0) (v : Nat) :
    ¬ g.PathTo (g.n - 1) v := by
  intro hv
  refine h.shallow ⟨v, hv, ?_⟩
  intro m hm
  have := hm.lt_n h.wf h.acyclic
  omega

/-- **C55.**  The sequential LBC inspector ends normally (no out-of-bounds access, no failing
assertion, no endless loop), and its schedule has well-formed pointers, lists every node exactly
once, and puts every dependence into a later coarse level or to a later position of the same
part. -/
theorem C55_seq_lbc_valid {P : Params K} {minDist divRate : Int} {nodeCost : List K}
    {xi0 ps0 : List Nat} (h : SeqHyp g P minDist divRate nodeCost xi0 ps0) (zero : K) :
    ∃ s, coarsenSeq P g.n g.p g.i minDist divRate nodeCost zero xi0 ps0 = ok s ∧
      s.Valid g.n g.Dep := by
  obtain ⟨s, h1, h2, -⟩ := wp_iff.1 (coarsenSeq_wp h.wf h.oneDiag h.nonempty h.noPath h.innerParts
    h.sort h.small h.steps h.costLen zero h.xiLen h.psLen)
  exact ⟨s, h1, h2⟩

/-- **C56.**  `L` is a lower triangular matrix, given by rows (`m`) and by columns (`g`, the same
dependences), with two rows of which neither depends on the other.  Then the set-up of
`SptrsvLBCDAG` (`fsort = false`) and of `SptrsvLBC_W_Sorting` (with the parts sorted by row number, if
`fsort`) ends normally with a valid schedule, and the parallel solve `sptrsv_csr_lbc` with this schedule
gives the values of the serial solve, for every interleaving and every arithmetic. -/
theorem C56_lbc_demo_solver {F : Type} (A : Arith F) {m : Mat F} (hm : m.LowerCsr)
    (hwf : g.WF) (hd : g.OneDiag) (hg : Mat.SameDeps g m)
    (hind : ∃ a c, a < m.n ∧ c < m.n ∧ a ≠ c ∧
      ¬ Relation.TransGen m.RowDep a c ∧ ¬ Relation.TransGen m.RowDep c a)
    (hsmall : m.n ≤ intMax) {P : Params K} (hin : P.innerParts ≠ 0)
    (hsort : ∀ l, (P.sort l).Perm l) {minDist divRate : Int} (h1 : 1 ≤ divRate)
    (h2 : 1 ≤ minDist + divRate) {xi0 ps0 : List Nat} (hxi : xi0.length = m.n)
    (hps : ps0.length = m.n) (conv : Int → K) (zero : K) (fsort : Bool) {b : List F}
    (hb : b.length = m.n) :
    ∃ s xs, lbcSorting P conv zero fsort m.n m.p g.p g.i minDist divRate xi0 ps0 = ok s ∧
      s.Valid m.n m.RowDep ∧ Exec.sptrsvCsr A m.n m.p m.i m.x b = ok xs ∧
      AlwaysGives (fun sch => Exec.sptrsvLbc A m.p m.i m.x s sch b) xs := by
  obtain ⟨a, c, ha, hc, hac, n1, n2⟩ := hind
  have hlow : ∀ u v, g.Dep u v → u < v := by
    intro u v huv
    obtain ⟨hv, l, hl⟩ := (hg.2 u v).1 huv
    exact hm.lower v hv _ hl
  have hacy : g.Acyclic := by
    have : ∀ a c, Relation.TransGen g.Dep a c → a < c := by
      intro a c h
      induction h with
      | single h => exact hlow _ _ h
      | tail _ h ih => have := hlow _ _ h; omega
    intro v hv
    have := this v v hv
    omega
  have htr : ∀ u v, Relation.TransGen g.Dep u v → Relation.TransGen m.RowDep u v :=
    fun u v h => Relation.TransGen.mono (fun x y => (hg.2 x y).1) u v h
  have hpath : ∀ v, ¬ g.PathTo (g.n - 1) v := by
    intro v hv
    rcases comparable_of_path hwf hacy hv (a := a) (b := c) (by rw [hg.1]; exact ha)
      (by rw [hg.1]; exact hc) hac with h | h
    · exact n1 (htr _ _ h)
    · exact n2 (htr _ _ h)
  obtain ⟨cost, c1, c2⟩ := wp_iff.1 (rowCosts_wp conv zero (n := m.n) (p := m.p)
    (by have : m.p.length = m.n + 1 := hm.wf.pat.plen
        omega))
  have hgn := hg.1
  obtain ⟨s, s1, s2, s3⟩ := wp_iff.1 (coarsenSeq_wp hwf hd (by omega) hpath hin hsort (by omega)
    (.inl ⟨h1, h2⟩) (nodeCost := cost) (by omega) zero (xi0 := xi0) (ps0 := ps0) (by omega) (by omega))
  have hex : ∃ r, lbcSorting P conv zero fsort m.n m.p g.p g.i minDist divRate xi0 ps0 = ok r ∧
      r.Valid g.n g.Dep := by
    unfold lbcSorting
    rw [c1, ok_bind, ← hgn, s1, ok_bind]
    cases fsort with
    | true =>
      obtain ⟨r, r1, r2, -⟩ := wp_iff.1 (sortAllParts_wp s2 s3 hlow)
      exact ⟨r, by rw [if_pos rfl]; exact r1, r2⟩
    | false => exact ⟨s, by rw [if_neg (by decide)], s2⟩
  obtain ⟨r, r1, r2⟩ := hex
  have hv : r.Valid m.n m.RowDep :=
    ⟨hgn ▸ r2.ptrs, hgn ▸ r2.complete, fun u v huv => r2.respects u v ((hg.2 u v).2 huv)⟩
  obtain ⟨xs, x1, x2⟩ := C06_lbc_solve_eq_serial A hm hv hb
  exact ⟨r, xs, r1, hv, x1, x2⟩

/-- Group `c` depends directly on group `a`. -/
def GroupDep {F : Type} (m : Mat F) (o : RunGroup.Out) (a c : Nat) : Prop :=
  a ≠ c ∧ ∃ u v, o.grouping.Mem u a ∧ o.grouping.Mem v c ∧ m.RowDep u v

/-- **C57.**  `L` is a lower triangular matrix, and its row groups (C44) are such that there are two
groups of which neither depends on the other.  Then the set-up of `SpTrsvCSR_Grouping_H2` ends
normally, its schedule lists every group once and respects all dependences between groups, and
`sptrsv_csr_group_lbc` with these groups and this schedule gives the values of the serial solve,
for every interleaving and every arithmetic, with sorting of the parts or without. -/
theorem C57_grouped_lbc_solver {F : Type} (A : Arith F) {m : Mat F} (hm : m.LowerCsr)
    {o : RunGroup.Out} (ho : RunGroup.sptrsvCsrV1 m.n m.p m.i (List.replicate (m.n + 1) 0)
      (List.replicate m.n 0) (List.replicate m.n 0) = ok o)
    (hind : ∃ a c, a < o.num ∧ c < o.num ∧ a ≠ c ∧
      ¬ Relation.TransGen (GroupDep m o) a c ∧ ¬ Relation.TransGen (GroupDep m o) c a)
    (hsmall : m.n ≤ intMax) {P : Params K} (hin : P.innerParts ≠ 0)
    (hsort : ∀ l, (P.sort l).Perm l) {minDist divRate : Int} (h1 : 1 ≤ divRate)
    (h2 : 1 ≤ minDist + divRate) {xi0 ps0 : Nat → List Nat} (hxi : ∀ k, (xi0 k).length = k)
    (hps : ∀ k, (ps0 k).length = k) (conv : Int → K) (zero : K) (fsort : Bool) {b : List F}
    (hb : b.length = m.n) :
    ∃ s xs, buildSetH2 P conv zero fsort m.n m.p m.i minDist divRate xi0 ps0 = ok (o, s) ∧
      s.Valid o.num (GroupDep m o) ∧ Exec.sptrsvCsr A m.n m.p m.i m.x b = ok xs ∧
      AlwaysGives (fun sch => Exec.sptrsvGroupLbc A m.p m.i m.x s o.ptr o.set sch b) xs := by
  obtain ⟨o', dag, gv, gedg, gg, G⟩ := exists_groupGraph hm
  have hoo : o' = o := by
    have := G.runs
    rw [ho] at this
    cases this
    rfl
  subst hoo
  obtain ⟨a, c, ha, hc, hac, n1, n2⟩ := hind
  have hdep : ∀ u v, gg.Dep u v ↔ GroupDep m o' u v := G.dep
  have hrel : gg.Dep = GroupDep m o' := by
    funext u v; exact propext (hdep u v)
  have hpath : ∀ v, ¬ gg.PathTo (gg.n - 1) v := by
    intro v hv
    have := comparable_of_path G.wf G.acyclic hv (a := a) (b := c) (by rw [G.gn]; exact ha)
      (by rw [G.gn]; exact hc) hac
    rw [hrel] at this
    exact this.elim n1 n2
  have hplen : m.p.length = m.n + 1 := hm.wf.pat.plen
  have hsetl : o'.set.length = m.n := G.done.lenSet.1
  have hset : o'.set = List.range m.n := by
    have : o'.set.take m.n = List.range m.n := G.done.set
    rw [List.take_of_length_le (le_of_eq hsetl)] at this
    exact this
  have hptr : PtrOk o'.ptr o'.num m.n := G.done.ptrOk
  obtain ⟨cost, c1, c2⟩ := wp_iff.1 (groupCosts_wp conv zero (o := o') (p := m.p) (n := m.n)
    (by omega) hptr (le_of_eq hsetl.symm) (by
      intro k hk
      rw [hset, Exec.getD_range hk]
      exact hk))
  have hgn := G.gn
  have hle := G.le
  obtain ⟨s, s1, s2, s3⟩ := wp_iff.1 (coarsenSeq_wp G.wf G.oneDiag (by omega) hpath hin hsort
    (by omega) (.inl ⟨h1, h2⟩) (nodeCost := cost) (by omega) zero (xi0 := xi0 o'.num)
    (ps0 := ps0 o'.num) (by rw [hxi, hgn]) (by rw [hps, hgn]))
  have s1' : coarsenSeq P o'.num gv gedg minDist divRate cost zero (xi0 o'.num) (ps0 o'.num) = ok s := by
    refine (coarsenSeq_ext P o'.num gv gedg minDist divRate cost zero (xi0 o'.num) (ps0 o'.num)
      (o'.num + 1)).eq_ok ?_
    rw [← s1, G.graph]
  have hex : ∃ r, buildSetH2 P conv zero fsort m.n m.p m.i minDist divRate xi0 ps0 = ok (o', r) ∧
      r.Valid gg.n gg.Dep := by
    unfold buildSetH2
    rw [ho, ok_bind, G.succ, ok_bind]
    dsimp only
    rw [G.flat, ok_bind, c1, ok_bind]
    dsimp only
    rw [s1', ok_bind]
    cases fsort with
    | true =>
      obtain ⟨r, r1, r2, -⟩ := wp_iff.1 (sortAllParts_wp s2 s3 G.low)
      exact ⟨r, by rw [if_pos rfl, r1, ok_bind], r2⟩
    | false => exact ⟨s, by rw [if_neg (by decide), ok_bind], s2⟩
  obtain ⟨r, r1, r2⟩ := hex
  rw [hgn, hrel] at r2
  obtain ⟨parts, p1, p2⟩ := r2.ptrs
  have hGd : ∀ a c, o'.grouping.Dep m.depGraph a c → GroupDep m o' a c := by
    rintro a c ⟨hne, u, v, hu, hv, huv⟩
    exact ⟨hne, u, v, hu, hv, (Mat.depGraph_dep hm).1 huv⟩
  have hval := expand_valid (g := m.depGraph) (G := o'.grouping) (s := r) m.depGraph_wf
    (by rw [m.depGraph_n]; exact G.done.partition) ?_
    ⟨r2.ptrs, r2.complete, fun u v huv => r2.respects u v (hGd u v huv)⟩
  · rw [m.depGraph_n] at hval
    have hval' : (r.expand o'.ptr o'.set).Valid m.n m.RowDep :=
      ⟨hval.ptrs, hval.complete, fun u v huv => hval.respects u v ((Mat.depGraph_dep hm).2 huv)⟩
    obtain ⟨xs, x1, x2⟩ := C09_group_lbc_eq_serial A hm (s := r) (groupPtr := o'.ptr)
      (groupSet := o'.set) (ngroups := o'.num) (listed := o'.num) (by rw [hsetl]; exact hptr)
      (by rw [hset]; exact fun i hi => List.mem_range.1 hi) r2.ptrs
      (by
        have := r2.complete.length_eq
        simp only [List.length_take, List.length_range] at this
        omega)
      (fun gr hgr => List.mem_range.1 (r2.complete.mem_iff.1 hgr)) hval' hb
    exact ⟨r, xs, r1, r2, x1, x2⟩
  · intro j hj
    refine (G.done.runPartition.sorted j hj).imp ?_
    intro x y hxy hd
    obtain ⟨hvn, l, hl⟩ := (Mat.depGraph_dep hm).1 hd
    have := hm.lower x hvn _ hl
    dsimp only at this
    omega

end

/-! ### Examples and limits -/

/-- The hypotheses of C55 hold for the graph `0→2, 1→2, 2→3`, and the run gives two coarse levels. -/
example : SeqHyp exGraph exParams 2 1 [1, 1, 1, 1] [7, 7, 7, 7] [9, 9, 9, 9] ∧
    coarsenSeq exParams exGraph.n exGraph.p exGraph.i 2 1 [1, 1, 1, 1] 0 [7, 7, 7, 7] [9, 9, 9, 9]
      = ok ⟨2, [0, 1, 2, 0, 0], [0, 3, 4, 0], [0, 1, 2, 3]⟩ :=
  ⟨⟨exGraph_wf, exGraph_oneDiag, exGraph_acyclic, by decide, by decide, exGraph_noPath, rfl, rfl, rfl,
    by decide, .inl (by decide), fun _ => .refl _⟩, by decide +kernel⟩

/-- The hypotheses of C56 hold for `exMat`: the rows 0 and 1 are independent. -/
theorem exMat_independent : ∃ a c, a < exMat.n ∧ c < exMat.n ∧ a ≠ c ∧
    ¬ Relation.TransGen exMat.RowDep a c ∧ ¬ Relation.TransGen exMat.RowDep c a := by
  refine ⟨0, 1, by decide, by decide, by decide, ?_, ?_⟩
  · intro h
    obtain ⟨u, -, h⟩ := Relation.TransGen.tail'_iff.1 h
    have := exMat_rowDep h
    omega
  · intro h
    obtain ⟨u, -, h⟩ := Relation.TransGen.tail'_iff.1 h
    have := exMat_rowDep h
    omega

example : ∃ s xs, lbcSorting exParams (fun i => i.toNat) 0 true exMat.n exMat.p exGraph.p exGraph.i 2 1
      [7, 7, 7, 7] [9, 9, 9, 9] = ok s ∧
      s.Valid exMat.n exMat.RowDep ∧
      Exec.sptrsvCsr exArith exMat.n exMat.p exMat.i exMat.x [2, 3, 6, 11] = ok xs ∧
      AlwaysGives (fun sch => Exec.sptrsvLbc exArith exMat.p exMat.i exMat.x s sch [2, 3, 6, 11]) xs :=
  C56_lbc_demo_solver exArith exMat_lower exGraph_wf exGraph_oneDiag exGraph_sameDeps
    exMat_independent (by decide) (P := exParams) (by decide) (fun _ => .refl _) (by decide) (by decide)
    rfl rfl _ 0 true rfl

/-- Rows `[0]`, `[0 1]`, `[. . 2]`, `[. . 2 3]`, `[. 1 2 . 4]`: the groups are `0 1`, `2 3`, `4`. -/
def exMat5 : Mat Int := ⟨5, [0, 1, 3, 4, 6, 9], [0, 0, 1, 2, 2, 3, 1, 2, 4], [1, 1, 1, 1, 1, 1, 1, 1, 1]⟩

theorem exMat5_lower : exMat5.LowerCsr := by
  refine ⟨⟨⟨by decide, by decide, by decide, by decide, by decide⟩, by decide⟩, ?_, ?_⟩
  · intro r hr
    have : r < 5 := hr
    have : r = 0 ∨ r = 1 ∨ r = 2 ∨ r = 3 ∨ r = 4 := by omega
    rcases this with rfl | rfl | rfl | rfl | rfl <;> exact ⟨1, by decide⟩
  · show ∀ r, r < 5 → _
    decide

theorem exMat5_rowDep {u v : Nat} (h : exMat5.RowDep u v) :
    (u = 0 ∧ v = 1) ∨ (u = 2 ∧ v = 3) ∨ (u = 1 ∧ v = 4) ∨ (u = 2 ∧ v = 4) := by
  obtain ⟨hv, l, hl⟩ := h
  have hv : v < 5 := hv
  have : v = 0 ∨ v = 1 ∨ v = 2 ∨ v = 3 ∨ v = 4 := by omega
  rcases this with rfl | rfl | rfl | rfl | rfl <;>
    simp [exMat5, Mat.off, Mat.row, Mat.pat, Csc.ptr] at hl <;> omega

/-- C57 for `exMat5`: the groups `0 1` and `2 3` are independent. -/
example : ∃ s xs, buildSetH2 exParams (fun i => i.toNat) 0 true exMat5.n exMat5.p exMat5.i 1 1
      (fun k => List.replicate k 7) (fun k => List.replicate k 9)
      = ok (⟨3, [0, 2, 4, 5, 0, 0], [0, 1, 2, 3, 4], [0, 0, 1, 1, 2]⟩, s) ∧
      s.Valid 3 (GroupDep exMat5 ⟨3, [0, 2, 4, 5, 0, 0], [0, 1, 2, 3, 4], [0, 0, 1, 1, 2]⟩) ∧
      Exec.sptrsvCsr exArith exMat5.n exMat5.p exMat5.i exMat5.x [1, 2, 3, 4, 5] = ok xs ∧
      AlwaysGives (fun sch => Exec.sptrsvGroupLbc exArith exMat5.p exMat5.i exMat5.x s
        [0, 2, 4, 5, 0, 0] [0, 1, 2, 3, 4] sch [1, 2, 3, 4, 5]) xs := by
  refine C57_grouped_lbc_solver exArith exMat5_lower
    (o := ⟨3, [0, 2, 4, 5, 0, 0], [0, 1, 2, 3, 4], [0, 0, 1, 1, 2]⟩) (by decide)
    ⟨0, 1, by decide, by decide, by decide, ?_, ?_⟩ (by decide) (P := exParams) (by decide)
    (fun _ => .refl _) (by decide) (by decide) (by simp) (by simp) _ 0 true rfl
  all_goals
    intro h
    obtain ⟨w, -, hne, u, v, hu, hv, hd⟩ := Relation.TransGen.tail'_iff.1 h
    have h1 := exMat5_rowDep hd
    obtain ⟨hw, hu⟩ := hu
    obtain ⟨-, hv⟩ := hv
    change w < 3 at hw
    rcases (by omega : w = 0 ∨ w = 1 ∨ w = 2) with rfl | rfl | rfl <;>
      simp [RunGroup.Out.grouping, groupRows] at hu hv hne <;> omega

/-- **C55, limit: number of parts 0.** -/
theorem C55_zero_parts_ub : coarsenSeq { exParams with innerParts := 0 } exGraph.n exGraph.p
    exGraph.i 2 1 [1, 1, 1, 1] 0 [0, 0, 0, 0] [0, 0, 0, 0] = Res.ub := by decide +kernel

/-- **C55, limit: chains.**  On every well-formed graph that is cyclic, or in which a path visits
all nodes, the inspector throws (the arrays are allocated with a negative size). -/
theorem C55_throws_on_chains {K : Type} [Add K] [LT K] [DecidableLT K] (hwf : g.WF) (hd : g.OneDiag)
    (hbad : ¬ g.Acyclic ∨ ∃ v, g.IsDepth v (g.n - 1)) (P : Params K) (minDist divRate : Int)
    (nodeCost : List K) (zero : K) (xi0 ps0 : List Nat) :
    coarsenSeq P g.n g.p g.i minDist divRate nodeCost zero xi0 ps0 = exn := by
  obtain ⟨o, ho, h4, -⟩ := C04_error_code_exact hwf hd
  have hr := h4.2 hbad
  unfold coarsenSeq windows
  rw [ho, ok_bind, hr]
  have h1 : ∀ a b : List Nat, nodeLevels (-1 : Int).toNat a b g.n = ok (List.replicate g.n 0) := by
    intro a b
    rfl
  rw [h1, ok_bind]
  rfl

end Verif.Lbc
