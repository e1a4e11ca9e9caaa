import Verif.Proof.P2PBuild

/-!
# C113: the point-to-point solvers

`SpTrsv_LL_SpMP` and `SpTrSv_LL_Tree_HDAGG_BFS_P2P` have no barriers between the rows: a thread waits
until the parents of its next task have set their flags.  Waiting is modelled as an instruction that
does nothing until the flag is set, so a wrong order of waits shows up as an execution that cannot be
continued to the end.
-/

namespace Verif
open Res Exec Relation P2P

variable {V : Type}

/-- No execution of a parallel region goes wrong, an execution that ends gives `xs`, and every
execution can be continued to one that ends: there is no deadlock. -/
def AlwaysEnds (run : List Nat → List Nat → Res (List V)) (xs : List V) : Prop :=
  (∀ sch₀ sch, run sch₀ sch = ok xs ∨ run sch₀ sch = nofuel) ∧
  ∀ sch₀ sch, ∃ e₀ e, run (sch₀ ++ e₀) (sch ++ e) = ok xs

theorem P2P.TaskGraph.Ok.mono {S : TaskGraph} {T N : Nat} {dep dep' : Nat → Nat → Prop} (h : S.Ok T N dep)
    (hd : ∀ u v, dep' u v → dep u v) : S.Ok T N dep' :=
  ⟨h.thr, h.tsk, h.perm, h.par, fun u v huv => h.dep u v (hd u v huv), h.acyclic⟩

namespace P2P

theorem perm_get {S : TaskGraph} {T N : Nat} {dep : Nat → Nat → Prop} (h : S.Ok T N dep) {c : Nat} (hc : c < N) :
    ∃ v, S.perm[c]? = some v ∧ v < N := by
  have hl : (S.perm.take N).length = N := by simpa using h.perm.length_eq
  have hlen : N ≤ S.perm.length := by rw [List.length_take] at hl; omega
  refine ⟨S.perm[c], List.getElem?_eq_getElem (by omega), ?_⟩
  have : S.perm[c] ∈ S.perm.take N := List.mem_take_iff_getElem.2 ⟨c, by omega, rfl⟩
  exact List.mem_range.1 (h.perm.mem_iff.1 this)

theorem nodesOk_rows {n : Nat} {rowDep : Nat → Nat → Prop} (hlt : ∀ u v, rowDep u v → u < n) :
    NodesOk n n rowDep rowDep (fun v => [v]) where
  perm := by simp
  dep v hv pre j post heq u hu := by
    right
    have : j = v := by
      have : j ∈ [v] := by rw [heq]; simp
      simpa using this
    subst this
    exact ⟨u, hlt u j hu, by simp, hu⟩

/-- The rows of a group are listed in an order that respects the dependences between them. -/
def OrderedInside (G : Grouping) (m : Mat V) : Prop :=
  ∀ j, j < G.num → ∀ pre v post, groupRows G.ptr G.set j = pre ++ v :: post →
    ∀ u, m.RowDep u v → G.Mem u j → u ∈ pre

theorem nodesOk_groups {m : Mat V} {g : Csc} {G : Grouping} (hs : Mat.SameDeps g m) (hP : G.Partition m.n)
    (hin : OrderedInside G m) (hlt : ∀ u v, m.RowDep u v → u < m.n) :
    NodesOk m.n G.num m.RowDep (G.Dep g) (groupRows G.ptr G.set) where
  perm := by
    have : (List.range G.num).flatMap (groupRows G.ptr G.set) = G.set.take m.n := by
      have := flatMap_slices G.set G.ptr G.num hP.ptr.d0 (fun b hb => hP.ptr.dmono hb)
      rw [hP.ptr.dlast] at this
      exact this
    rw [this]
    exact hP.nodes
  dep v hv pre j post heq u hu := by
    by_cases hm : G.Mem u v
    · exact .inl (hin v hv pre j post heq u hu hm)
    · right
      have hun := hlt u j hu
      have : u ∈ (List.range G.num).flatMap (groupRows G.ptr G.set) := by
        have e : (List.range G.num).flatMap (groupRows G.ptr G.set) = G.set.take m.n := by
          have := flatMap_slices G.set G.ptr G.num hP.ptr.d0 (fun b hb => hP.ptr.dmono hb)
          rw [hP.ptr.dlast] at this
          exact this
        rw [e]
        exact hP.nodes.mem_iff.2 (List.mem_range.2 hun)
      obtain ⟨w, hw, huw⟩ := List.mem_flatMap.1 this
      have hw := List.mem_range.1 hw
      refine ⟨w, hw, huw, ?_, u, j, ⟨hw, huw⟩, ⟨hv, by rw [heq]; simp⟩, (hs.2 u j).2 hu⟩
      rintro rfl
      exact hm ⟨hw, huw⟩

/-- **C113.** The solver `SpTrsv_LL_SpMP`: for every lower triangular matrix, every correct task graph and
every state of the flags before the call, every execution by the planned number of threads ends and
gives the result of the serial solve. -/
theorem C113_spmp_solve (A : Arith V) {m : Mat V} (h : m.LowerCsr) {S : TaskGraph} {T : Nat}
    (hS : S.Ok T m.n m.RowDep) {flags : List Nat} (hf : S.ntasks ≤ flags.length) {b : List V}
    (hb : b.length = m.n) :
    ∃ xs, sptrsvCsr A m.n m.p m.i m.x b = ok xs ∧
      AlwaysEnds (fun sch₀ sch => spmpSolve A S (.openmp T) m.p m.i m.x sch₀ sch flags b) xs := by
  obtain ⟨xs, hX⟩ := exists_solution (A := A) h hb
  refine ⟨xs, sptrsvCsr_spec h hb hX, ?_⟩
  have hlt : ∀ u v, m.RowDep u v → u < m.n := by
    rintro u v ⟨hv, l, hl⟩
    have := h.lower v hv _ hl
    have : u < v := this
    omega
  refine region_spec (LowerCsr.rowsOk h) hS (nodesOk_rows hlt) (fun c hc => ?_) hb hX hf
  obtain ⟨v, h1, h2⟩ := perm_get hS hc
  refine ⟨v, h1, ?_⟩
  show (rd S.perm c >>= fun row => rowCode m.p m.i m.x row) = _
  have hlen : c < S.perm.length := (List.getElem?_eq_some_iff.1 h1).1
  rw [rd_eq hlen, ok_bind]
  have : S.perm[c] = v := (List.getElem?_eq_some_iff.1 h1).2
  rw [this, rowCode_rowI (LowerCsr.rowsOk h) h2]
  simp [code]

/-- **C113.** The solver of `SpTrSv_LL_Tree_HDAGG_BFS_P2P` for given groups: the same, for every partition
of the rows into groups that are ordered inside, and every correct task graph of the groups. -/
theorem C113_p2p_solve (A : Arith V) {m : Mat V} {g : Csc} (h : m.LowerCsr) (hs : Mat.SameDeps g m)
    {G : Grouping} (hP : G.Partition m.n) (hl : G.set.length = m.n) (hin : OrderedInside G m) {S : TaskGraph} {T : Nat}
    (hS : S.Ok T G.num (G.Dep g)) {flags : List Nat} (hf : S.ntasks ≤ flags.length) {b : List V}
    (hb : b.length = m.n) :
    ∃ xs, sptrsvCsr A m.n m.p m.i m.x b = ok xs ∧
      AlwaysEnds (fun sch₀ sch => p2pSolve A S (.openmp T) G.ptr G.set m.p m.i m.x sch₀ sch flags b) xs := by
  obtain ⟨xs, hX⟩ := exists_solution (A := A) h hb
  refine ⟨xs, sptrsvCsr_spec h hb hX, ?_⟩
  have hlt : ∀ u v, m.RowDep u v → u < m.n := by
    rintro u v ⟨hv, l, hl⟩
    have := h.lower v hv _ hl
    have : u < v := this
    omega
  refine region_spec (LowerCsr.rowsOk h) hS (nodesOk_groups hs hP hin hlt) (fun c hc => ?_) hb hX hf
  obtain ⟨v, h1, h2⟩ := perm_get hS hc
  refine ⟨v, h1, ?_⟩
  show (rd S.perm c >>= fun gr => groupCode m.p m.i m.x G.ptr G.set gr) = _
  have hlen : c < S.perm.length := (List.getElem?_eq_some_iff.1 h1).1
  rw [rd_eq hlen, ok_bind]
  have : S.perm[c] = v := (List.getElem?_eq_some_iff.1 h1).2
  rw [this]
  refine groupCode_eq (LowerCsr.rowsOk h) (by rw [hl]; exact hP.ptr) (fun i hi => ?_) h2
  exact List.mem_range.1 (hP.nodes.mem_iff.1 (by rw [List.take_of_length_le (by omega)]; exact hi))

/-- **C113.** `Convert_LBCCSR_to_SpMP` hands the same matrix to SpMP, entry by entry, and sets the diagonal
data of every row that has a diagonal entry, for every order of the parallel loop and every content of
the new arrays. -/
theorem C113_convert {recip : V → V} {order : Nat → List Nat} {dp0 : List Nat} {id0 d0 : List V}
    {A : Sp V} {nnz : Nat} (h : A.WF) (hsq : A.rows = A.cols) (ho : (order A.cols).Perm (List.range A.cols))
    (h1 : dp0.length = A.cols) (h2 : id0.length = A.cols) (h3 : d0.length = A.cols)
    (hz : A.p.getD A.cols 0 ≤ nnz) (hi : nnz ≤ A.i.length) (hx : nnz ≤ A.x.length) :
    ∃ M, convertToSpmp recip order dp0 id0 d0 A nnz = ok M ∧ (M.sp A.cols).WF ∧
      (M.sp A.cols).entries = A.entries ∧
      ∀ r, r < A.cols → (r, r) ∈ A.coords → M.DiagOk recip r := by
  obtain ⟨M, e1, e2, e3, _, e5⟩ := convertToSpmp_spec h hsq ho h1 h2 h3 hz hi hx
  exact ⟨M, e1, e2, e3, e5⟩

/-- **C113.** `SpTrsv_LL_SpMP` from the matrices to the solution: `F` is the full matrix in compressed
rows, with a symmetric pattern and a full diagonal, that contains the dependences of `m`. -/
theorem C113_spmp (A : Arith V) {m : Mat V} (h : m.LowerCsr) {F : Sp V} {nnz : Nat} (hF : F.WF)
    (hsq : F.rows = F.cols) (hn : F.cols = m.n) (hsym : ∀ u v, (u, v) ∈ F.coords → (v, u) ∈ F.coords)
    (hdiag : ∀ r, r < F.cols → (r, r) ∈ F.coords) (hdep : ∀ u v, m.RowDep u v → (u, v) ∈ F.coords)
    (hz : F.p.getD F.cols 0 ≤ nnz) (hi : nnz ≤ F.i.length) (hx : nnz ≤ F.x.length)
    {E : SpmpEnv V} (hE : E.OrdersOk) {T : Nat} (hO : OracleOk E.spmp E.recip T) {b : List V}
    (hb : b.length = m.n) :
    ∃ S xs, buildSetSpmp E F nnz = ok S ∧ sptrsvCsr A m.n m.p m.i m.x b = ok xs ∧
      ∀ flags : List Nat, S.ntasks ≤ flags.length →
        AlwaysEnds (fun sch₀ sch => spmpSolve A S (.openmp T) m.p m.i m.x sch₀ sch flags b) xs := by
  obtain ⟨M, e1, e2, _, e4, e5⟩ := convertToSpmp_spec (recip := E.recip) hF hsq (hE.order'' F.cols)
    (hE.dp0 F.cols) (hE.d0 F.cols) (hE.d0 F.cols) hz hi hx
  have hok := hO F.cols M ⟨e2, by rw [e4]; exact hsym, fun r hr => e5 r hr (hdiag r hr)⟩
  rw [hn] at hok e4
  have hok' : (E.spmp M).Ok T m.n m.RowDep := hok.mono fun u v huv => by
    refine ⟨?_, by rw [e4]; exact hdep u v huv⟩
    obtain ⟨hv, l, hl⟩ := huv
    exact h.lower v hv _ hl
  obtain ⟨xs, hxs⟩ : ∃ xs, sptrsvCsr A m.n m.p m.i m.x b = ok xs := by
    obtain ⟨xs, hX⟩ := exists_solution (A := A) h hb
    exact ⟨xs, sptrsvCsr_spec h hb hX⟩
  refine ⟨E.spmp M, xs, by unfold buildSetSpmp; rw [e1, ok_bind], hxs, fun flags hf => ?_⟩
  obtain ⟨xs', h1, h2⟩ := C113_spmp_solve A h hok' hf hb
  rw [hxs] at h1
  cases h1
  exact h2

section
variable {K : Type} [Ring K] [LinearOrder K] [IsStrictOrderedRing K]
variable [Zero V] [One V]

/-- **C113.** `SpTrSv_LL_Tree_HDAGG_BFS_P2P` from the matrix to the solution, with a correct SpMP: either
all groups are on one path and HDAGG throws (C14), or every `build_set` that ends gives groups and a task
graph with which every execution by `T` threads ends and gives the result of the serial solve. -/
theorem C113_hdagg_p2p (A : Arith V) {m : Mat V} {g : Csc} (h : SolverInput m g) {e : Pipeline.Env K}
    (he : EnvOk e) (isLfactor binPack : Bool) {cores : Nat} (hcores : 1 ≤ cores) (nnz : Nat)
    {E : SpmpEnv V} (hE : E.OrdersOk) {T : Nat} (hO : OracleOk E.spmp E.recip T) {b : List V}
    (hb : b.length = m.n) :
    ∃ d G xs, Pipeline.groups false isLfactor true e m.n nnz g.p g.i m.p m.i = ok (d, G) ∧
      sptrsvCsr A m.n m.p m.i m.x b = ok xs ∧
      (G.OnOnePath (dagOf g.n d) → ∀ cc cc',
        buildSetP2P isLfactor binPack e E cc cc' cores m.n nnz g.p g.i m.p m.i = exn) ∧
      (¬ G.OnOnePath (dagOf g.n d) →
        (∀ cc cc', wpl (buildSetP2P isLfactor binPack e E cc cc' cores m.n nnz g.p g.i m.p m.i)
          (fun r => ∀ flags : List Nat, r.2.ntasks ≤ flags.length → AlwaysEnds (fun sch₀ sch =>
            p2pSolve A r.2 (.openmp T) r.1.ptr r.1.set m.p m.i m.x sch₀ sch flags b) xs)) ∧
        ∃ cc cc' r, buildSetP2P isLfactor binPack e E cc cc' cores m.n nnz g.p g.i m.p m.i = ok r) := by
  obtain ⟨d, G, xs, h1, _, h3, h4, h5⟩ := C49_tree_hdagg A h he isLfactor true binPack hcores nnz hb
  have hn : g.n = m.n := h.same.1
  have hrest : ∀ s : Sched, s.Valid m.n m.RowDep → ∃ r, (do
      let r ← Final.getFinalScheduleDAG false E.order E.order' m.n s g.p g.i
      let t ← dagTasks E r.2.1 r.2.2
      ok (r.1, t)) = ok r ∧ ∀ flags : List Nat, r.2.ntasks ≤ flags.length → AlwaysEnds (fun sch₀ sch =>
            p2pSolve A r.2 (.openmp T) r.1.ptr r.1.set m.p m.i m.x sch₀ sch flags b) xs := by
    intro s hs
    have hdep : g.Dep = m.RowDep := by
      funext u v; exact propext (h.same.2 u v)
    obtain ⟨G', r, e1, e2, e3, e4, _, e6, e7, e8, e9, _, _⟩ := Final.C75_final_dag h.wf h.oneDiag
      (s := s) (by rw [hn, hdep]; exact hs) false hE.order hE.order'
    rw [hn] at e1 e2 e4
    have hpos : 0 < G'.num := by
      rcases Nat.eq_zero_or_pos G'.num with h0 | h0
      · have a1 := e2.ptr.first
        have a2 := e2.ptr.last
        rw [h0, a1] at a2
        have := Option.some.inj a2
        have := h.pos
        omega
      · exact h0
    obtain ⟨M, m1, m2, m3⟩ := dagTasks_spec hE e7 e8 hpos
    refine ⟨(G', E.spmp M), by
      rw [e1, ok_bind]
      dsimp only
      have m1' : dagTasks E r.1 r.2 = ok (E.spmp M) := m1
      rw [m1', ok_bind], ?_⟩
    intro flags hf
    have hok := (hO G'.num M m2).mono (dep' := G'.Dep g) (fun u v huv =>
      ⟨e6 u v huv, m3 u v ((e9 u v).2 huv)⟩)
    have hlen : G'.set.length = m.n := by
      rw [e4]; simpa using hs.complete.length_eq
    have hnode : ∀ k, k < m.n → s.nodes[k]? = G'.set[k]? := by
      intro k hk
      rw [e4, List.getElem?_take_of_lt hk]
    have hin : OrderedInside G' m := by
      intro j hj pre v post heq u hu hm
      have heq' : slice G'.set (G'.ptr.getD j 0) (G'.ptr.getD (j + 1) 0) = pre ++ v :: post := heq
      have hjle := e2.ptr.dle (b := j + 1) hj
      have hg : ∀ q x, (pre ++ v :: post)[q]? = some x → G'.ptr.getD j 0 + q < m.n ∧
          s.nodes[G'.ptr.getD j 0 + q]? = some x := by
        intro q x hq
        rw [← heq', getElem?_slice] at hq
        split at hq
        · rw [hnode _ (by omega)]
          exact ⟨by omega, hq⟩
        · cases hq
      have hmu : u ∈ pre ++ v :: post := by rw [← heq]; exact hm.2
      obtain ⟨q, hq⟩ := List.mem_iff_getElem?.1 hmu
      obtain ⟨a1, a2⟩ := hg q u hq
      obtain ⟨b1, b2⟩ := hg pre.length v (by simp)
      have := Exec.Sched.pos_lt hs hu a1 b1 a2 b2
      rw [List.getElem?_append_left (by omega)] at hq
      exact List.mem_of_getElem? hq
    obtain ⟨xs', k1, k2⟩ := C113_p2p_solve A h.lower h.same e2 hlen hin hok hf hb
    rw [h3] at k1
    cases k1
    exact k2
  refine ⟨d, G, xs, h1, h3, fun hp cc cc' => ?_, fun hp => ⟨fun cc cc' => ?_, ?_⟩⟩
  · unfold buildSetP2P
    rw [h4 hp cc cc']; rfl
  · unfold buildSetP2P
    rcases wpl_iff.1 ((h5 hp).1 cc cc') with hx | ⟨s, hx, hv, _⟩
    · rw [hx]; exact wpl_iff.2 (.inl rfl)
    · obtain ⟨r, hr, hr'⟩ := hrest s hv
      rw [hx, ok_bind, hr]
      exact wpl_iff.2 (.inr ⟨r, rfl, hr'⟩)
  · obtain ⟨cc, cc', s, hx⟩ := (h5 hp).2
    rcases wpl_iff.1 ((h5 hp).1 cc cc') with hx' | ⟨s', hx', hv, _⟩
    · rw [hx] at hx'; cases hx'
    · obtain ⟨r, hr, _⟩ := hrest s' hv
      exact ⟨cc, cc', r, by unfold buildSetP2P; rw [hx', ok_bind, hr]⟩

end

/-! ### Where the code fails -/

theorem rd_oob {α : Type} {l : List α} {i : Nat} (h : l.length ≤ i) : rd l i = ub := by
  unfold rd
  rw [List.getElem?_eq_none h]

theorem clear_none (sch flags : List Nat) :
    Mach.runSched clearStep sch [(⟨[], ()⟩ : Mach.Thr Nat Unit)] flags = ok ([⟨[], ()⟩], flags) := by
  induction sch with
  | nil => rfl
  | cons t sch ih =>
    unfold Mach.runSched
    rcases t with _ | t
    · exact ih
    · exact ih

theorem threadCodes_ub {f : Nat → Res (List (PIns V))} {T T' : Nat} (hlt : T < T')
    (h : ∀ t, t < T → ∃ c, f t = ok c) (hub : f T = ub) : threadCodes f (List.range T') = ub := by
  have e : List.range T' = List.range T ++ (T :: List.range' (T + 1) (T' - T - 1)) := by
    rw [List.range_eq_range', List.range_eq_range', ← List.range'_succ,
      show T' - T - 1 + 1 = T' - T by omega]
    have := List.range'_append_1 (s := 0) (m := T) (n := T' - T)
    rw [Nat.zero_add, show T + (T' - T) = T' by omega] at this
    exact this.symm
  choose! c hc using h
  have h1 := threadCodes_eq (f := f) (c := c) (List.range T) (fun t ht => hc t (List.mem_range.1 ht))
  unfold threadCodes at h1 ⊢
  rw [e, forEach_append, h1, ok_bind, forEach, hub]
  rfl

/-- **C113** (finding): with more threads than the task graph was made for, every execution that gets past
the first barrier reads behind the end of `threadBoundaries`. -/
theorem C113_larger_team (A : Arith V) {m : Mat V} (h : m.LowerCsr) {S : TaskGraph} {T T' : Nat}
    (hS : S.Ok T m.n m.RowDep) (hlen : S.threadBoundaries.length = T + 1) (hT : T < T') (flags : List Nat)
    (hf : S.ntasks ≤ flags.length) (sch₀ sch : List Nat) (b : List V) :
    spmpSolve A S (.openmp T') m.p m.i m.x sch₀ sch flags b = ub ∨
      spmpSolve A S (.openmp T') m.p m.i m.x sch₀ sch flags b = nofuel := by
  have hlt : ∀ u v, m.RowDep u v → u < m.n := by
    rintro u v ⟨hv, l, hl⟩
    have := h.lower v hv _ hl
    have : u < v := this
    omega
  have hG := planOf_good (S := S) (T := T) hS (nodesOk_rows hlt)
  have hcode := fun t ht => threadCode_eq hS (LowerCsr.rowsOk h) (fun t ht i hi => hG.mem_row_lt ht hi)
    (body := fun c => do
      let row ← rd S.perm c
      rowCode m.p m.i m.x row) (fun c hc => by
        obtain ⟨v, h1, h2⟩ := perm_get hS hc
        refine ⟨v, h1, ?_⟩
        have hlen : c < S.perm.length := (List.getElem?_eq_some_iff.1 h1).1
        rw [rd_eq hlen, ok_bind]
        have : S.perm[c] = v := (List.getElem?_eq_some_iff.1 h1).2
        rw [this, rowCode_rowI (LowerCsr.rowsOk h) h2]
        simp [code]) (t := t) ht
  have hub := threadCodes_ub (f := threadCode S fun c => do
      let row ← rd S.perm c
      rowCode m.p m.i m.x row) hT (fun t ht => ⟨_, hcode t ht⟩) (by
    unfold threadCode
    rw [rd_eq (by omega), ok_bind, rd_oob (by omega)]
    rfl)
  unfold spmpSolve region
  rw [clearCodes_eq, ok_bind]
  obtain ⟨ths', flags', g1, _⟩ := clear_run sch₀ (((List.range T').map (clearList S.ntasks T')).map
    (fun c => (⟨c, ()⟩ : Mach.Thr Nat Unit))) flags (by
      intro th hth k hk
      rw [List.map_map] at hth
      obtain ⟨t, _, rfl⟩ := List.mem_map.1 hth
      have := clearList_lt hk
      omega)
  unfold Mach.parFor
  rw [show Team.tids (.openmp T') = List.range T' from rfl, show Team.size (.openmp T') = T' from rfl, g1,
    ok_bind]
  dsimp only
  by_cases hall : (ths'.all fun th => th.code.isEmpty) = true
  · left
    rw [if_pos hall, ok_bind, hub]
    rfl
  · right
    rw [if_neg hall]
    rfl

/-- **C113** (finding): without OpenMP the region uses thread number one of one thread.  It clears no flag,
and for a task graph made for one thread it reads behind the end of `threadBoundaries`, whatever the
matrix. -/
theorem C113_no_openmp (A : Arith V) {S : TaskGraph} (hlen : S.threadBoundaries.length ≤ 2)
    (Lp Li : List Nat) (Lx : List V) (sch₀ sch flags : List Nat) (b : List V) :
    spmpSolve A S .noOpenmp Lp Li Lx sch₀ sch flags b = ub ∧
    ∀ gp gs, p2pSolve A S .noOpenmp gp gs Lp Li Lx sch₀ sch flags b = ub := by
  have key : ∀ body : Nat → Res (List (Instr V)), region A S body 1 [1] sch₀ sch flags b = ub := by
    intro body
    have h1 : threadCode S body 1 = ub := by
      unfold threadCode
      by_cases h : 1 < S.threadBoundaries.length
      · rw [rd_eq h, ok_bind, rd_oob (by omega)]; rfl
      · rw [rd_oob (by omega)]; rfl
    have h2 : clearCode S.ntasks 1 1 = ok [] := by
      unfold clearCode
      simp
    unfold region clearCodes
    rw [forEach, h2]
    simp only [ok_bind, forEach, List.nil_append]
    unfold Mach.parFor
    rw [List.map_cons, List.map_nil, clear_none, ok_bind]
    simp only [List.all_cons, List.isEmpty_nil, List.all_nil, Bool.and_self, if_true, ok_bind]
    unfold threadCodes
    rw [forEach, h1]
    rfl
  exact ⟨key _, fun gp gs => key _⟩

/-! ### Examples -/

/-- Two threads: the first has the rows 0 and 2, the second the rows 1 and 3.  Row 2 waits for row 1. -/
def exTasks : TaskGraph := ⟨4, [0, 1, 0, 0], [[], [2], [], []], [0, 2, 4], [0, 1, 2, 3, 4], [0, 2, 1, 3]⟩

theorem exTreeMat_dep {u v : Nat} (h : exTreeMat.RowDep u v) :
    (u = 0 ∧ v = 2) ∨ (u = 1 ∧ v = 2) ∨ (u = 1 ∧ v = 3) :=
  exTree_dep.1 ((exTree_solver.same.2 u v).2 h)

theorem exTasks_before {a b : Nat} (h : exTasks.Before 2 a b) :
    (a = 0 ∧ b = 1) ∨ (a = 2 ∧ b = 3) ∨ (a = 2 ∧ b = 1) := by
  cases h with
  | @thread t _ _ ht ha hb hab =>
    have hp : PtrOk exTasks.threadBoundaries 2 4 := PtrOk.mk' (by decide) rfl rfl (by decide)
    rw [hp.inBlock_iff ht] at ha hb
    have : t = 0 ∨ t = 1 := by omega
    rcases this with rfl | rfl <;> simp [exTasks] at ha hb <;> omega
  | @parent _ _ k np l hb h1 h2 hk h3 =>
    have hb : b < 4 := hb
    have : b = 0 ∨ b = 1 ∨ b = 2 ∨ b = 3 := by omega
    rcases this with rfl | rfl | rfl | rfl <;> simp [exTasks] at h1 h2 <;> subst h1 <;> subst h2
    · omega
    · have : k = 0 := by omega
      subst this
      simp at h3
      omega
    · omega
    · omega

theorem exTasks_ok : exTasks.Ok 2 4 exTreeMat.RowDep where
  thr := PtrOk.mk' (by decide) rfl rfl (by decide)
  tsk := PtrOk.mk' (by decide) rfl rfl (by decide)
  perm := by decide
  par t ht := by
    have ht : t < 4 := ht
    have : t = 0 ∨ t = 1 ∨ t = 2 ∨ t = 3 := by omega
    rcases this with rfl | rfl | rfl | rfl
    · exact ⟨0, [], rfl, rfl, fun k hk => by omega⟩
    · refine ⟨1, [2], rfl, rfl, fun k hk => ?_⟩
      have : k = 0 := by omega
      subst this
      exact ⟨2, rfl, by decide⟩
    · exact ⟨0, [], rfl, rfl, fun k hk => by omega⟩
    · exact ⟨0, [], rfl, rfl, fun k hk => by omega⟩
  dep u v huv t t' c c' ht ht' hc hu hc' hv := by
    right
    have hp : PtrOk exTasks.taskBoundaries 4 4 := PtrOk.mk' (by decide) rfl rfl (by decide)
    have ht : t < 4 := ht
    have ht' : t' < 4 := ht'
    rw [hp.inBlock_iff ht] at hc
    rw [hp.inBlock_iff ht'] at hc'
    have key : ∀ t c, t < 4 → exTasks.taskBoundaries.getD t 0 ≤ c ∧ c < exTasks.taskBoundaries.getD (t + 1) 0 →
        c = t := by
      intro t c ht hc
      have : t = 0 ∨ t = 1 ∨ t = 2 ∨ t = 3 := by omega
      rcases this with rfl | rfl | rfl | rfl <;> simp [exTasks] at hc <;> omega
    have e1 := key t c ht hc
    have e2 := key t' c' ht' hc'
    subst e1 e2
    have hT : ∀ c v, c < 4 → exTasks.perm[c]? = some v → (v = 0 → c = 0) ∧ (v = 2 → c = 1) ∧
        (v = 1 → c = 2) ∧ (v = 3 → c = 3) := by
      intro c v hc h
      have : c = 0 ∨ c = 1 ∨ c = 2 ∨ c = 3 := by omega
      rcases this with rfl | rfl | rfl | rfl <;> simp [exTasks] at h <;> omega
    obtain ⟨a0, a2, a1, a3⟩ := hT c u ht hu
    obtain ⟨b0, b2, b1, b3⟩ := hT c' v ht' hv
    rcases exTreeMat_dep huv with ⟨rfl, rfl⟩ | ⟨rfl, rfl⟩ | ⟨rfl, rfl⟩
    · rw [a0 rfl, b2 rfl]
      exact .single (.thread (t := 0) (by omega) ⟨0, 2, rfl, rfl, by omega, by omega⟩
        ⟨0, 2, rfl, rfl, by omega, by omega⟩ (by omega))
    · rw [a1 rfl, b2 rfl]
      exact .single (.parent (k := 0) (np := 1) (l := [2]) (by decide) rfl rfl (by omega) rfl)
    · rw [a1 rfl, b3 rfl]
      exact .single (.thread (t := 1) (by omega) ⟨2, 4, rfl, rfl, by omega, by omega⟩
        ⟨2, 4, rfl, rfl, by omega, by omega⟩ (by omega))
  acyclic t h := by
    have key : ∀ a b, TransGen (exTasks.Before 2) a b → a = 0 ∨ a = 2 := by
      intro a b h
      induction h using TransGen.head_induction_on with
      | single h => rcases exTasks_before h with h | h | h <;> omega
      | head h _ _ => rcases exTasks_before h with h | h | h <;> omega
    have key' : ∀ a b, TransGen (exTasks.Before 2) a b → b = 1 ∨ b = 3 := by
      intro a b h
      induction h with
      | single h => rcases exTasks_before h with h | h | h <;> omega
      | tail _ h _ => rcases exTasks_before h with h | h | h <;> omega
    have := key t t h
    have := key' t t h
    omega

def exSolve : Arith Int := ⟨fun a l y => a - l * y, fun a d => a / d⟩

/-- The second thread is scheduled late: the first one waits for it. -/
example : ∃ xs, sptrsvCsr exSolve 4 exTreeMat.p exTreeMat.i exTreeMat.x [2, 6, 10, 28] = ok xs ∧
    AlwaysEnds (fun sch₀ sch => spmpSolve exSolve exTasks (.openmp 2) exTreeMat.p exTreeMat.i exTreeMat.x
      sch₀ sch [1, 1, 1, 1] [2, 6, 10, 28]) xs :=
  C113_spmp_solve exSolve exTree_solver.lower exTasks_ok (by decide) rfl

example : spmpSolve exSolve exTasks (.openmp 2) exTreeMat.p exTreeMat.i exTreeMat.x
    [0, 0, 1, 1] ((List.replicate 20 0) ++ (List.replicate 20 1) ++ (List.replicate 20 0)) [1, 1, 1, 1]
    [2, 6, 10, 28]
    = sptrsvCsr exSolve 4 exTreeMat.p exTreeMat.i exTreeMat.x [2, 6, 10, 28] := by decide +kernel

/-- The diagonal matrix with the entries 2 and 3. -/
def exDiag : Mat Int := ⟨2, [0, 1, 2], [0, 1], [2, 3]⟩

/-- Two threads with one row each. -/
def exTwo : TaskGraph := ⟨2, [0, 0], [[], []], [0, 1, 2], [0, 1, 2], [0, 1]⟩

theorem exTwo_before {a b : Nat} (h : exTwo.Before 2 a b) : False := by
  cases h with
  | @thread t _ _ ht ha hb hab =>
    have hp : PtrOk exTwo.threadBoundaries 2 2 := PtrOk.mk' (by decide) rfl rfl (by decide)
    rw [hp.inBlock_iff ht] at ha hb
    have : t = 0 ∨ t = 1 := by omega
    rcases this with rfl | rfl <;> simp [exTwo] at ha hb <;> omega
  | @parent _ _ k np l hb h1 h2 hk h3 =>
    have hb : b < 2 := hb
    have : b = 0 ∨ b = 1 := by omega
    rcases this with rfl | rfl <;> cases h1 <;> omega

theorem exTwo_ok : exTwo.Ok 2 2 exDiag.RowDep where
  thr := PtrOk.mk' (by decide) rfl rfl (by decide)
  tsk := PtrOk.mk' (by decide) rfl rfl (by decide)
  perm := by decide
  par t ht := by
    have ht : t < 2 := ht
    have : t = 0 ∨ t = 1 := by omega
    rcases this with rfl | rfl
    · exact ⟨0, [], rfl, rfl, fun k hk => by omega⟩
    · exact ⟨0, [], rfl, rfl, fun k hk => by omega⟩
  dep u v huv := by
    obtain ⟨hv, l, hl⟩ := huv
    have hv : v < 2 := hv
    have : v = 0 ∨ v = 1 := by omega
    rcases this with rfl | rfl <;> simp [exDiag, Mat.off, Mat.row, Mat.pat, Csc.ptr] at hl
  acyclic t h := by
    cases h with
    | single h => exact exTwo_before h
    | tail _ h => exact exTwo_before h

/-- **C113** (finding): with fewer threads than the task graph was made for, the tasks of the missing threads
are left out without an error: row 1 is never solved. -/
theorem C113_smaller_team : exTwo.Ok 2 exDiag.n exDiag.RowDep ∧
    spmpSolve exSolve exTwo (.openmp 1) exDiag.p exDiag.i exDiag.x [0, 0] (List.replicate 10 0) [0, 0] [2, 6]
      = ok [1, 6] ∧
    sptrsvCsr exSolve 2 exDiag.p exDiag.i exDiag.x [2, 6] = ok [1, 2] :=
  ⟨exTwo_ok, by decide +kernel, by decide +kernel⟩

example (sch₀ sch : List Nat) : spmpSolve exSolve exTwo (.openmp 3) exDiag.p exDiag.i exDiag.x sch₀ sch [0, 0]
      [2, 6] = ub ∨
    spmpSolve exSolve exTwo (.openmp 3) exDiag.p exDiag.i exDiag.x sch₀ sch [0, 0] [2, 6] = nofuel :=
  C113_larger_team exSolve (m := exDiag) (by
    refine ⟨⟨⟨by decide, by decide, by decide, by decide, by decide⟩, by decide⟩, ?_, ?_⟩
    · intro r hr
      have hr : r < 2 := hr
      have : r = 0 ∨ r = 1 := by omega
      rcases this with rfl | rfl
      · exact ⟨2, by decide⟩
      · exact ⟨3, by decide⟩
    · intro r hr
      have hr : r < 2 := hr
      have : r = 0 ∨ r = 1 := by omega
      rcases this with rfl | rfl <;> decide) exTwo_ok rfl (by decide) _ (by decide) _ _ _

/-- A correct, if useless, SpMP: one task, given to the first thread. -/
def oneTask (T : Nat) (M : SpmpMat V) : TaskGraph :=
  ⟨1, [0], [[]], 0 :: List.replicate T 1, [0, M.rowptr.length - 1], List.range (M.rowptr.length - 1)⟩

theorem oneTask_ok (recip : V → V) {T : Nat} (hT : 0 < T) : OracleOk (oneTask T) recip T := by
  intro n M hM
  have hn : M.rowptr.length - 1 = n := by
    have : M.rowptr.length = n + 1 := hM.wf.plen
    omega
  have hblk : ∀ t a, t < T → InBlock (0 :: List.replicate T 1) t a → a = 0 := by
    rintro t a ht ⟨lo, hi, h1, h2, h3, h4⟩
    rw [List.getElem?_cons_succ, List.getElem?_replicate, if_pos ht] at h2
    cases h2
    omega
  have hb : ∀ a b, (oneTask T M).Before T a b → False := by
    intro a b h
    cases h with
    | @thread t _ _ ht ha hb hab =>
      have := hblk t b ht hb
      omega
    | @parent _ _ k np l hb h1 h2 hk h3 =>
      have hb : b < 1 := hb
      have : b = 0 := by omega
      subst this
      cases h1
      omega
  refine ⟨⟨rfl, ?_, ?_⟩, ⟨rfl, ?_, ?_⟩, ?_, ?_, ?_, ?_⟩
  · show (0 :: List.replicate T 1)[T]? = some 1
    obtain ⟨k, rfl⟩ : ∃ k, T = k + 1 := ⟨T - 1, by omega⟩
    rw [List.getElem?_cons_succ, List.getElem?_replicate, if_pos (by omega)]
  · intro b hb lo hi h1 h2
    have h2 : (0 :: List.replicate T 1)[b + 1]? = some hi := h2
    rw [List.getElem?_cons_succ, List.getElem?_replicate, if_pos hb] at h2
    cases h2
    have h1 : (0 :: List.replicate T 1)[b]? = some lo := h1
    have : lo ∈ 0 :: List.replicate T 1 := List.mem_of_getElem? h1
    simp at this
    omega
  · show [0, M.rowptr.length - 1][1]? = some n
    rw [hn]; rfl
  · intro b hb lo hi h1 h2
    have hb : b < 1 := hb
    have : b = 0 := by omega
    subst this
    cases h1
    exact Nat.zero_le _
  · show ((List.range (M.rowptr.length - 1)).take n).Perm _
    rw [hn, List.take_of_length_le (by simp)]
  · intro t ht
    have ht : t < 1 := ht
    have : t = 0 := by omega
    subst this
    exact ⟨0, [], rfl, rfl, fun k hk => by omega⟩
  · rintro u v ⟨huv, _⟩ t t' c c' ht ht' hc hu hc' hv
    have ht : t < 1 := ht
    have ht' : t' < 1 := ht'
    have key : ∀ c u : Nat, (oneTask T M).perm[c]? = some u → c = u := by
      intro c u h
      have h : (List.range (M.rowptr.length - 1))[c]? = some u := h
      have hl := (List.getElem?_eq_some_iff.1 h).1
      rw [List.length_range] at hl
      rw [List.getElem?_range hl] at h
      exact Option.some.inj h
    have := key c u hu
    have := key c' v hv
    exact .inl ⟨by omega, by omega⟩
  · intro t h
    cases h with
    | single h => exact hb _ _ h
    | tail _ h => exact hb _ _ h

def exSpmpEnv : SpmpEnv Int := ⟨oneTask 2, id, List.range, List.range, List.range, fun k => List.replicate k 7,
  fun k => List.replicate k 9⟩

theorem exSpmpEnv_ok : exSpmpEnv.OrdersOk :=
  ⟨fun _ => List.Perm.refl _, fun _ => List.Perm.refl _, fun _ => List.Perm.refl _, fun _ => by simp [exSpmpEnv],
    fun _ => by simp [exSpmpEnv]⟩

example : ∃ d G xs, Pipeline.groups false false true exEnv exTreeMat.n 7 exTree.p exTree.i exTreeMat.p exTreeMat.i
      = ok (d, G) ∧
    sptrsvCsr exSolve exTreeMat.n exTreeMat.p exTreeMat.i exTreeMat.x [2, 6, 10, 28] = ok xs ∧
    (G.OnOnePath (dagOf exTree.n d) → ∀ cc cc',
      buildSetP2P false true exEnv exSpmpEnv cc cc' 2 exTreeMat.n 7 exTree.p exTree.i exTreeMat.p exTreeMat.i = exn) ∧
    (¬ G.OnOnePath (dagOf exTree.n d) →
      (∀ cc cc', wpl (buildSetP2P false true exEnv exSpmpEnv cc cc' 2 exTreeMat.n 7 exTree.p exTree.i exTreeMat.p
          exTreeMat.i)
        (fun r => ∀ flags : List Nat, r.2.ntasks ≤ flags.length → AlwaysEnds (fun sch₀ sch =>
          p2pSolve exSolve r.2 (.openmp 2) r.1.ptr r.1.set exTreeMat.p exTreeMat.i exTreeMat.x sch₀ sch flags
            [2, 6, 10, 28]) xs)) ∧
      ∃ cc cc' r, buildSetP2P false true exEnv exSpmpEnv cc cc' 2 exTreeMat.n 7 exTree.p exTree.i exTreeMat.p
        exTreeMat.i = ok r) :=
  C113_hdagg_p2p exSolve exTree_solver exEnv_ok false true (by decide) 7 exSpmpEnv_ok
    (oneTask_ok id (by decide)) rfl

def exPair : Grouping := ⟨2, [0, 2, 4], [0, 2, 1, 3]⟩

/-- The second thread has the rows 0 and 2 and waits for the first thread, which has 1 and 3. -/
def exPairTasks : TaskGraph := ⟨2, [0, 1], [[], [0]], [0, 1, 2], [0, 1, 2], [1, 0]⟩

theorem exPair_ordered : OrderedInside exPair exTreeMat := by
  intro j hj pre v post heq u hu hm
  have hj : j < 2 := hj
  have : j = 0 ∨ j = 1 := by omega
  have hmem := hm.2
  rcases this with rfl | rfl <;> rcases exTreeMat_dep hu with ⟨rfl, rfl⟩ | ⟨rfl, rfl⟩ | ⟨rfl, rfl⟩ <;>
    simp [exPair, groupRows] at heq hmem <;> rcases pre with _ | ⟨a, _ | ⟨b, pre⟩⟩ <;> simp_all

theorem exPairTasks_before {a b : Nat} (h : exPairTasks.Before 2 a b) : a = 0 ∧ b = 1 := by
  cases h with
  | @thread t _ _ ht ha hb hab =>
    have hp : PtrOk exPairTasks.threadBoundaries 2 2 := PtrOk.mk' (by decide) rfl rfl (by decide)
    rw [hp.inBlock_iff ht] at ha hb
    have : t = 0 ∨ t = 1 := by omega
    rcases this with rfl | rfl <;> simp [exPairTasks] at ha hb <;> omega
  | @parent _ _ k np l hb h1 h2 hk h3 =>
    have hb : b < 2 := hb
    have : b = 0 ∨ b = 1 := by omega
    rcases this with rfl | rfl <;> simp [exPairTasks] at h1 h2 <;> subst h1 <;> subst h2
    · omega
    · have : k = 0 := by omega
      subst this
      simp at h3
      omega

theorem exPair_dep {a b : Nat} (h : exPair.Dep exTree a b) : a = 1 ∧ b = 0 := by
  obtain ⟨hne, u, v, ⟨ha, hu⟩, ⟨hb, hv⟩, hd⟩ := h
  rw [exTree_dep] at hd
  have ha : a < 2 := ha
  have hb : b < 2 := hb
  have h1 : a = 0 ∨ a = 1 := by omega
  have h2 : b = 0 ∨ b = 1 := by omega
  rcases h1 with rfl | rfl <;> rcases h2 with rfl | rfl <;> simp [exPair, groupRows] at hu hv <;> omega

theorem exPairTasks_ok : exPairTasks.Ok 2 2 (exPair.Dep exTree) where
  thr := PtrOk.mk' (by decide) rfl rfl (by decide)
  tsk := PtrOk.mk' (by decide) rfl rfl (by decide)
  perm := by decide
  par t ht := by
    have ht : t < 2 := ht
    have : t = 0 ∨ t = 1 := by omega
    rcases this with rfl | rfl
    · exact ⟨0, [], rfl, rfl, fun k hk => by omega⟩
    · refine ⟨1, [0], rfl, rfl, fun k hk => ?_⟩
      have : k = 0 := by omega
      subst this
      exact ⟨0, rfl, by decide⟩
  dep u v huv t t' c c' ht ht' hc hu hc' hv := by
    right
    have hp : PtrOk exPairTasks.taskBoundaries 2 2 := PtrOk.mk' (by decide) rfl rfl (by decide)
    have ht : t < 2 := ht
    have ht' : t' < 2 := ht'
    rw [hp.inBlock_iff ht] at hc
    rw [hp.inBlock_iff ht'] at hc'
    obtain ⟨rfl, rfl⟩ := exPair_dep huv
    have h1 : t = 0 ∨ t = 1 := by omega
    have h2 : t' = 0 ∨ t' = 1 := by omega
    have e1 : c = t := by rcases h1 with rfl | rfl <;> simp [exPairTasks] at hc <;> omega
    have e2 : c' = t' := by rcases h2 with rfl | rfl <;> simp [exPairTasks] at hc' <;> omega
    subst e1 e2
    rcases h1 with rfl | rfl <;> rcases h2 with rfl | rfl <;> simp [exPairTasks] at hu hv
    exact .single (.parent (k := 0) (np := 1) (l := [0]) (by decide) rfl rfl (by omega) rfl)
  acyclic t h := by
    have key : ∀ a b, TransGen (exPairTasks.Before 2) a b → a = 0 := by
      intro a b h
      induction h using TransGen.head_induction_on with
      | single h => exact (exPairTasks_before h).1
      | head h _ _ => exact (exPairTasks_before h).1
    have key' : ∀ a b, TransGen (exPairTasks.Before 2) a b → b = 1 := by
      intro a b h
      cases h with
      | single h => exact (exPairTasks_before h).2
      | tail _ h => exact (exPairTasks_before h).2
    have := key t t h
    have := key' t t h
    omega

example : ∃ xs, sptrsvCsr exSolve 4 exTreeMat.p exTreeMat.i exTreeMat.x [2, 6, 10, 28] = ok xs ∧
    AlwaysEnds (fun sch₀ sch => p2pSolve exSolve exPairTasks (.openmp 2) exPair.ptr exPair.set exTreeMat.p
      exTreeMat.i exTreeMat.x sch₀ sch [5, 5] [2, 6, 10, 28]) xs :=
  C113_p2p_solve exSolve (g := exTree) exTree_solver.lower exTree_solver.same
    ⟨PtrOk.mk' (by decide) rfl rfl (by decide), by decide⟩ rfl exPair_ordered exPairTasks_ok (by decide) rfl

/-- The symmetric matrix with the lower triangle of `exTreeMat`, with an unused place at the end. -/
def exFull : Sp Int := ⟨4, 4, [0, 2, 5, 8, 10], [0, 2, 1, 2, 3, 0, 1, 2, 1, 3, 0],
  [2, 1, 3, 1, 5, 1, 1, 4, 5, 6, 0]⟩

theorem exFull_wf : exFull.WF where
  plen := rfl
  p0 := rfl
  mono := by decide
  bound := by decide
  range := by decide
  xlen := by decide

example : ∃ S xs, buildSetSpmp exSpmpEnv exFull 11 = ok S ∧
    sptrsvCsr exSolve exTreeMat.n exTreeMat.p exTreeMat.i exTreeMat.x [2, 6, 10, 28] = ok xs ∧
    ∀ flags : List Nat, S.ntasks ≤ flags.length → AlwaysEnds (fun sch₀ sch =>
      spmpSolve exSolve S (.openmp 2) exTreeMat.p exTreeMat.i exTreeMat.x sch₀ sch flags [2, 6, 10, 28]) xs := by
  refine C113_spmp exSolve exTree_solver.lower (F := exFull) exFull_wf rfl rfl ?_ ?_ ?_ (by decide) (by decide)
    (by decide) exSpmpEnv_ok (T := 2) (oneTask_ok id (by decide)) rfl
  · have : ∀ e ∈ exFull.coords, (e.2, e.1) ∈ exFull.coords := by decide
    exact fun u v h => this (u, v) h
  · intro r hr
    have : ∀ r ∈ List.range 4, (r, r) ∈ exFull.coords := by decide
    exact this r (List.mem_range.2 hr)
  · intro u v h
    rcases exTreeMat_dep h with ⟨rfl, rfl⟩ | ⟨rfl, rfl⟩ | ⟨rfl, rfl⟩ <;> decide

/-- The diagonal data of the last row: its entry is the tenth. -/
example : (convertToSpmp (· + 100) List.range [7, 7, 7, 7] [9, 9, 9, 9] [9, 9, 9, 9] exFull 10 >>=
    fun M => ok (M.diagptr, M.idiag, M.diag)) = ok ([0, 2, 7, 9], [102, 103, 104, 106], [2, 3, 4, 6]) := by
  decide +kernel

end P2P
end Verif
