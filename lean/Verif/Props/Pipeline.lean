import Verif.Model.Pipeline
import Verif.Proof.Pipeline
import Verif.Props.Sparsify
import Verif.Props.Etree
import Verif.Props.TreeGroup
import Verif.Props.GroupDag
import Verif.Props.Cost
import Verif.Props.Hdagg
import Verif.Props.Ungroup
import Verif.Props.Exec

/-!
# C49, C50: the grouped solvers from the matrix to the solution

The theorems put together C21/C22 or C47 (the graph), C46 (the groups), C23 (the graph of groups),
C48 (the costs), C14/C15 (HDAGG), C25 (un-grouping), C02 (level sets) and C06/C09 (the solvers).
-/

namespace Verif
open Res Relation Pipeline Hdagg Verif.Group Etree Sparsify Cost Exec

/-- The environment of a run: at least one thread, every order a permutation of the iterations, every
sequence of racing writes a permutation of the writes, and a division of costs that keeps positive
costs positive. -/
structure EnvOk {K : Type} [AddCommGroup K] [LinearOrder K] (e : Env K) : Prop where
  bins : 0 < e.bins
  writes : ∀ l, (e.writes l).Perm l
  order : ∀ k, (e.order k).Perm (List.range k)
  order₂ : ∀ k, (e.order₂ k).Perm (List.range k)
  order₃ : ∀ k, (e.order₃ k).Perm (List.range k)
  order₄ : ∀ k, (e.order₄ k).Perm (List.range k)
  order₅ : ∀ k, (e.order₅ k).Perm (List.range k)
  rdiv : RDivOk e.rdiv

/-- The two forms of the matrix handed to a solver object: `m` in rows, lower triangular with the
diagonal last, and the pattern `g` in columns with the diagonal first. -/
structure SolverInput {V : Type} (m : Mat V) (g : Csc) : Prop where
  lower : m.LowerCsr
  same : Mat.SameDeps g m
  wf : g.WF
  oneDiag : g.OneDiag
  diagFirst : g.DiagFirst
  pos : 0 < m.n

/-- The graph chosen by the solver. -/
def dagOf (n : Nat) (d : List Nat × List Nat) : Csc := ⟨n, d.1, d.2⟩

theorem Mat.row_zip {V : Type} (m : Mat V) (r : Nat) : m.row r = (m.pat.col r).zip
    ((m.x.drop (m.pat.ptr r)).take (m.pat.ptr (r + 1) - m.pat.ptr r)) := by
  unfold Mat.row Csc.col List.zip
  rw [List.drop_zipWith, List.take_zipWith]
  rfl

namespace SolverInput
variable {V : Type} {m : Mat V} {g : Csc}

theorem dep_lt (h : SolverInput m g) {u v : Nat} (hd : g.Dep u v) : u < v := by
  obtain ⟨hv, l, hl⟩ := (h.same.2 u v).1 hd
  exact h.lower.lower v hv _ hl

theorem lowerG (h : SolverInput m g) : g.Lower := by
  intro u hu v hv
  by_cases huv : u = v
  · omega
  · exact (h.dep_lt ⟨hu, hv, huv⟩).le

theorem acyclic (h : SolverInput m g) : g.Acyclic := by
  intro v hv
  have : ∀ a b, TransGen g.Dep a b → a < b := by
    intro a b hab
    induction hab with
    | single hd => exact h.dep_lt hd
    | tail _ hd ih => exact ih.trans (h.dep_lt hd)
  exact absurd (this v v hv) (lt_irrefl _)

theorem rowEntry (h : SolverInput m g) {u v : Nat} (hd : g.Dep u v) : m.pat.RowEntry v u := by
  obtain ⟨hv, l, hl⟩ := (h.same.2 u v).1 hd
  refine ⟨hv, ?_⟩
  have := List.dropLast_subset _ hl
  rw [Mat.row_zip] at this
  exact (List.of_mem_zip this).1

theorem rowNe (h : SolverInput m g) {u : Nat} (hu : u < m.pat.n) : m.pat.col u ≠ [] := by
  obtain ⟨d, hd⟩ := h.lower.diag u hu
  have := List.mem_of_getLast? hd
  rw [Mat.row_zip] at this
  exact List.ne_nil_of_mem (List.of_mem_zip this).1

theorem colNe (h : SolverInput m g) {u : Nat} (hu : u < g.n) : g.col u ≠ [] :=
  List.ne_nil_of_mem (List.count_pos_iff.1 (by rw [h.oneDiag u hu]; omega))

end SolverInput

/-- What the first half of `build_set` guarantees: a graph whose paths include all dependences, and
a partition into non-empty groups without cyclic dependences, each a tree. -/
structure GroupsOk (g : Csc) (d : List Nat × List Nat) (G : Grouping) : Prop where
  input : GroupInput (dagOf g.n d)
  diagFirst : (dagOf g.n d).DiagFirst
  covers : ∀ u v, g.Dep u v → TransGen (dagOf g.n d).Dep u v
  part : G.Partition g.n
  nonEmpty : G.NonEmpty
  acyclic : G.AcyclicQuotient (dagOf g.n d)
  setLen : G.set.length = g.n
  tree : G.TreeLike (dagOf g.n d)

section
variable {V K : Type} [Ring K] [LinearOrder K]

/-- **C49, first half.** Every solver finds groups. -/
theorem C49_groups {m : Mat V} {g : Csc} (h : SolverInput m g) {e : Env K} (he : EnvOk e)
    (debug isLfactor bfs : Bool) (nnz : Nat) :
    ∃ d G, groups debug isLfactor bfs e m.n nnz g.p g.i m.p m.i = ok (d, G) ∧ GroupsOk g d G := by
  have hn : g.n = m.n := h.same.1
  have hd : ∃ d, (if isLfactor then buildETree debug m.n m.p m.i
      else partialSparsification debug (.openmp e.bins) e.writes (e.order m.n) true m.n nnz
        g.p g.i [] []) = ok d ∧ GroupInput (dagOf g.n d) ∧ (dagOf g.n d).DiagFirst ∧
      ∀ u v, g.Dep u v → TransGen (dagOf g.n d).Dep u v := by
    cases isLfactor with
    | true =>
      obtain ⟨r, h1, h2, h3, _⟩ := C47_etree (g := m.pat) h.lower.wf.pat h.pos debug
      obtain ⟨r', h1', h4⟩ := C47_etree_covers (g := m.pat) h.lower.wf.pat debug
      obtain rfl : r = r' := Res.ok.inj (h1.symm.trans h1')
      refine ⟨r, h1, ?_, ?_, ?_⟩
      · rw [hn]; exact h2
      · rw [hn]; exact h3
      · intro u v huv
        rw [hn]
        exact h4 v u (.entry (h.dep_lt huv) (h.rowEntry huv))
    | false =>
      have hs : SparsifyHyp g e.bins e.writes (e.order g.n) [] :=
        ⟨h.wf, h.oneDiag, h.diagFirst, h.acyclic, by rw [hn]; exact h.pos, he.bins, he.writes,
          he.order g.n, rfl⟩
      obtain ⟨r, h1, h2⟩ := C21_sparsification_reachability hs debug true (nnz := nnz)
        (fun h => by cases h)
      obtain ⟨r', h1', h3, h4, h5, h6, h7⟩ := C22_sparsification_removes hs debug true (nnz := nnz)
        (fun h => by cases h)
      obtain rfl : r = r' := Res.ok.inj (h1.symm.trans h1')
      refine ⟨r, by rw [← hn]; exact h1, ⟨h3, h5, ?_, by rw [show (dagOf g.n r).n = g.n from rfl, hn]; exact h.pos, h7⟩, h4, ?_⟩
      · intro u hu v hv
        exact h.lowerG u hu v ((h6 u hu).subset hv)
      · intro u v huv
        exact (h2 u v).1 (TransGen.single huv)
  obtain ⟨d, h1, h2, h3, h4⟩ := hd
  have hG : ∃ G, (if bfs then treeBasedGroupingBFS debug isLfactor e.q m.n d.1 d.2
      else treeBasedGrouping debug isLfactor e.q e.order₂ m.n d.1 d.2) = ok G ∧
      G.Partition g.n ∧ G.NonEmpty ∧ G.AcyclicQuotient (dagOf g.n d) ∧ G.set.length = g.n ∧ G.TreeLike (dagOf g.n d) := by
    rw [← hn]
    cases bfs with
    | true =>
      obtain ⟨G, a, b, c, d, _, _, t, e⟩ := C46_tree_grouping_bfs h2 debug isLfactor e.q
      exact ⟨G, a, b, c, d, e, t⟩
    | false =>
      obtain ⟨G, a, b, c, d, _, _, t, e⟩ := C46_tree_grouping h2 debug isLfactor e.q he.order₂
      exact ⟨G, a, b, c, d, e, t⟩
  obtain ⟨G, a1, a2, a3, a4, a5, a6⟩ := hG
  refine ⟨d, G, ?_, h2, h3, h4, a2, a3, a4, a5, a6⟩
  unfold groups
  rw [h1, ok_bind, a1, ok_bind]

theorem GroupsOk.num_pos {g : Csc} {d : List Nat × List Nat} {G : Grouping} (h : GroupsOk g d G) :
    0 < G.num := by
  obtain ⟨j, hj, _⟩ := h.part.exists h.input.pos
  omega

/-- The graph of the groups. -/
theorem GroupsOk.dag {g : Csc} {d : List Nat × List Nat} {G : Grouping} (h : GroupsOk g d G)
    {order order' : List Nat} (ho : order.Perm (List.range G.num))
    (ho' : order'.Perm (List.range G.num)) :
    ∃ r, buildGroupDAG order order' g.n G.num G.ptr G.set d.1 d.2 = ok r ∧
      (groupGraph G.num r).WF ∧ (groupGraph G.num r).OneDiag ∧ (groupGraph G.num r).Acyclic ∧
      (∀ a b, (groupGraph G.num r).Dep a b ↔ G.Dep (dagOf g.n d) a b) ∧
      ((∃ v, (groupGraph G.num r).IsDepth v (G.num - 1)) ↔ G.OnOnePath (dagOf g.n d)) := by
  obtain ⟨r, h1, h2, h3, h4, _⟩ := C23_group_dependences (g := dagOf g.n d) h.input.wf
    h.input.oneDiag h.part h.nonEmpty ho ho'
  have hacy : (groupGraph G.num r).Acyclic := fun a ha =>
    h.acyclic a (TransGen.mono (fun a b => (h4 a b).1) _ _ ha)
  refine ⟨r, h1, h2, h3, hacy, h4, ?_⟩
  have := Csc.isDepth_last_iff h2 hacy h.num_pos
  refine this.trans ?_
  constructor
  · rintro ⟨l, e1, e2⟩
    exact ⟨l, e1, e2.imp fun a b => (h4 a b).1⟩
  · rintro ⟨l, e1, e2⟩
    exact ⟨l, e1, e2.imp fun a b => (h4 a b).2⟩

end

/-- If every row uses the unknown before it, one path visits all groups. -/
theorem GroupsOk.onOnePath {g : Csc} {d : List Nat × List Nat} {G : Grouping} (h : GroupsOk g d G)
    (hsub : ∀ i, i + 1 < g.n → g.Dep i (i + 1)) : G.OnOnePath (dagOf g.n d) := by
  have hlt : ∀ {u v}, (dagOf g.n d).Dep u v → u < v := by
    intro u v huv
    have := h.input.lower u huv.1 v huv.2.1
    have := huv.2.2
    omega
  have hdir : ∀ i, i + 1 < g.n → (dagOf g.n d).Dep i (i + 1) := by
    intro i hi
    obtain ⟨c, h1, h2⟩ := TransGen.head'_iff.1 (h.covers i (i + 1) (hsub i hi))
    have hc := hlt h1
    have : c ≤ i + 1 := by
      clear h1 hc
      generalize i + 1 = w at h2
      induction h2 with
      | refl => exact le_rfl
      | tail _ hd ih => exact ih.trans (hlt hd).le
    rwa [show c = i + 1 by omega] at h1
  have key : ∀ k, k < g.n → ∃ l : List Nat, l.IsChain (G.Dep (dagOf g.n d)) ∧
      (∃ j, l.getLast? = some j ∧ G.Mem k j) ∧ ∀ j, j ∈ l ↔ ∃ i, i ≤ k ∧ G.Mem i j := by
    intro k
    induction k with
    | zero =>
      intro h0
      obtain ⟨j, hj⟩ := h.part.exists h0
      refine ⟨[j], by simp, ⟨j, rfl, hj⟩, ?_⟩
      intro j'
      rw [List.mem_singleton]
      constructor
      · rintro rfl; exact ⟨0, le_rfl, hj⟩
      · rintro ⟨i, hi, hm⟩
        obtain rfl : i = 0 := by omega
        exact h.part.unique hm hj
    | succ k ih =>
      intro hk
      obtain ⟨l, h1, ⟨j, h2, h3⟩, h4⟩ := ih (by omega)
      obtain ⟨j', hj'⟩ := h.part.exists hk
      by_cases hjj : j = j'
      · subst hjj
        refine ⟨l, h1, ⟨j, h2, hj'⟩, ?_⟩
        intro a
        rw [h4]
        constructor
        · rintro ⟨i, hi, hm⟩; exact ⟨i, by omega, hm⟩
        · rintro ⟨i, hi, hm⟩
          by_cases hik : i = k + 1
          · subst hik
            obtain rfl := h.part.unique hm hj'
            exact ⟨k, le_rfl, h3⟩
          · exact ⟨i, by omega, hm⟩
      · refine ⟨l ++ [j'], ?_, ⟨j', by simp, hj'⟩, ?_⟩
        · rw [List.isChain_append]
          refine ⟨h1, by simp, ?_⟩
          intro x hx y hy
          rw [h2] at hx
          simp only [Option.mem_def, Option.some.injEq, List.head?_cons] at hx hy
          subst hx hy
          exact ⟨hjj, k, k + 1, h3, hj', hdir k hk⟩
        · intro a
          rw [List.mem_append, List.mem_singleton, h4]
          constructor
          · rintro (⟨i, hi, hm⟩ | rfl)
            · exact ⟨i, by omega, hm⟩
            · exact ⟨k + 1, le_rfl, hj'⟩
          · rintro ⟨i, hi, hm⟩
            by_cases hik : i = k + 1
            · subst hik
              exact .inr (h.part.unique hm hj')
            · exact .inl ⟨i, by omega, hm⟩
  have hpos : 0 < g.n := h.input.pos
  obtain ⟨l, h1, _, h4⟩ := key (g.n - 1) (by omega)
  refine ⟨l, ?_, h1⟩
  have hnd : l.Nodup := by
    refine List.Pairwise.imp ?_ (List.isChain_iff_pairwise.1 (h1.imp fun _ _ h => TransGen.single h))
    rintro a b hab rfl
    exact h.acyclic a hab
  rw [List.perm_ext_iff_of_nodup hnd List.nodup_range]
  intro j
  rw [h4, List.mem_range]
  constructor
  · rintro ⟨_, _, hm⟩; exact hm.1
  · intro hj
    obtain ⟨i, hi⟩ := List.exists_mem_of_ne_nil _ (h.nonEmpty j hj)
    have := h.part.mem_lt ⟨hj, hi⟩
    exact ⟨i, by omega, hj, hi⟩

section
variable {V K : Type} [Ring K] [LinearOrder K] [IsStrictOrderedRing K]

/-- **C49.** `SpTrSv_LL_Tree_HDAGG` and `SpTrSv_LL_Tree_HDAGG_BFS`, with or without `isLfactor` and
bin packing.  If one dependence path visits all groups, `build_set` throws.
Otherwise no run has an out-of-bounds access or throws, some run completes, and the
schedule of every completed run is valid for the matrix; the parallel solve with it gives the
values of the serial solve for every interleaving. -/
theorem C49_tree_hdagg (A : Arith V) {m : Mat V} {g : Csc} (h : SolverInput m g) {e : Env K}
    (he : EnvOk e) (isLfactor bfs binPack : Bool) {cores : Nat} (hcores : 1 ≤ cores) (nnz : Nat)
    {b : List V} (hb : b.length = m.n) :
    ∃ d G xs, groups false isLfactor bfs e m.n nnz g.p g.i m.p m.i = ok (d, G) ∧
      GroupsOk g d G ∧ sptrsvCsr A m.n m.p m.i m.x b = ok xs ∧
      (G.OnOnePath (dagOf g.n d) → ∀ cc cc',
        treeHdagg false isLfactor bfs binPack e cc cc' cores m.n nnz g.p g.i m.p m.i = exn) ∧
      (¬ G.OnOnePath (dagOf g.n d) →
        (∀ cc cc', wpl (treeHdagg false isLfactor bfs binPack e cc cc' cores m.n nnz g.p g.i m.p m.i)
          (fun s => s.Valid m.n m.RowDep ∧
            AlwaysGives (fun sch => sptrsvLbc A m.p m.i m.x s sch b) xs)) ∧
        ∃ cc cc' s, treeHdagg false isLfactor bfs binPack e cc cc' cores m.n nnz g.p g.i m.p m.i
          = ok s) := by
  have hn : g.n = m.n := h.same.1
  obtain ⟨d, G, h1, hG⟩ := C49_groups h he false isLfactor bfs nnz
  obtain ⟨xs, hS⟩ := exists_solution (A := A) h.lower hb
  obtain ⟨r, h2, h3, h4, h5, h6, h7⟩ := hG.dag (he.order₃ G.num) (he.order₄ G.num)
  have hcost := C48_group_costs h.wf h.lower.wf.pat hn.symm hG.part .spTrSvLL
    (fun h => by cases h) (he.order₅ G.num) (cost0 := List.replicate G.num 0)
    (by have := hG.num_pos; intro hc; simp at hc; omega)
  obtain ⟨cost, hce⟩ : ∃ cost, cost = (List.range G.num).map fun j =>
    ((groupRows G.ptr G.set j).map (Kernel.spTrSvLL.work g m.pat)).sum := ⟨_, rfl⟩
  rw [← hce] at hcost
  have hrun : ∀ cc cc', treeHdagg false isLfactor bfs binPack e cc cc' cores m.n nnz g.p g.i m.p m.i
      = (hdagg false e.rdiv e.accept cc cc'
          ⟨G.num, r.1, r.2, cost.map (fun c : Nat => (c : K)), cores, false, binPack⟩ >>= fun s =>
        ungroup false m.n s.2 G.ptr G.set (if bfs then some d else none) true false) := by
    intro cc cc'
    unfold treeHdagg
    rw [h1, ok_bind]
    dsimp only
    rw [← hn, h2, ok_bind]
    change (costComputation (e.order₅ G.num) G.num g.p g.i m.pat.p m.pat.i _ _ _ _ _ >>= _) = _
    rw [hcost, ok_bind]
  refine ⟨d, G, xs, h1, hG, sptrsvCsr_spec h.lower hb hS, ?_, ?_⟩
  · intro hone cc cc'
    rw [hrun, C14_hdagg_throws_on_chains (g := groupGraph G.num r) h3 h4 (.inr (h7.2 hone)) false
      e.rdiv rfl e.accept cc cc']
    rfl
  · intro hone
    have hH : HdaggHyp (groupGraph G.num r) e.rdiv
        ⟨G.num, r.1, r.2, cost.map (fun c : Nat => (c : K)), cores, false, binPack⟩ := by
      refine ⟨rfl, h3, h4, h5, fun hd => hone (h7.1 hd), ?_, ?_, hcores, he.rdiv, fun h => by cases h⟩
      · simp [hce, groupGraph]
      · intro c hc
        dsimp only at hc
        obtain ⟨w, hw, rfl⟩ := List.mem_map.1 hc
        rw [hce] at hw
        obtain ⟨j, hj, rfl⟩ := List.mem_map.1 hw
        rw [List.mem_range] at hj
        obtain ⟨v, l, hv⟩ := List.exists_cons_of_ne_nil (hG.nonEmpty j hj)
        have hvn := hG.part.mem_lt (v := v) ⟨hj, by rw [hv]; simp⟩
        have := C48_work_pos h.wf h.lower.wf.pat hn.symm (fun u hu => h.colNe hu)
          (fun u hu => h.rowNe hu) .spTrSvLL hvn
        rw [hv, List.map_cons, List.sum_cons]
        exact Nat.cast_pos.2 (by omega)
    have hug : ∀ s : Sched, s.PtrsOk G.num → s.Complete G.num →
        s.Together (groupGraph G.num r).Dep →
        ∃ s', ungroup false m.n s G.ptr G.set (if bfs then some d else none) true false = ok s' ∧
          s'.Valid m.n m.RowDep := by
      intro s a1 a2 a3
      obtain ⟨s', b1, b2⟩ := C25_ungroup_sorted (g := dagOf g.n d) hG.input.wf hG.input.lower hG.part
        (s := s) ⟨a1, a2, fun u v huv => a3 u v ((h6 u v).2 huv)⟩ false (if bfs then some d else none)
      refine ⟨s', by rw [← hn]; exact b1, ?_⟩
      have := b2.of_trans (E := g.Dep) (fun u v huv => (hG.input.wf.dep_lt huv).2) hG.covers
      rw [← hn]
      exact ⟨this.ptrs, this.complete, fun u v huv => this.respects u v ((h.same.2 u v).2 huv)⟩
    have hall := C14_hdagg_complete hH e.accept
    constructor
    · intro cc cc'
      rw [hrun, wpl_bind]
      have t := C15_hdagg_together hH e.accept cc cc'
      have c := hall.1 cc cc'
      rw [wpl_iff] at t c ⊢
      rcases c with hs | ⟨s, hs, c1, c2⟩
      · exact .inl hs
      · rcases t with hs' | ⟨s', hs', t⟩
        · rw [hs] at hs'; cases hs'
        · obtain rfl : s = s' := Res.ok.inj (hs.symm.trans hs')
          refine .inr ⟨s, hs, ?_⟩
          obtain ⟨s', b1, b2⟩ := hug s.2 c1 c2 t
          rw [b1, wpl_ok]
          refine ⟨b2, ?_⟩
          obtain ⟨xs', x1, x2⟩ := C06_lbc_solve_eq_serial A h.lower b2 hb
          rw [sptrsvCsr_spec h.lower hb hS] at x1
          rw [Res.ok.inj x1]
          exact x2
    · obtain ⟨cc, cc', s, hs⟩ := hall.2
      refine ⟨cc, cc', ?_⟩
      have t := C15_hdagg_together hH e.accept cc cc'
      have c := hall.1 cc cc'
      rw [hs, wpl_ok] at t c
      obtain ⟨s', b1, b2⟩ := hug s.2 c.1 c.2 t
      exact ⟨s', by rw [hrun, hs, ok_bind]; exact b1⟩

/-- Finding: for every matrix in which each row uses the unknown before it (dense, tridiagonal and
other banded matrices), the grouped HDAGG solvers throw in every run. -/
theorem C49_banded_matrices_throw {m : Mat V} {g : Csc} (h : SolverInput m g) {e : Env K}
    (he : EnvOk e) (hsub : ∀ i, i + 1 < m.n → m.RowDep i (i + 1)) (isLfactor bfs binPack : Bool)
    {cores : Nat} (hcores : 1 ≤ cores) (nnz : Nat) (cc cc' : Orac) :
    treeHdagg false isLfactor bfs binPack e cc cc' cores m.n nnz g.p g.i m.p m.i = exn := by
  obtain ⟨x, hx⟩ : ∃ x : V, True := by
    obtain ⟨d, hd⟩ := h.lower.diag 0 h.pos
    exact ⟨d, trivial⟩
  obtain ⟨d, G, xs, _, hG, _, h1, _⟩ := C49_tree_hdagg ⟨fun a _ _ => a, fun a _ => a⟩ h he isLfactor
    bfs binPack hcores nnz (b := List.replicate m.n x) (by simp)
  exact h1 (hG.onOnePath fun i hi => (h.same.2 _ _).2 (hsub i (by rw [← h.same.1]; exact hi))) cc cc'

/-- Sorting the members of each group. -/
private theorem sortGroups_wp {G : Grouping} {n : Nat} (hG : G.Partition n) (hl : G.set.length = n) :
    wp (forRange 0 G.num (fun g set => do
      let lo ← rd G.ptr g
      let hi ← rd G.ptr (g + 1)
      sortRange set lo hi) G.set) (fun set => set.length = n ∧
        (⟨G.num, G.ptr, set⟩ : Grouping).Partition n ∧ ∀ j, j < G.num →
          (groupRows G.ptr set j).Perm (groupRows G.ptr G.set j) ∧
          (groupRows G.ptr set j).Pairwise (· ≤ ·)) := by
  have hp : PtrOk G.ptr G.num G.set.length := by rw [hl]; exact hG.ptr
  refine wp_mono (blocks_loop (R := (· ≤ ·)) hp ?_) ?_
  · intro t ht l hperm
    rw [(hG.rd_lo ht).1, ok_bind, (hG.rd_lo ht).2, ok_bind]
    exact sortRange_spec (hp.dmono ht) (by rw [hperm.length_eq]; exact hp.dle ht)
  · rintro set ⟨h1, h2⟩
    have hsl : set.length = n := by rw [h1.length_eq, hl]
    refine ⟨hsl, ⟨hG.ptr, ?_⟩, h2⟩
    have h3 := hG.nodes
    rw [List.take_of_length_le (by omega)] at h3
    show (set.take n).Perm _
    rw [List.take_of_length_le (by omega)]
    exact h1.trans h3

/-- **C50.** `SpTrSv_LL_Tree_Wavefront_No_unPACK`: `build_set` always completes, also in a
debug build.  If no dependence path visits all groups, the parallel solve gives the values of the
serial solve for every interleaving.  Otherwise `nlevels` is `-1` and the solve returns the
right-hand side. -/
theorem C50_tree_wavefront_partial {K : Type} [Ring K] [LinearOrder K] (A : Arith V) {m : Mat V} {g : Csc}
    (h : SolverInput m g) {e : Env K} (he : EnvOk e) (debug : Bool) (nnz : Nat) {b : List V}
    (hb : b.length = m.n) :
    ∃ d G xs w, groups debug false false e m.n nnz g.p g.i m.p m.i = ok (d, G) ∧ GroupsOk g d G ∧
      sptrsvCsr A m.n m.p m.i m.x b = ok xs ∧
      treeWavefront debug e m.n nnz g.p g.i m.p m.i = ok w ∧
      (¬ G.OnOnePath (dagOf g.n d) →
        AlwaysGives (fun sch => sptrsvGroupLevelset A m.p m.i m.x w.nlevels.toNat w.levelPtr w.levelSet
          w.groupPtr w.groupSet sch b) xs) ∧
      (G.OnOnePath (dagOf g.n d) → w.nlevels = -1 ∧ ∀ sch,
        sptrsvGroupLevelset A m.p m.i m.x w.nlevels.toNat w.levelPtr w.levelSet
          w.groupPtr w.groupSet sch b = ok b) := by
  have hn : g.n = m.n := h.same.1
  obtain ⟨d, G, h1, hG⟩ := C49_groups h he debug false false nnz
  obtain ⟨xs, hS⟩ := exists_solution (A := A) h.lower hb
  obtain ⟨r, h2, h3, h4, h5, h6, h7⟩ := hG.dag (he.order₃ G.num) (he.order₄ G.num)
  obtain ⟨set, h8, h9, h10, h11⟩ := wp_iff.1 (sortGroups_wp hG.part hG.setLen)
  obtain ⟨o, ho, h12⟩ := LevelSet.buildLevelSet_ok h3 h4
  obtain ⟨o', ho', h13, _⟩ := C04_error_code_exact h3 h4
  obtain rfl : o = o' := Res.ok.inj (ho.symm.trans ho')
  refine ⟨d, G, xs, ⟨o.ret, o.levelPtr, o.levelSet, G.ptr, set⟩, h1, hG,
    sptrsvCsr_spec h.lower hb hS, ?_, ?_, ?_⟩
  · unfold treeWavefront
    rw [h1, ok_bind]
    dsimp only
    rw [← hn, h2, ok_bind]
    change (LevelSet.buildLevelSet (groupGraph G.num r).n (groupGraph G.num r).p
      (groupGraph G.num r).i >>= _) = _
    rw [ho, ok_bind, h8, ok_bind]
  · intro hone
    rcases h12 with ⟨L, hL, hO⟩ | ⟨hr, _⟩
    · have hsl : o.levelSet.length = G.num := hO.setLen
      have hp : PtrOk o.levelPtr L G.num :=
        PtrOk.mk' hO.ptrLen hO.ptr0 hO.ptrL
          (fun b hb => le_of_lt (hO.strict b hb))
      obtain ⟨G', hG'⟩ : ∃ G' : Grouping, G' = ⟨G.num, G.ptr, set⟩ := ⟨_, rfl⟩
      have hmem : ∀ u j, G'.Mem u j ↔ G.Mem u j := by
        intro u j
        subst hG'
        constructor
        · rintro ⟨hj, hu⟩; exact ⟨hj, (h11 j hj).1.mem_iff.1 hu⟩
        · rintro ⟨hj, hu⟩; exact ⟨hj, (h11 j hj).1.mem_iff.2 hu⟩
      have hval : ((Sched.ofLevels L o.levelPtr o.levelSet).expand G.ptr set).Valid m.n m.RowDep := by
        have hpart : PtrOk (Sched.ofLevels L o.levelPtr o.levelSet).partPtr G.num G.num := by
          refine PtrOk.mk' (by simp [Sched.ofLevels, hsl]) (by simp [Sched.ofLevels]) ?_ ?_
          · simp [Sched.ofLevels, hsl]
          · intro t ht
            simp only [Sched.ofLevels, hsl]
            rw [getD_range (by omega), getD_range (by omega)]
            omega
        have hpt : ∀ t, t ≤ G.num → (Sched.ofLevels L o.levelPtr o.levelSet).partPtr.getD t 0 = t := by
          intro t ht
          simp only [Sched.ofLevels, hsl]
          rw [getD_range (by omega)]
        have hcomp : (Sched.ofLevels L o.levelPtr o.levelSet).Complete G.num := by
          show (o.levelSet.take G.num).Perm _
          rw [List.take_of_length_le hsl.le]
          exact hO.perm
        have hexp : (Sched.ofLevels L o.levelPtr o.levelSet).expand G.ptr set
            = ⟨L, o.levelPtr, unpackPtr (Sched.ofLevels L o.levelPtr o.levelSet) G' G.num,
              unpackedTo (Sched.ofLevels L o.levelPtr o.levelSet) G' G.num⟩ := by
          subst hG'
          unfold Sched.expand unpackPtr
          congr 1
          · simp only [Sched.ofLevels, hsl]
            apply List.map_congr_left
            intro k hk
            rw [List.mem_range] at hk
            rw [getD_range (by omega)]
            rfl
          · show _ = (o.levelSet.take G.num).flatMap _
            rw [List.take_of_length_le hsl.le]
            rfl
        have hrv := regroup_valid (g := dagOf g.n d) (G := G')
          (s := Sched.ofLevels L o.levelPtr o.levelSet) (parts := G.num) (R := (· ≤ ·))
          (l := unpackedTo (Sched.ofLevels L o.levelPtr o.levelSet) G' G.num) hG.input.wf
          (by subst hG'; exact h10) hp (by subst hG'; exact hpart) (by subst hG'; exact hcomp) ?_
          (by subst hG'; exact .refl _) ?_ ?_
        · rw [hexp]
          have := hrv.of_trans (E := g.Dep) (fun u v huv => (hG.input.wf.dep_lt huv).2) hG.covers
          rw [← hn]
          exact ⟨this.ptrs, this.complete, fun u v huv => this.respects u v ((h.same.2 u v).2 huv)⟩
        · intro a c hac l q k l' q' k' hx hy
          left
          have hdep : (groupGraph G.num r).Dep a c := by
            rw [h6]
            obtain ⟨hne, u, v, hu, hv, huv⟩ := hac
            exact ⟨hne, u, v, (hmem u a).1 hu, (hmem v c).1 hv, huv⟩
          obtain ⟨o', ho', h'⟩ := C02_levels_respect_dependences h3 h4
          obtain rfl : o = o' := Res.ok.inj (ho.symm.trans ho')
          obtain ⟨L', hL', _, h''⟩ := h' (by omega)
          obtain rfl : L' = L := by omega
          have hin : ∀ a l q k, (Sched.ofLevels L' o.levelPtr o.levelSet).At a l q k →
              InLevel o.levelPtr o.levelSet l a := by
            rintro a l q k ⟨hl, hq, hk, ha⟩
            refine ⟨k, ?_, ha⟩
            have hq : InBlock o.levelPtr l q := hq
            rw [hp.inBlock_iff hl] at hq
            have hqn : q < G.num := by have := hp.dle (b := l + 1) hl; omega
            rw [hpart.inBlock_iff hqn, hpt q (by omega), hpt (q + 1) (by omega)] at hk
            rw [show k = q by omega]
            exact (hp.inBlock_iff hl).2 hq
          exact h'' a c l l' hdep hx.1 hy.1 (hin _ _ _ _ hx) (hin _ _ _ _ hy)
        · intro t ht
          refine ⟨by subst hG'; exact .refl _, ?_⟩
          rw [unpackPtr_getD _ _ ht.le, unpackPtr_getD _ _ ht, hpt t ht.le, hpt (t + 1) ht,
            unpackedTo_slice _ _ (Nat.le_succ t) ht]
          have hgt := getElem?_getD (l := o.levelSet) 0 (j := t) (by omega)
          rw [show slice (Sched.ofLevels L o.levelPtr o.levelSet).nodes t (t + 1)
            = [o.levelSet.getD t 0] from by
              show slice o.levelSet t (t + 1) = _
              unfold slice
              rw [Nat.add_sub_cancel_left, List.take_one, List.head?_drop, hgt]
              rfl, List.flatMap_singleton]
          subst hG'
          exact (h11 _ (List.mem_range.1 (hO.perm.mem_iff.1 (List.mem_of_getElem? hgt)))).2
        · intro u v huv hvu
          have := hG.input.lower u huv.1 v huv.2.1
          exact huv.2.2 (by omega)
      obtain ⟨xs', x1, x2⟩ := C09_group_levelset_eq_serial A h.lower (levels := L)
        (levelPtr := o.levelPtr) (levelSet := o.levelSet) (groupPtr := G.ptr) (groupSet := set)
        (ngroups := G.num) (by rw [h9]; exact hG.part.ptr)
        (by
          intro i hi
          have := h10.nodes.mem_iff.1 (by rw [List.take_of_length_le h9.le]; exact hi)
          rw [← hn]; exact List.mem_range.1 this)
        (by rw [hsl]; exact hp) (fun gr hgr => List.mem_range.1 (hO.perm.mem_iff.1 hgr)) hval hb
      rw [sptrsvCsr_spec h.lower hb hS] at x1
      rw [Res.ok.inj x1, hL]
      exact x2
    · exact absurd (h7.1 (by
        rcases h13.1 hr with hc | hc
        · exact absurd h5 hc
        · exact hc)) hone
  · intro hone
    have hr := h13.2 (.inr (h7.2 hone))
    refine ⟨hr, fun sch => ?_⟩
    dsimp only
    rw [hr]
    rfl

/-- Finding (the negation of C50): for every matrix in which each row uses the unknown before it,
`build_set` reports `-1` levels, this is not checked, and the solve returns the right-hand side. -/
theorem C50_banded_returns_rhs {K : Type} [Ring K] [LinearOrder K] (A : Arith V) {m : Mat V} {g : Csc}
    (h : SolverInput m g) {e : Env K} (he : EnvOk e) (hsub : ∀ i, i + 1 < m.n → m.RowDep i (i + 1))
    (debug : Bool) (nnz : Nat) {b : List V} (hb : b.length = m.n) :
    ∃ w, treeWavefront debug e m.n nnz g.p g.i m.p m.i = ok w ∧ w.nlevels = -1 ∧ ∀ sch,
      sptrsvGroupLevelset A m.p m.i m.x w.nlevels.toNat w.levelPtr w.levelSet
        w.groupPtr w.groupSet sch b = ok b := by
  obtain ⟨d, G, xs, w, _, hG, _, h1, _, h2⟩ := C50_tree_wavefront_partial A h he debug nnz hb
  have := h2 (hG.onOnePath fun i hi => (h.same.2 _ _).2 (hsub i (by rw [← h.same.1]; exact hi)))
  exact ⟨w, h1, this⟩

end

/-! ### Non-vacuity -/

/-- One thread, loops in order, costs not divided. -/
def exEnv : Env Int :=
  ⟨1, id, List.range, List.range, List.range, List.range, List.range, 1, fun a _ => a, fun _ _ => true⟩

theorem exEnv_ok : EnvOk exEnv where
  bins := by decide
  writes := fun _ => .refl _
  order := fun _ => .refl _
  order₂ := fun _ => .refl _
  order₃ := fun _ => .refl _
  order₄ := fun _ => .refl _
  order₅ := fun _ => .refl _
  rdiv := ⟨fun _ _ h _ => h, fun _ => rfl⟩

/-- The rows `[2]`, `[3]`, `[1 1 4]`, `[. 5 . 6]`: the matrix whose graph is `exTree`. -/
def exTreeMat : Mat Int := ⟨4, [0, 1, 2, 5, 7], [0, 1, 0, 1, 2, 1, 3], [2, 3, 1, 1, 4, 5, 6]⟩

private theorem exTree_cases {P : Nat → Prop} {r : Nat} (h : r < 4) (h0 : P 0) (h1 : P 1) (h2 : P 2)
    (h3 : P 3) : P r := by
  have : r = 0 ∨ r = 1 ∨ r = 2 ∨ r = 3 := by omega
  rcases this with rfl | rfl | rfl | rfl <;> assumption

theorem exTree_dep {u v : Nat} : exTree.Dep u v ↔ (u = 0 ∧ v = 2) ∨ (u = 1 ∧ v = 2) ∨ (u = 1 ∧ v = 3) := by
  constructor
  · rintro ⟨hu, hv, hne⟩
    have hu : u < 4 := hu
    have : u = 0 ∨ u = 1 ∨ u = 2 ∨ u = 3 := by omega
    rcases this with rfl | rfl | rfl | rfl <;> simp [exTree, Csc.col, Csc.ptr] at hv <;> omega
  · rintro (⟨rfl, rfl⟩ | ⟨rfl, rfl⟩ | ⟨rfl, rfl⟩) <;> exact ⟨by decide, by decide, by decide⟩

theorem exTree_solver : SolverInput exTreeMat exTree where
  lower := by
    refine ⟨⟨⟨by decide, by decide, by decide, by decide, by decide⟩, by decide⟩, ?_, ?_⟩
    · intro r hr
      refine exTree_cases (P := fun r => ∃ d, (exTreeMat.row r).getLast? = some (r, d)) hr
        ⟨2, by decide⟩ ⟨3, by decide⟩ ⟨4, by decide⟩ ⟨6, by decide⟩
    · intro r hr
      refine exTree_cases (P := fun r => ∀ e ∈ exTreeMat.off r, e.1 < r) hr
        (by decide) (by decide) (by decide) (by decide)
  same := by
    refine ⟨rfl, fun u v => ?_⟩
    rw [exTree_dep]
    constructor
    · rintro (⟨rfl, rfl⟩ | ⟨rfl, rfl⟩ | ⟨rfl, rfl⟩)
      · exact ⟨by decide, 1, by decide⟩
      · exact ⟨by decide, 1, by decide⟩
      · exact ⟨by decide, 5, by decide⟩
    · rintro ⟨hv, l, hl⟩
      have hv : v < 4 := hv
      have : v = 0 ∨ v = 1 ∨ v = 2 ∨ v = 3 := by omega
      rcases this with rfl | rfl | rfl | rfl <;>
        simp [exTreeMat, Mat.off, Mat.row, Mat.pat, Csc.ptr] at hl <;> omega
  wf := exTree_input.wf
  oneDiag := exTree_input.oneDiag
  diagFirst := by unfold Csc.DiagFirst; decide
  pos := by decide

/-- The three groups of `exTreeMat`, which are not on one path: C49 and C50 promise the values of the
serial solve. -/
example : ∃ d G, groups false false false exEnv 4 7 exTree.p exTree.i exTreeMat.p exTreeMat.i = ok (d, G) ∧
    G.num = 3 ∧ ¬ G.OnOnePath (dagOf 4 d) := by
  refine ⟨([0, 2, 5, 6, 7], [0, 2, 1, 2, 3, 2, 3]), ⟨3, [0, 2, 3, 4], [2, 0, 1, 3]⟩, by decide +kernel,
    rfl, ?_⟩
  have key : ∀ a b, (⟨3, [0, 2, 3, 4], [2, 0, 1, 3]⟩ : Grouping).Dep exTree a b → a = 1 := by
    rintro a b ⟨hne, u, v, ⟨ha, hu⟩, ⟨hb, hv⟩, hd⟩
    rw [exTree_dep] at hd
    have ha : a < 3 := ha
    have hb : b < 3 := hb
    have h1 : a = 0 ∨ a = 1 ∨ a = 2 := by omega
    have h2 : b = 0 ∨ b = 1 ∨ b = 2 := by omega
    rcases h1 with rfl | rfl | rfl <;> rcases h2 with rfl | rfl | rfl <;>
      simp [groupRows] at hu hv <;> omega
  rintro ⟨l, hp, hc⟩
  have hl : l.length = 3 := by simpa using hp.length_eq
  match l, hl with
  | [a, b, c], _ =>
    rw [List.isChain_cons_cons, List.isChain_cons_cons] at hc
    have e1 := key a b hc.1
    have e2 := key b c hc.2.1
    exact hc.1.1 (by rw [e1, e2])

example : treeHdagg false false false true exEnv exOrac exOrac 2 4 7 exTree.p exTree.i exTreeMat.p
    exTreeMat.i = ok ⟨1, [0, 2], [0, 4, 4], [0, 1, 2, 3]⟩ := by decide +kernel

/-- The rows `[1]`, `[1 1]`. -/
def exBand : Mat Int := ⟨2, [0, 1, 3], [0, 0, 1], [1, 1, 1]⟩

/-- The serial solve with right-hand side `(1, 3)` gives `(1, 2)`, the wavefront solver `(1, 3)`. -/
theorem C50_wrong_solution :
    sptrsvCsr ⟨fun a l y => a - l * y, fun a d => a / d⟩ 2 exBand.p exBand.i exBand.x [1, 3] = ok [1, 2] ∧
    ∃ w, treeWavefront false exEnv 2 3 [0, 2, 3] [0, 1, 1] exBand.p exBand.i = ok w ∧
      ∀ sch, sptrsvGroupLevelset ⟨fun a l y => a - l * y, fun a d => a / d⟩ exBand.p exBand.i exBand.x
        w.nlevels.toNat w.levelPtr w.levelSet w.groupPtr w.groupSet sch [1, 3] = ok [1, 3] :=
  ⟨by decide +kernel, ⟨-1, [0, 0], [0], [0, 2], [0, 1]⟩, by decide +kernel, fun _ => rfl⟩

end Verif
