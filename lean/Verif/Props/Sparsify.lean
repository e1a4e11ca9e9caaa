import Verif.Proof.Sparsify
import Verif.Props.PostOrder

/-!
# C21, C22: `partialSparsification`
-/

namespace Verif
open Res Relation Sparsify

/-- The graph with the arrays returned by `partialSparsification`. -/
def sparseGraph (n : Nat) (r : List Nat × List Nat) : Csc := ⟨n, r.1, r.2⟩

/-- The input graph and the environment of a run of `partialSparsification`: an acyclic graph with
one diagonal entry per column, stored first; a team of at least one thread; any order of the writes
to the shared array and any order of the parallel loop.  The result vectors come in empty; only
`DAG_ptr` may have a content, which must start with 0. -/
structure SparsifyHyp (g : Csc) (bins : Nat) (sched : List (Nat × Nat) → List (Nat × Nat))
    (order ptr0 : List Nat) : Prop where
  wf : g.WF
  oneDiag : g.OneDiag
  diagFirst : g.DiagFirst
  acyclic : g.Acyclic
  pos : 0 < g.n
  bins : 0 < bins
  sched : ∀ l, (sched l).Perm l
  order : order.Perm (List.range g.n)
  ptr0 : ptr0.getD 0 0 = 0

/-- In the variant without cliques the columns must be sorted, and `nnz` must count the entries. -/
def SlowOk (g : Csc) (clique : Bool) (nnz : Nat) : Prop :=
  clique = false → g.Sorted ∧ g.ptr g.n ≤ nnz

theorem sparsify_steps {g : Csc} {bins : Nat} {sched : List (Nat × Nat) → List (Nat × Nat)}
    {order ptr0 : List Nat} (h : SparsifyHyp g bins sched order ptr0) (debug clique : Bool) {nnz : Nat}
    (hs : SlowOk g clique nnz) :
    ∃ r, partialSparsification debug (.openmp bins) sched order clique g.n nnz g.p g.i ptr0 [] = ok r ∧
      ∃ m : Csc, m.n = g.n ∧ (∀ u, u < g.n → (m.col u).Sublist (g.col u)) ∧
        (g.Sorted → m.Sorted) ∧ (∀ u v, m.Dep u v → g.Dep u v) ∧
        (∀ u v, g.Dep u v → TransGen m.Dep u v) ∧ m.WF ∧ Reduced m (sparseGraph g.n r) := by
  cases clique with
  | true =>
    obtain ⟨ws, h1, h2⟩ := wp_iff.1 (allWrites_wp h.wf h.diagFirst debug h.bins)
    have h2' := h2.perm (h.sched ws)
    obtain ⟨nc, h3, h4, h5⟩ := wp_iff.1 (applyWrites_wp h2')
    obtain ⟨cp, h6, h7⟩ := wp_iff.1 (cliquePtr_wp h2' h.pos debug h4 h5)
    obtain ⟨e, h8, h9, h10⟩ := wp_iff.1 (noClique_wp h.wf h7)
    have ht := Thin.of_stored h.wf h.diagFirst h7 (h := ⟨g.n, e.ptr, e.set⟩) rfl h9
    have hd := ht.oneDiag h.oneDiag
    have hf := ht.diagFirst h.diagFirst
    obtain ⟨del, h11, h12⟩ := wp_iff.1 (markEdges_wp ht.wf hf hd h.order (cnt := e.cnt)
      (by rw [h10, ← ht.exact]))
    obtain ⟨r, h13, h14⟩ := wp_iff.1 (keepEdges_wp ht.wf (del := del) (ptr0 := ptr0)
      (by rw [h12.len, List.length_replicate, h10, ← ht.exact]) h.ptr0)
    refine ⟨r, ?_, ⟨g.n, e.ptr, e.set⟩, rfl, fun u hu => ht.sub h.diagFirst hu, ht.sorted h.diagFirst,
      fun u v => ht.dep h.diagFirst, fun u v => ht.reach g.n u v (by omega), ht.wf,
      Reduced.of_marked ht.wf hf hd h12 rfl h14⟩
    show withCliques _ _ _ _ _ _ _ _ _ _ = _
    unfold withCliques
    change (allWrites debug g.n g.p g.i bins (List.range bins) >>= _) = _
    rw [h1, ok_bind, h3, ok_bind, h6, ok_bind, h8, ok_bind]
    rw [h11, ok_bind, h13]
  | false =>
    obtain ⟨hs1, hs2⟩ := hs rfl
    obtain ⟨del, h1, h2⟩ := wp_iff.1 (slowMarks_wp h.wf h.diagFirst h.oneDiag hs1 h.order hs2)
    obtain ⟨r, h3, h4⟩ := wp_iff.1 (keepEdges_wp h.wf (del := del) (ptr0 := ptr0)
      (by rw [h2.len, List.length_replicate]; exact hs2) h.ptr0)
    refine ⟨r, ?_, g, rfl, fun _ _ => List.Sublist.refl _, fun h => h, fun _ _ h => h,
      fun _ _ h => TransGen.single h, h.wf, Reduced.of_marked h.wf h.diagFirst h.oneDiag h2 rfl h4⟩
    show slow _ _ _ _ _ _ _ = _
    unfold slow
    rw [h1, ok_bind, h3]

/-- **C21.** `partialSparsification` always returns, and in the returned graph a node depends on
another one, directly or through other nodes, exactly when it does in the input. -/
theorem C21_sparsification_reachability {g : Csc} {bins : Nat}
    {sched : List (Nat × Nat) → List (Nat × Nat)} {order ptr0 : List Nat}
    (h : SparsifyHyp g bins sched order ptr0) (debug clique : Bool) {nnz : Nat}
    (hs : SlowOk g clique nnz) :
    ∃ r, partialSparsification debug (.openmp bins) sched order clique g.n nnz g.p g.i ptr0 [] = ok r ∧
      g.SameReach (sparseGraph g.n r) := by
  obtain ⟨r, h1, m, hn, _, _, h4, h5, hwf, h6⟩ := sparsify_steps h debug clique hs
  refine ⟨r, h1, ?_⟩
  have hacy : m.Acyclic := fun v hv => h.acyclic v (TransGen.mono (fun a b => h4 a b) _ _ hv)
  have hstep : ∀ a b, g.Dep a b → TransGen (sparseGraph g.n r).Dep a b := by
    intro a b hab
    have : ∀ x y, TransGen m.Dep x y → TransGen (sparseGraph g.n r).Dep x y := by
      intro x y hxy
      induction hxy with
      | single hd => exact h6.reach hwf hacy hd
      | tail _ hd ih => exact TransGen.trans ih (h6.reach hwf hacy hd)
    exact this a b (h5 a b hab)
  intro u v
  constructor
  · intro huv
    induction huv with
    | single hd => exact hstep _ _ hd
    | tail _ hd ih => exact TransGen.trans ih (hstep _ _ hd)
  · refine TransGen.mono ?_ u v
    intro a b hab
    have ha : a < m.n := by rw [← h6.n]; exact hab.1
    exact h4 a b ⟨ha, (h6.sub a ha).subset hab.2.1, hab.2.2⟩

/-- **C22.** Every column of the returned graph is the column of the input with some entries left
out: the diagonal entry stays, and stays first, no edge is new, and sorted columns stay sorted.  The
returned arrays are exactly as long as needed. -/
theorem C22_sparsification_removes {g : Csc} {bins : Nat}
    {sched : List (Nat × Nat) → List (Nat × Nat)} {order ptr0 : List Nat}
    (h : SparsifyHyp g bins sched order ptr0) (debug clique : Bool) {nnz : Nat}
    (hs : SlowOk g clique nnz) :
    ∃ r, partialSparsification debug (.openmp bins) sched order clique g.n nnz g.p g.i ptr0 [] = ok r ∧
      (sparseGraph g.n r).WF ∧ (sparseGraph g.n r).DiagFirst ∧ (sparseGraph g.n r).OneDiag ∧
      (∀ u, u < g.n → ((sparseGraph g.n r).col u).Sublist (g.col u)) ∧
      r.2.length = (sparseGraph g.n r).ptr g.n := by
  obtain ⟨r, h1, m, hn, h2, h3, _, _, _, h6⟩ := sparsify_steps h debug clique hs
  have hsub : ∀ u, u < g.n → ((sparseGraph g.n r).col u).Sublist (g.col u) := fun u hu =>
    (h6.sub u (by omega)).trans (h2 u hu)
  refine ⟨r, h1, h6.wf, h6.diagFirst, ?_, hsub, h6.exact⟩
  intro u hu
  have hc := (hsub u hu).count_le u
  rw [h.oneDiag u hu] at hc
  have hmem : u ∈ (sparseGraph g.n r).col u := List.mem_of_head? (h6.diagFirst u hu)
  have := List.count_pos_iff.2 hmem
  omega

/-- **C22, completeness.** If the columns are sorted, no edge of the returned graph is implied by two
other edges of it. -/
theorem C22_sparsification_no_shortcut {g : Csc} {bins : Nat}
    {sched : List (Nat × Nat) → List (Nat × Nat)} {order ptr0 : List Nat}
    (h : SparsifyHyp g bins sched order ptr0) (hsort : g.Sorted) (debug clique : Bool) {nnz : Nat}
    (hs : SlowOk g clique nnz) :
    ∃ r, partialSparsification debug (.openmp bins) sched order clique g.n nnz g.p g.i ptr0 [] = ok r ∧
      (sparseGraph g.n r).Sorted ∧ (sparseGraph g.n r).NoShortcut := by
  obtain ⟨r, h1, m, hn, h2, h3, _, _, _, h6⟩ := sparsify_steps h debug clique hs
  refine ⟨r, h1, ?_, ?_⟩
  · intro u hu
    exact List.Pairwise.sublist ((h6.sub u (by rw [hn]; exact hu)).trans (h2 u hu)) (hsort u hu)
  · intro u k v huk hkv
    have hm : ∀ a b, (sparseGraph g.n r).Dep a b → m.Dep a b := fun a b hab =>
      ⟨h6.n ▸ hab.1, (h6.sub a (h6.n ▸ hab.1)).subset hab.2.1, hab.2.2⟩
    exact h6.full (h3 hsort) u k v (hm u k huk) (hm k v hkv)

/-- A clique of the nodes 0 to 2 whose nodes also lead to node 4, and node 3 before node 4. -/
def exClique : Csc := ⟨5, [0, 4, 7, 9, 11, 12], [0, 1, 2, 4, 1, 2, 4, 2, 4, 3, 4, 4]⟩

theorem exClique_hyp : SparsifyHyp exClique 2 List.reverse [4, 2, 0, 1, 3] [] where
  wf := ⟨by decide, by decide, by decide, by decide, by decide⟩
  oneDiag := by unfold Csc.OneDiag; decide
  diagFirst := by unfold Csc.DiagFirst; decide
  acyclic := Csc.Lower.acyclic fun u v h => lt_of_le_of_ne
    ((by unfold Csc.Lower; decide : exClique.Lower) u h.1 v h.2.1) h.2.2
  pos := by decide
  bins := by decide
  sched := List.reverse_perm
  order := by decide
  ptr0 := rfl

example : exClique.Sorted := by unfold Csc.Sorted; decide

example : SlowOk exClique false 12 := fun _ => ⟨by unfold Csc.Sorted; decide, by decide⟩

/-- Both threads see a part of the clique; the chain is found for all orders of the writes. -/
example : allWrites true 5 exClique.p exClique.i 2 [0, 1]
    = ok [(0, 0), (1, 0), (2, 0), (2, 2), (3, 3), (4, 3)] := by decide +kernel

example : partialSparsification true (.openmp 2) List.reverse [4, 2, 0, 1, 3] true 5 12
    exClique.p exClique.i [] [] = ok ([0, 2, 4, 6, 8, 9], [0, 1, 1, 2, 2, 4, 3, 4, 4]) := by
  decide +kernel

/-- Without OpenMP the only thread has the number 1, starts behind the last column, and writes past
the end of `node_to_clique`; a debug build stops at an assertion. -/
theorem C21_serial_build_overflows :
    partialSparsification false .serial id [0] true 1 1 [0, 1] [0] [] [] = Res.ub ∧
    partialSparsification true .serial id [0] true 1 1 [0, 1] [0] [] [] = Res.exn := by
  decide +kernel

/-- The result is appended to a non-empty `DAG_set`, but the pointers start at 0. -/
theorem C21_stale_output_breaks :
    partialSparsification false (.openmp 1) id [0, 1] true 2 3 [0, 2, 3] [0, 1, 1] [] [7]
      = ok ([0, 2, 3], [7, 0, 1, 1]) := by decide +kernel

/-- A graph without nodes is not handled. -/
theorem C21_no_nodes :
    partialSparsification false (.openmp 1) id [] true 0 0 [0] [] [] [] = Res.ub := by decide +kernel

end Verif
