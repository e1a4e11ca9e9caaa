import Verif.Proof.Merge
import Verif.Spec.Merge

/-!
# C81: merging graphs

`merge_graph` and `merge_DAGs_with_partial_order` put graphs on the same nodes one after the other.
-/

namespace Verif
open Res Merge Relation

variable {n : Nat} {gs ds : List Csc}

theorem split_node {m v : Nat} (h : v < m * n) : ∃ q j, q < m ∧ j < n ∧ v = q * n + j := by
  have hn : 0 < n := by
    rcases Nat.eq_zero_or_pos n with rfl | h'
    · rw [Nat.mul_zero] at h; omega
    · exact h'
  refine ⟨v / n, v % n, (Nat.div_lt_iff_lt_mul hn).2 h, Nat.mod_lt _ hn, ?_⟩
  rw [Nat.mul_comm]; exact (Nat.div_add_mod v n).symm

theorem node_inj {q j q' j' : Nat} (hj : j < n) (hj' : j' < n) (h : q * n + j = q' * n + j') :
    q = q' ∧ j = j' := by
  have h1 : (q * n + j) / n = q := by
    rw [Nat.mul_comm, Nat.mul_add_div (by omega), Nat.div_eq_of_lt hj, Nat.add_zero]
  have h2 : (q' * n + j') / n = q' := by
    rw [Nat.mul_comm, Nat.mul_add_div (by omega), Nat.div_eq_of_lt hj', Nat.add_zero]
  have : q = q' := by rw [← h1, ← h2, h]
  subst this
  exact ⟨rfl, by omega⟩

/-- What the merged graph inherits. -/
structure Inherits (gs : List Csc) (M : Csc) : Prop where
  wf : M.WF
  oneDiag : (∀ g ∈ gs, g.OneDiag) → M.OneDiag
  diagFirst : (∀ g ∈ gs, g.DiagFirst) → M.DiagFirst
  lower : (∀ g ∈ gs, g.Lower) → M.Lower
  acyclic : (∀ g ∈ gs, g.Acyclic) → M.Acyclic

/-- A merged graph without cycles. -/
theorem IsMerged.acyclic {cross : Nat → Nat → Nat → Prop} {M : Csc} (h : IsMerged n gs cross M)
    (hg : ∀ g ∈ gs, g.WF ∧ g.n = n) (ha : ∀ g ∈ gs, g.Acyclic) : M.Acyclic := by
  have key : ∀ u v, TransGen M.Dep u v → ∀ q j, q < gs.length → j < n → u = q * n + j →
      ∃ q' j', q' < gs.length ∧ j' < n ∧ v = q' * n + j' ∧ q ≤ q' ∧
        (q = q' → ∀ g, gs[q]? = some g → TransGen g.Dep j j') := by
    intro u v huv
    have one : ∀ u v, M.Dep u v → ∀ q j, q < gs.length → j < n → u = q * n + j →
      ∃ q' j', q' < gs.length ∧ j' < n ∧ v = q' * n + j' ∧ q ≤ q' ∧
        (q = q' → ∀ g, gs[q]? = some g → g.Dep j j') := by
      rintro u v hd q j hq hj rfl
      have hget := List.getElem?_eq_getElem hq
      rcases (h.dep q _ hget j hj v).1 hd with ⟨r, hr, rfl⟩ | ⟨hq', r, hr, _, rfl⟩
      · have hw := hg _ (List.getElem_mem hq)
        have := (hw.1.dep_lt hr).2
        refine ⟨q, r, hq, by omega, rfl, Nat.le_refl _, fun _ g hg' => ?_⟩
        rw [hget] at hg'
        obtain rfl := Option.some.inj hg'
        exact hr
      · exact ⟨q + 1, r, hq', hr, rfl, by omega, fun h => by omega⟩
    induction huv with
    | single hd =>
      intro q j hq hj e
      obtain ⟨q', j', h1, h2, h3, h4, h5⟩ := one _ _ hd q j hq hj e
      exact ⟨q', j', h1, h2, h3, h4, fun e g hg => .single (h5 e g hg)⟩
    | tail _ hd ih =>
      intro q j hq hj e
      obtain ⟨q1, j1, h1, h2, h3, h4, h5⟩ := ih q j hq hj e
      obtain ⟨q2, j2, k1, k2, k3, k4, k5⟩ := one _ _ hd q1 j1 h1 h2 h3
      refine ⟨q2, j2, k1, k2, k3, by omega, fun e g hg => ?_⟩
      have e1 : q = q1 := by omega
      subst e1
      exact .tail (h5 rfl g hg) (k5 e g hg)
  intro v hv
  have hv' : v < gs.length * n := by
    rw [← h.nodes]
    obtain ⟨w, hd, _⟩ := TransGen.head'_iff.1 hv
    exact hd.1
  obtain ⟨q, j, hq, hj, rfl⟩ := split_node hv'
  obtain ⟨q', j', _, h2, h3, _, h5⟩ := key _ _ hv q j hq hj rfl
  obtain ⟨rfl, rfl⟩ := node_inj hj h2 h3
  exact ha _ (List.getElem_mem hq) j (h5 rfl _ (List.getElem?_eq_getElem hq))

/-- From the columns to the specification. -/
theorem stored_merged {ext : Nat → Nat → List Nat} (hg : ∀ g ∈ gs, g.WF ∧ g.n = n) {M : Csc}
    (hM : M.n = gs.length * n) (hs : StoredIn (mcol n gs ext) M)
    (hext : ∀ i j, i + 1 < gs.length → j < n → ∀ v ∈ ext i j, ∃ r, r < n ∧ v = (i + 1) * n + r) :
    IsMerged n gs (fun i j r => (i + 1) * n + r ∈ ext i j) M ∧ Inherits gs M := by
  have hw : AllWF n gs := hg
  have hcol : ∀ q g, gs[q]? = some g → ∀ j, j < n → M.col (q * n + j)
      = (g.col j).map (· + q * n) ++ if q + 1 < gs.length then ext q j else [] := by
    intro q g hq j hj
    have hql := (List.getElem?_eq_some_iff.1 hq).1
    rw [hs.col (by rw [hM]; exact lt_blocks hql hj), mcol_at hj, List.getD_eq_getElem?_getD, hq]
    rfl
  have hmem : ∀ q g, gs[q]? = some g → ∀ j, j < n → ∀ v, v ∈ M.col (q * n + j) ↔
      (∃ r ∈ g.col j, v = q * n + r) ∨
        (q + 1 < gs.length ∧ ∃ r, r < n ∧ (q + 1) * n + r ∈ ext q j ∧ v = (q + 1) * n + r) := by
    intro q g hq j hj v
    rw [hcol q g hq j hj, List.mem_append, List.mem_map]
    constructor
    · rintro (⟨r, h1, rfl⟩ | h)
      · exact .inl ⟨r, h1, Nat.add_comm _ _⟩
      · split at h
        · rename_i hlt
          obtain ⟨r, h1, rfl⟩ := hext q j hlt hj v h
          exact .inr ⟨hlt, r, h1, h, rfl⟩
        · cases h
    · rintro (⟨r, h1, rfl⟩ | ⟨hlt, r, h1, h2, rfl⟩)
      · exact .inl ⟨r, h1, Nat.add_comm _ _⟩
      · rw [if_pos hlt]; exact .inr h2
  have hlt : ∀ u v, u < M.n → v ∈ M.col u → v < M.n := by
    intro u v hu hv
    rw [hM] at hu
    obtain ⟨q, j, hq, hj, rfl⟩ := split_node hu
    have hget := List.getElem?_eq_getElem hq
    have hgq := hg _ (List.getElem_mem hq)
    rw [hM]
    rcases (hmem q _ hget j hj v).1 hv with ⟨r, h1, rfl⟩ | ⟨h1, r, h2, _, rfl⟩
    · have := hgq.1.range j (by omega) r h1
      exact lt_blocks hq (by omega)
    · exact lt_blocks h1 h2
  have hmerged : IsMerged n gs (fun i j r => (i + 1) * n + r ∈ ext i j) M := by
    refine ⟨hM, ?_⟩
    intro q g hq j hj v
    have hql := (List.getElem?_eq_some_iff.1 hq).1
    have hgq := hg g (List.mem_of_getElem? hq)
    constructor
    · rintro ⟨_, h2, h3⟩
      rcases (hmem q g hq j hj v).1 h2 with ⟨r, h1, rfl⟩ | h
      · exact .inl ⟨r, ⟨by omega, h1, fun e => h3 (by rw [e])⟩, rfl⟩
      · exact .inr h
    · rintro (⟨r, ⟨_, h2, h3⟩, rfl⟩ | ⟨h1, r, h2, h3, rfl⟩)
      · exact ⟨by rw [hM]; exact lt_blocks hql hj, (hmem q g hq j hj _).2 (.inl ⟨r, h2, rfl⟩), by omega⟩
      · refine ⟨by rw [hM]; exact lt_blocks hql hj, (hmem q g hq j hj _).2 (.inr ⟨h1, r, h2, h3, rfl⟩), ?_⟩
        rw [Nat.add_mul, Nat.one_mul]; omega
  refine ⟨hmerged, ⟨hs.wf fun k hk v hv => hlt k v hk (by rw [hs.col hk]; exact hv), ?_, ?_, ?_,
    hmerged.acyclic hg⟩⟩
  · intro hd u hu
    rw [hM] at hu
    obtain ⟨q, j, hq, hj, rfl⟩ := split_node hu
    have hgq := hg _ (List.getElem_mem hq)
    rw [hcol q _ (List.getElem?_eq_getElem hq) j hj, List.count_append, Nat.add_comm (q * n) j,
      List.count_map_of_injective _ (fun x => x + q * n) (fun a b h => Nat.add_right_cancel h),
      hd _ (List.getElem_mem hq) j (by omega)]
    have : List.count (j + q * n) (if q + 1 < gs.length then ext q j else []) = 0 := by
      rw [List.count_eq_zero]
      intro hmem
      split at hmem
      · rename_i hlt
        obtain ⟨r, _, h⟩ := hext q j hlt hj _ hmem
        rw [Nat.add_mul, Nat.one_mul] at h
        omega
      · cases hmem
    omega
  · intro hd u hu
    rw [hM] at hu
    obtain ⟨q, j, hq, hj, rfl⟩ := split_node hu
    have hgq := hg _ (List.getElem_mem hq)
    rw [hcol q _ (List.getElem?_eq_getElem hq) j hj, List.head?_append, List.head?_map,
      hd _ (List.getElem_mem hq) j (by omega)]
    simp [Nat.add_comm]
  · intro hd u hu v hv
    rw [hM] at hu
    obtain ⟨q, j, hq, hj, rfl⟩ := split_node hu
    have hgq := hg _ (List.getElem_mem hq)
    rcases (hmem q _ (List.getElem?_eq_getElem hq) j hj v).1 hv with ⟨r, h1, rfl⟩ | ⟨h1, r, h2, _, rfl⟩
    · have := hd _ (List.getElem_mem hq) j (by omega) r h1
      omega
    · rw [Nat.add_mul, Nat.one_mul]; omega

/-- The arrays of the graphs, as the functions take them. -/
def arrays (gs : List Csc) : List (List Nat × List Nat) := gs.map fun g => (g.p, g.i)

/-- **C81.** `merge_graph` puts the graphs one after the other and lets every node depend on the same
node of the graph before.  No access is out of bounds, the arrays are filled exactly, and the merged
graph is lower triangular, acyclic, with one diagonal entry, stored first, if the graphs are. -/
theorem C81_merge_graph (hg : ∀ g ∈ gs, g.WF ∧ g.n = n) (h0 : gs ≠ []) :
    ∃ p i, mergeGraph n (arrays gs) = ok (p, i) ∧
      IsMerged n gs (fun _ j r => r = j) ⟨gs.length * n, p, i⟩ ∧
      Inherits gs ⟨gs.length * n, p, i⟩ ∧ i.length = p.getD (gs.length * n) 0 := by
  obtain ⟨⟨p, i⟩, h1, h2, h3⟩ := wp_iff.1 (mergeBody_wp (alloc := fun m => List.replicate (m + 1) 0) hg
    (List.length_pos_iff.2 h0) rfl)
  obtain ⟨k1, k2⟩ := stored_merged hg rfl h2 (by
    intro a j _ hj v hv
    rw [List.mem_singleton] at hv
    exact ⟨j, hj, by rw [hv, Nat.add_comm]⟩)
  refine ⟨p, i, h1, ?_, k2, ?_⟩
  · refine ⟨rfl, fun q g hq j hj v => (k1.dep q g hq j hj v).trans ?_⟩
    have : ∀ r, (q + 1) * n + r ∈ [j + (q + 1) * n] ↔ r = j := by
      intro r
      rw [List.mem_singleton]
      omega
    simp only [this]
  · have := h2.ptr _ (Nat.le_refl _)
    exact h3.trans this.symm

/-- **C81** for the form of `merge_graph` that returns a matrix: the same graph, unless there are no
nodes. -/
theorem C81_merge_graph_csc (h0 : gs ≠ []) (hn : 0 < n) :
    mergeGraphCsc n (arrays gs) = mergeGraph n (arrays gs) := by
  have hpos : 0 < gs.length * n := Nat.mul_pos (List.length_pos_iff.2 h0) hn
  unfold mergeGraphCsc mergeGraph mergeBody allocP arrays
  rw [List.length_map, if_pos hpos]

/-- Without nodes, it writes to a null pointer. -/
theorem C81_csc_empty (hg : ∀ g ∈ gs, g.WF ∧ g.n = 0) (h0 : gs ≠ []) :
    mergeGraphCsc 0 (arrays gs) = ub := by
  unfold mergeGraphCsc mergeBody arrays
  rw [sumLast_eq hg, ok_bind, List.length_map, if_neg (by simpa using h0)]
  rfl

/-- **C81.** `merge_DAGs_with_partial_order` with the dependences `ds` between the graphs: node `r` of
graph `q + 1` depends on node `j` of graph `q` if `r` is in column `j` of `ds[q]`.  `nnz` is too large by
`n` for each graph but the last. -/
theorem C81_partial_order (hg : ∀ g ∈ gs, g.WF ∧ g.n = n) (hd : ∀ d ∈ ds, d.WF ∧ d.n = n) (h0 : gs ≠ [])
    (hn : 0 < n) (hl : gs.length ≤ ds.length + 1) :
    ∃ p i nnz, mergeDags n (arrays gs) (arrays ds) = ok (p, i, nnz) ∧
      IsMerged n gs (fun q j r => ∃ d, ds[q]? = some d ∧ r ∈ d.col j) ⟨gs.length * n, p, i⟩ ∧
      Inherits gs ⟨gs.length * n, p, i⟩ ∧ i.length = nnz ∧
      nnz = p.getD (gs.length * n) 0 + (gs.length - 1) * n := by
  have hpos := List.length_pos_iff.2 h0
  obtain ⟨⟨p, i, nnz⟩, h1, h2, h3, h4⟩ := wp_iff.1 (mergeDags_wp (ds := ds) hg hd hpos hn hl)
  dsimp only at h2 h3 h4
  have hget : ∀ q, q + 1 < gs.length → ∃ d, ds[q]? = some d ∧ ds.getD q ⟨0, [], []⟩ = d ∧ d.WF ∧ d.n = n := by
    intro q hq
    have hq' : q < ds.length := by omega
    refine ⟨ds[q], List.getElem?_eq_getElem hq', ?_, hd _ (List.getElem_mem hq')⟩
    rw [List.getD_eq_getElem?_getD, List.getElem?_eq_getElem hq']; rfl
  obtain ⟨k1, k2⟩ := stored_merged hg rfl h2 (by
    intro q j hq hj v hv
    obtain ⟨d, _, e2, e3, e4⟩ := hget q hq
    unfold dext at hv
    rw [e2] at hv
    obtain ⟨r, hr, rfl⟩ := List.mem_map.1 hv
    have := e3.range j (by omega) r hr
    exact ⟨r, by omega, Nat.add_comm _ _⟩)
  refine ⟨p, i, nnz, h1, ?_, k2, h4, ?_⟩
  · refine ⟨rfl, fun q g hq j hj v => (k1.dep q g hq j hj v).trans ?_⟩
    refine or_congr_right (and_congr_right fun hlt => ?_)
    obtain ⟨d, e1, e2, _, _⟩ := hget q hlt
    have : ∀ r, (q + 1) * n + r ∈ dext n ds q j ↔ ∃ d, ds[q]? = some d ∧ r ∈ d.col j := by
      intro r
      unfold dext
      rw [e2, List.mem_map, e1]
      constructor
      · rintro ⟨x, hx, h⟩
        exact ⟨d, rfl, by rwa [show r = x by omega]⟩
      · rintro ⟨d', e, h⟩
        obtain rfl := Option.some.inj e
        exact ⟨r, h, Nat.add_comm _ _⟩
    simp only [this]
  · have := h2.ptr _ (Nat.le_refl _)
    rw [h3]
    exact congrArg (· + _) this.symm

/-- Two triangular matrices with two columns, and the dependences of a product with `[1 1; 0 1]`. -/
example : mergeGraph 2 (arrays [⟨2, [0, 2, 3], [0, 1, 1]⟩, ⟨2, [0, 1, 2], [0, 1]⟩])
    = ok ([0, 3, 5, 6, 7], [0, 1, 2, 1, 3, 2, 3]) := by decide +kernel

example : mergeDags 2 (arrays [⟨2, [0, 2, 3], [0, 1, 1]⟩, ⟨2, [0, 1, 2], [0, 1]⟩])
      (arrays [⟨2, [0, 1, 3], [0, 0, 1]⟩])
    = ok ([0, 3, 6, 7, 8], [0, 1, 2, 1, 2, 3, 2, 3, 0, 0], 10) := by decide +kernel

example := C81_partial_order (n := 2) (gs := [⟨2, [0, 2, 3], [0, 1, 1]⟩, ⟨2, [0, 1, 2], [0, 1]⟩])
  (ds := [⟨2, [0, 1, 3], [0, 0, 1]⟩])
  (by
    intro g hg
    simp only [List.mem_cons, List.not_mem_nil, or_false] at hg
    rcases hg with rfl | rfl <;> exact ⟨⟨by decide, by decide, by decide, by decide, by decide⟩, rfl⟩)
  (by
    intro g hg
    rw [List.mem_singleton] at hg
    subst hg
    exact ⟨⟨by decide, by decide, by decide, by decide, by decide⟩, rfl⟩)
  (by simp) (by decide) (by decide)

end Verif
