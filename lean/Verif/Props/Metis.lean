import Verif.Proof.MetisSym
import Verif.Props.Coarsen

/-!
# C82, C83, C84: what is handed to METIS and what becomes of its answer

`Metis.OrdersNodes` and `Metis.Partitions` (Verif/Spec/Metis.lean) say what is assumed of METIS.
-/

namespace Verif
open Res Sp Metis

variable {V : Type}

/-- The pattern of `A` is symmetric. -/
def Sp.SymPattern (A : Sp V) : Prop := ∀ r c, (r, c) ∈ A.coords → (c, r) ∈ A.coords

theorem Sp.AdjGraph.undirected {A : Sp V} {g : Csc} (h : A.AdjGraph g) (hd : A.NoDup)
    (hs : A.SymPattern) : g.Undirected where
  wf := h.wf
  noLoop u hu hm := by
    rw [h.nodes] at hu
    exact ((h.nbr u u hu).1 hm).1 rfl
  nodup u hu := h.nodup hd u (by rw [← h.nodes]; exact hu)
  symm u v hu hm := by
    rw [h.nodes] at hu
    obtain ⟨h1, h2⟩ := (h.nbr u v hu).1 hm
    exact (h.nbr v u (mem_coords.1 h2).1).2 ⟨fun e => h1 e.symm, hs _ _ h2⟩

/-! ### C82 -/

/-- **C82.** `metis_perm_general` stays inside its arrays and hands METIS the adjacency graph of the
matrix: for every `METIS_NodeND` there is a graph `g`, the adjacency graph, such that the answer of METIS
for `g` is returned; a code other than `METIS_OK` stops a debug build. -/
theorem C82_perm_graph [Zero V] {A : Sp V} {nnz : Nat} {pat : Bool} (h : A.PatWF)
    (hx : pat = false → A.p.getD A.cols 0 ≤ A.x.length) (hsq : A.rows = A.cols) (hc : 0 < A.cols)
    (hn : A.p.getD A.cols 0 ≤ nnz) (debug : Bool) :
    ∃ g, A.AdjGraph g ∧ ∀ nd : NodeND, (nd A.cols g.p g.i).2.length = A.cols →
      permGeneral nd debug A nnz pat
        = if debug = true ∧ (nd A.cols g.p g.i).1 ≠ 1 then exn else ok (nd A.cols g.p g.i) := by
  obtain ⟨B, g, h1, h2, h3⟩ := general_wp h hx hsq hc hn
  refine ⟨_, h3, ?_⟩
  intro nd hl
  unfold permGeneral
  rw [h1, ok_bind, h2, ok_bind]
  dsimp only at hl ⊢
  rw [copyOut_eq hl]
  rfl

/-- **C82.** For a matrix with symmetric pattern, METIS is asked for a graph it accepts, and `perm` is a
permutation of the nodes. -/
theorem C82_perm [Zero V] {A : Sp V} {nnz : Nat} {pat : Bool} (h : A.PatWF)
    (hx : pat = false → A.p.getD A.cols 0 ≤ A.x.length) (hsq : A.rows = A.cols) (hc : 0 < A.cols)
    (hn : A.p.getD A.cols 0 ≤ nnz) (hd : A.NoDup) (hs : A.SymPattern) {nd : NodeND}
    (hnd : OrdersNodes nd) (debug : Bool) :
    ∃ perm, permGeneral nd debug A nnz pat = ok (1, perm) ∧ perm.Perm (List.range A.cols) := by
  obtain ⟨g, hg, hcall⟩ := C82_perm_graph h hx hsq hc hn debug
  have ho := hnd g (by rw [hg.nodes]; exact hc) (hg.undirected hd hs)
  rw [hg.nodes] at ho
  refine ⟨(nd A.cols g.p g.i).2, ?_, ho.2⟩
  rw [hcall nd (by rw [ho.2.length_eq, List.length_range]), if_neg (by rw [ho.1]; simp)]
  rw [← ho.1]

/-- **C82.** `metis_partition_general`: METIS is given the adjacency graph and the weights `1 +` number
of entries of the column; its parts are returned, lowered by the smallest of them (or by `n`, if all are
larger).  So nodes are together exactly if METIS puts them together, all parts are smaller than `k`, and
unless `k > n + 1` there is a part 0. -/
theorem C82_partition [Zero V] {A : Sp V} {nnz k : Nat} {pat : Bool} (h : A.PatWF)
    (hx : pat = false → A.p.getD A.cols 0 ≤ A.x.length) (hsq : A.rows = A.cols) (hc : 0 < A.cols)
    (hn : A.p.getD A.cols 0 ≤ nnz) (hd : A.NoDup) (hs : A.SymPattern) (hk : 0 < k) {pk : PartKway}
    (hpk : Partitions pk) (debug : Bool) :
    ∃ g part, A.AdjGraph g ∧ partGeneral pk debug A nnz pat k = ok part ∧ part.length = A.cols ∧
      (∀ x ∈ part, x < k) ∧ (k ≤ A.cols + 1 → 0 ∈ part) ∧
      ∀ i j, i < A.cols → j < A.cols → (part.getD i 0 = part.getD j 0 ↔
        (pk A.cols g.p g.i (some ((List.range A.cols).map fun c => 1 + (A.colRows c).length)) k).2.getD i 0
        = (pk A.cols g.p g.i (some ((List.range A.cols).map fun c => 1 + (A.colRows c).length)) k).2.getD j 0)
      := by
  obtain ⟨B, g, h1, h2, h3⟩ := general_wp h hx hsq hc hn
  have hw : weights A.p A.cols = ok ((List.range A.cols).map fun c => 1 + (A.colRows c).length) := by
    rw [weights_eq h.plen]
    congr 1
    refine List.map_congr_left fun c hc' => ?_
    have hcc := List.mem_range.1 hc'
    rw [colRows_slice, slice_length (h.le_len (by omega))]
    have := h.mono c hcc
    omega
  have ho := hpk ⟨A.cols, g.p, g.i⟩ (some ((List.range A.cols).map fun c => 1 + (A.colRows c).length)) k
    hc hk (h3.undirected hd hs) (by
      rintro l hl
      obtain rfl := Option.some.inj hl
      refine ⟨by simp, ?_⟩
      intro x hx'
      obtain ⟨c, _, rfl⟩ := List.mem_map.1 hx'
      omega)
  dsimp only at ho
  obtain ⟨o1, o2, o3⟩ := ho
  refine ⟨⟨A.cols, g.p, g.i⟩, (pk A.cols g.p g.i
    (some ((List.range A.cols).map fun c => 1 + (A.colRows c).length)) k).2.map
      fun x => x - minPart A.cols (pk A.cols g.p g.i
        (some ((List.range A.cols).map fun c => 1 + (A.colRows c).length)) k).2, h3, ?_, by simpa using o2,
    ?_⟩
  · unfold partGeneral
    rw [h1, ok_bind, h2, ok_bind, hw, ok_bind]
    dsimp only
    rw [if_neg (by rw [o1]; simp), normalise_eq o2]
  dsimp only
  generalize (pk A.cols g.p g.i (some ((List.range A.cols).map fun c => 1 + (A.colRows c).length)) k).2
      = q at *
  refine ⟨?_, ?_, ?_⟩
  · intro x hx'
    obtain ⟨y, hy, rfl⟩ := List.mem_map.1 hx'
    have := o3 y hy
    omega
  · intro hkn
    obtain ⟨m1, m2⟩ := minPart_le A.cols q
    have : minPart A.cols q ∈ q := by
      rcases minPart_mem A.cols q with h' | h'
      · obtain ⟨y, hy⟩ : ∃ y, y ∈ q := List.exists_mem_of_ne_nil _ (by
          rintro rfl; simp at o2; omega)
        have := m2 y hy
        have := o3 y hy
        have : y = A.cols := by omega
        rw [h', ← this]; exact hy
      · exact h'
    exact List.mem_map.2 ⟨_, this, Nat.sub_self _⟩
  · intro i j hi hj
    have m2 := (minPart_le A.cols q).2
    have e : ∀ i, i < A.cols → (q.map fun x => x - minPart A.cols q).getD i 0
        = q.getD i 0 - minPart A.cols q ∧ minPart A.cols q ≤ q.getD i 0 := by
      intro i hi
      have hi' : i < q.length := by omega
      simp only [List.getD_eq_getElem?_getD, List.getElem?_map, List.getElem?_eq_getElem hi',
        Option.map_some, Option.getD_some]
      exact ⟨trivial, m2 _ (List.getElem_mem hi')⟩
    rw [(e i hi).1, (e j hj).1]
    have := (e i hi).2
    have := (e j hj).2
    omega

/-! ### C83 -/

/-- Every column has exactly one diagonal entry. -/
def Sp.FullDiag (A : Sp V) : Prop := ∀ c, c < A.cols → (A.colRows c).count c = 1

/-- The graph `metis_perm_symmetric` and `metis_partition_symmetric` build of a matrix of which one
triangle is stored: to every node, node 0 is added as a neighbour. -/
structure Sp.StrayGraph (A : Sp V) (g : Csc) : Prop where
  nodes : g.n = A.cols
  wf : g.WF
  col : ∀ u, u < A.cols → ∃ N, g.col u = N ++ [0] ∧
    ∀ v, v ∈ N ↔ u ≠ v ∧ ((u, v) ∈ A.coords ∨ (v, u) ∈ A.coords)

theorem fullSym_stray {A : Sp V} (h : A.PatWF) (hsq : A.rows = A.cols) (hc : 0 < A.cols)
    (hd : A.FullDiag) {nnz : Nat} (hn : A.p.getD A.cols 0 ≤ nnz) :
    ∃ p i, fullSym A nnz = ok (p, i) ∧ A.StrayGraph ⟨A.cols, p, i⟩ := by
  have hl := dup_length A.tagged
  rw [tagged_diag hd, tagged_length h] at hl
  obtain ⟨out, h1, h2⟩ := fullSym_wp h hsq (nnz := nnz) (by omega)
  have hcol := fun u hu => h2.col (by omega) (u := u) hu
  refine ⟨_, _, h1, rfl, ?_, ?_⟩
  · refine ⟨by simp, ?_, ?_, ?_, ?_⟩
    · unfold Csc.ptr
      dsimp only
      rw [ptrArr_getD _ _ (by omega), below_zero]
    · intro u hu
      unfold Csc.ptr
      dsimp only at hu ⊢
      rw [ptrArr_getD _ _ (by omega), ptrArr_getD _ _ (by omega)]
      exact below_mono _ _ (by omega)
    · unfold Csc.ptr
      dsimp only
      rw [ptrArr_getD _ _ (by omega), h2.len]
      have := below_le_length eCol (A.tagged.flatMap dup) A.cols
      omega
    · intro u hu v hv
      dsimp only at hu ⊢
      rw [hcol u hu, hd u hu, List.mem_append] at hv
      rcases hv with hv | hv
      · have hm := (mem_nbrs.1 hv).2
        rcases hm with hm | hm
        · exact (mem_coords.1 hm).1
        · have := mem_coords.1 hm
          have := h.range u this.1 v this.2
          omega
      · have := (List.mem_replicate.1 hv).2
        omega
  · intro u hu
    refine ⟨nbrs A u, ?_, fun v => mem_nbrs⟩
    rw [hcol u hu, hd u hu]; rfl

/-- **C83.** `metis_perm_symmetric` for a matrix of which one triangle with the full diagonal is stored:
it stays inside its arrays and returns the answer of METIS for a graph that has all edges of the matrix,
but in which node 0 has been added to the neighbours of every node. -/
theorem C83_perm_symmetric {A : Sp V} (h : A.PatWF) (hsq : A.rows = A.cols) (hc : 0 < A.cols)
    (hd : A.FullDiag) {nnz : Nat} (hn : A.p.getD A.cols 0 ≤ nnz) {stype : Int} (hs : stype ≠ 0)
    (debug : Bool) :
    ∃ g, A.StrayGraph g ∧ ∀ nd : NodeND, (nd A.cols g.p g.i).2.length = A.cols →
      permSymmetric nd debug A nnz stype
        = if debug = true ∧ (nd A.cols g.p g.i).1 ≠ 1 then exn
          else ok ((nd A.cols g.p g.i).1, some (nd A.cols g.p g.i).2) := by
  obtain ⟨p, i, h1, h2⟩ := fullSym_stray h hsq hc hd hn
  refine ⟨_, h2, ?_⟩
  intro nd hl
  unfold permSymmetric
  rw [if_neg hs, h1, ok_bind]
  dsimp only at hl ⊢
  rw [copyOut_eq hl]
  rfl

/-- **C83.** The same for `metis_partition_symmetric`, whatever `stype` is. -/
theorem C83_partition_symmetric {A : Sp V} (h : A.PatWF) (hsq : A.rows = A.cols) (hc : 0 < A.cols)
    (hd : A.FullDiag) {nnz k : Nat} (hn : A.p.getD A.cols 0 ≤ nnz) (debug : Bool) :
    ∃ g, A.StrayGraph g ∧ ∀ pk : PartKway, (pk A.cols g.p g.i none k).2.length = A.cols →
      partSymmetric pk debug A nnz k
        = if debug = true ∧ (pk A.cols g.p g.i none k).1 ≠ 1 then exn
          else ok (pk A.cols g.p g.i none k).2 := by
  obtain ⟨p, i, h1, h2⟩ := fullSym_stray h hsq hc hd hn
  refine ⟨_, h2, ?_⟩
  intro pk hl
  unfold partSymmetric
  rw [h1, ok_bind]
  dsimp only at hl ⊢
  rw [copyOut_eq hl]

/-- **C83** (finding): METIS does not accept this graph, for no matrix: node 0 is its own neighbour. -/
theorem C83_never_accepted {A : Sp V} {g : Csc} (h : A.StrayGraph g) (hc : 0 < A.cols) :
    ¬ g.Undirected := by
  intro hu
  obtain ⟨N, h1, -⟩ := h.col 0 hc
  refine hu.noLoop 0 (by rw [h.nodes]; exact hc) ?_
  rw [h1]; simp

/-- **C83** (finding): and if a node is not a neighbour of node 0, the edge is there in one direction
only. -/
theorem C83_one_direction {A : Sp V} {g : Csc} (h : A.StrayGraph g) {u : Nat} (hu : u < A.cols)
    (h0 : 0 < u) (hn : (u, 0) ∉ A.coords ∧ (0, u) ∉ A.coords) : 0 ∈ g.col u ∧ u ∉ g.col 0 := by
  obtain ⟨N, h1, -⟩ := h.col u hu
  obtain ⟨M, h2, h3⟩ := h.col 0 (by omega)
  refine ⟨by rw [h1]; simp, ?_⟩
  rw [h2, List.mem_append, h3]
  rintro (⟨_, hm⟩ | hm)
  · tauto
  · rw [List.mem_singleton] at hm; omega

/-- **C83** (finding): if diagonal entries are missing, the array of the neighbours is too short. -/
theorem C83_missing_diagonal_ub (nd : NodeND) (debug : Bool) :
    permSymmetric nd debug (⟨2, 2, [0, 1, 1], [1], [5]⟩ : Sp Int) 1 (-1) = ub := by
  have : fullSym (⟨2, 2, [0, 1, 1], [1], [5]⟩ : Sp Int) 1 = ub := by decide
  unfold permSymmetric
  rw [this]; rfl

/-- **C83**: an unsymmetric matrix is refused, and `perm` is not set. -/
theorem C83_unsymmetric (nd : NodeND) (debug : Bool) (A : Sp V) (nnz : Nat) :
    permSymmetric nd debug A nnz 0 = ok (-1, none) := rfl

end Verif
