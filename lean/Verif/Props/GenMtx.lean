import Verif.Model.GenMtx
import Verif.Props.Prepare
import Verif.Props.Copy

/-!
# C128: the matrices of the fusion programs; C129: `metis_partitioning`
-/

namespace Verif.GenMtx
open Res Sp Metis TransSym Prepare

variable {V : Type} [Zero V]

/-! ### C128 -/

/-- **C128.** `generate_matrices_from_mtx` with METIS, for a lower triangular matrix with full diagonal: there
is one renumbering `π` of the nodes such that `L2_csr` is, in compressed rows, the lower triangle of the
renumbered symmetric matrix, and `B` and `B_csr` are the whole renumbered symmetric matrix in compressed
columns and rows.  The three matrices are in the same numbering. -/
theorem C128_matrices {A : Sp V} {nnz : Nat} (h : A.LowerCsc) (hc : 0 < A.cols)
    (hn : A.p.getD A.cols 0 ≤ nnz) {stype : Int} (hs : stype ≠ 0) {nd : NodeND} (hnd : OrdersNodes nd)
    (debug : Bool) :
    ∃ perm π, ∃ G L2 B C : Sp V, generate (some nd) debug A stype nnz = ok (L2, B, C) ∧
      perm.Perm (List.range A.cols) ∧ InverseOf perm π A.cols ∧ Reordered π A G ∧
      Converted G L2 ∧ B.WF ∧ B.rows = A.cols ∧ B.cols = A.cols ∧
      B.entries.Perm ((A.entries.flatMap mirrored).map fun e => (π e.1, π e.2.1, e.2.2)) ∧ Converted B C := by
  obtain ⟨perm, π, G, gnz, g1, g2, g3, g4, g5⟩ := C85_reorder h hc hn hs hnd debug
  have hG := g5.lower
  have hGc := g5.cols
  have hGs := hG.square
  obtain ⟨L2, l1, l2⟩ := C26_csc_to_csr_keeps_matrix hG.wf (by omega) g2.le
  obtain ⟨B, b1, b2, b3, b4, b5⟩ := C29_make_full hG.wf hGs (by omega) g2.le
  obtain ⟨C, c1, c2⟩ := C26_csc_to_csr_keeps_matrix b2 (by omega) (Nat.le_refl (B.p.getD B.cols 0))
  refine ⟨perm, π, G, L2, B, C, ?_, g3, g4, g5, l2, b2, by omega, by omega, b5.trans g5.symmetric, c2⟩
  unfold generate
  dsimp only
  rw [g1, ok_bind]
  dsimp only
  rw [l1, ok_bind, show decide ((-1 : Int) = 0) = false from rfl, b1, ok_bind]
  dsimp only
  rw [rd_getD 0 (by rw [b2.plen]; omega), ok_bind, c1]
  rfl

/-- **C128**: the lower triangle of `B` is the matrix `L2_csr` (so the fused kernels, which multiply by `B` and
solve with `L2_csr`, work on matching matrices). -/
theorem C128_consistent {A : Sp V} {nnz : Nat} (h : A.LowerCsc) (hc : 0 < A.cols)
    (hn : A.p.getD A.cols 0 ≤ nnz) {stype : Int} (hs : stype ≠ 0) {nd : NodeND} (hnd : OrdersNodes nd)
    (debug : Bool) {L2 B C : Sp V} (hr : generate (some nd) debug A stype nnz = ok (L2, B, C)) :
    (L2.entries.map swapEntry).Perm (B.entries.filter fun e => decide (e.2.1 ≤ e.1)) ∧
      (C.entries.map swapEntry).Perm B.entries := by
  obtain ⟨perm, π, G, L2', B', C', h1, -, -, h4, h5, -, -, -, h9, h10⟩ := C128_matrices h hc hn hs hnd debug
  rw [h1] at hr
  cases hr
  refine ⟨?_, h10.entries⟩
  refine h5.entries.trans ?_
  refine List.Perm.symm (((h9.trans h4.symmetric.symm).filter _).trans (List.Perm.of_eq ?_))
  rw [List.filter_flatMap]
  have : ∀ e ∈ G.entries, (mirrored e).filter (fun e => decide (e.2.1 ≤ e.1)) = [e] := by
    rintro ⟨r, c, v⟩ he
    have hrc : c ≤ r := h4.lower.lower _ he
    unfold mirrored swapEntry
    by_cases e : r = c
    · subst e; simp
    · simp [e, hrc]; omega
  rw [List.flatMap_congr this]
  simp

/-- **C128** (finding): a build without METIS dereferences the null pointer `L1_csc`, whatever the matrix. -/
theorem C128_without_metis_ub (debug : Bool) (A : Sp V) (stype : Int) (nnz : Nat) :
    generate none debug A stype nnz = ub := rfl

/-- **C128** (finding): a matrix that is not marked symmetric is refused by `make_full`. -/
theorem C128_unsymmetric_ub (nd : NodeND) (debug : Bool) (A : Sp V) (nnz : Nat) :
    generate (some nd) debug A 0 nnz = ub := by
  unfold generate reorder makeFull
  rfl

/-- METIS numbers backwards. -/
def backwards : NodeND := fun n _ _ => (1, (List.range n).reverse)

theorem backwards_ok : OrdersNodes backwards := by
  intro g _ _
  exact ⟨rfl, List.reverse_perm _⟩

/-- **C128** (finding): the matrix passed in keeps its numbering, so it is not the matrix `L2_csr` is made of:
the caller, who goes on with `L1_csc_in`, has a lower triangle in another numbering than `L2_csr` and `B`. -/
theorem C128_caller_numbering :
    ∃ (A L2 B C : Sp Int) (nnz : Nat), A.LowerCsc ∧ A.p.getD A.cols 0 ≤ nnz ∧ OrdersNodes backwards ∧
      generate (some backwards) true A (-1) nnz = ok (L2, B, C) ∧ ¬ (L2.entries.map swapEntry).Perm A.entries ∧
      ¬ A.entries.Perm (B.entries.filter fun e => decide (e.2.1 ≤ e.1)) := by
  refine ⟨⟨2, 2, [0, 2, 3], [0, 1, 1], [1, 2, 3]⟩, ⟨2, 2, [0, 1, 3], [0, 0, 1], [3, 2, 1]⟩,
    ⟨2, 2, [0, 2, 4], [0, 1, 0, 1, 0, 0], [3, 2, 2, 1, 0, 0]⟩,
    ⟨2, 2, [0, 2, 4], [0, 1, 0, 1], [3, 2, 2, 1]⟩, 3, ?_, by decide, backwards_ok, by decide +kernel, by decide,
    by decide⟩
  refine ⟨⟨⟨by decide, by decide, by decide, by decide, by decide⟩, by decide⟩, rfl, ?_, ?_, ?_⟩
  · unfold Sp.Lower; decide
  · unfold Sp.NoDup; decide
  · have : ∀ c, c < 2 → ∃ e ∈ (⟨2, 2, [0, 2, 3], [0, 1, 1], [1, 2, 3]⟩ : Sp Int).entries, e.1 = c ∧ e.2.1 = c := by
      decide
    intro c hc
    obtain ⟨⟨r, c', d⟩, h1, rfl, h3⟩ := this c hc
    dsimp only at h3
    subst h3
    exact ⟨d, h1⟩

/-- The matrix of four nodes of C85, renumbered backwards. -/
example : generate (some backwards) true exPrep (-1) 7
    = ok (⟨4, 4, [0, 1, 2, 4, 7], [0, 1, 1, 2, 0, 2, 3], [7, 6, 5, 4, 3, 2, 1]⟩,
      ⟨4, 4, [0, 2, 4, 7, 10], [0, 3, 1, 2, 1, 2, 3, 0, 2, 3, 0, 0, 0, 0], [7, 3, 6, 5, 5, 4, 2, 3, 2, 1, 0, 0, 0, 0]⟩,
      ⟨4, 4, [0, 2, 4, 7, 10], [0, 3, 1, 2, 1, 2, 3, 0, 2, 3], [7, 3, 6, 5, 5, 4, 2, 3, 2, 1]⟩) := by decide +kernel

/-! ### C129 -/

/-- **C129.** `metis_partitioning` of a matrix with values and symmetric pattern: the matrix returned is the
matrix passed in, and `partition` is the answer of METIS for its adjacency graph with the weights `1 +` entries
of the column, lowered so that part 0 is used.  The ordering computed before has no influence. -/
theorem C129_general {A : Sp V} (h : A.WF) (he : A.Exact) (hsq : A.rows = A.cols) (hc : 0 < A.cols)
    (hd : A.NoDup) (hs : A.SymPattern) {k : Nat} (hk : 0 < k) {nd : NodeND} (hnd : OrdersNodes nd)
    {pk : PartKway} (hpk : Partitions pk) (stype : Int) (debug : Bool) :
    ∃ g part, A.AdjGraph g ∧
      partitioning nd pk debug A (A.p.getD A.cols 0) stype false k = ok (A, part) ∧
      part.length = A.cols ∧ (∀ x ∈ part, x < k) ∧ (k ≤ A.cols + 1 → 0 ∈ part) ∧
      ∀ i j, i < A.cols → j < A.cols → (part.getD i 0 = part.getD j 0 ↔
        (pk A.cols g.p g.i (some ((List.range A.cols).map fun c => 1 + (A.colRows c).length)) k).2.getD i 0
        = (pk A.cols g.p g.i (some ((List.range A.cols).map fun c => 1 + (A.colRows c).length)) k).2.getD j 0)
      := by
  obtain ⟨perm, p1, -⟩ := C82_perm (pat := false) h.toPatWF (fun _ => h.xlen) hsq hc (Nat.le_refl _) hd hs hnd debug
  obtain ⟨g, part, q1, q2, q3⟩ := C82_partition (pat := false) h.toPatWF (fun _ => h.xlen) hsq hc (Nat.le_refl _) hd
    hs hk hpk debug
  refine ⟨g, part, q1, ?_, q3⟩
  unfold partitioning
  rw [if_neg (by simp), p1, ok_bind, C51_copy_sparse h he hc, ok_bind, q2]
  rfl

omit [Zero V] in
/-- **C129** (finding): the function chooses by `is_pattern`, not by `stype`.  For a matrix of which only the lower
triangle is stored (what all programs of the repository read) the graph given to METIS has every edge in one
direction only, which METIS does not accept. -/
theorem C129_half_not_accepted {A : Sp V} (hlow : ∀ e ∈ A.coords, e.2 ≤ e.1) {r c : Nat} (hrc : c < r)
    (hr : r < A.cols) (hm : (r, c) ∈ A.coords) {g : Csc} (hg : A.AdjGraph g) : ¬ g.Undirected := by
  intro hu
  have h1 := (hg.nbr r c hr).2 ⟨by omega, hm⟩
  have h2 := hu.symm r c (by rw [hg.nodes]; exact hr) h1
  have h3 := (hg.nbr c r (by omega)).1 h2
  have := hlow _ h3.2
  dsimp only at this
  omega

/-- The coordinates of a symmetric matrix one triangle of which has the coordinates `l`. -/
def bothHalves (l : List (Nat × Nat)) : List (Nat × Nat) :=
  l.flatMap fun e => if e.1 = e.2 then [(e.1, e.2)] else [(e.1, e.2), (e.2, e.1)]

omit [Zero V] in
theorem fullDiag_of_mem {A : Sp V} (hd : A.NoDup) (h : ∀ c, c < A.cols → (c, c) ∈ A.coords) : A.FullDiag := by
  intro c hc
  exact List.count_eq_one_of_mem (hd c hc) (Metis.mem_coords.1 (h c hc)).2

omit [Zero V] in
theorem mem_of_fullDiag {A : Sp V} (h : A.FullDiag) {c : Nat} (hc : c < A.cols) : (c, c) ∈ A.coords := by
  refine Metis.mem_coords.2 ⟨hc, ?_⟩
  rw [← List.count_pos_iff, h c hc]
  exact Nat.one_pos

/-- **C129.** `metis_partitioning` of a pattern of which the lower triangle with the full diagonal is stored, if
METIS, although its rules are broken (C83: node 0 is a neighbour of every node, itself included), returns a
permutation and a part for every node: the matrix returned is the whole symmetric matrix, renumbered by METIS's
ordering, and the parts are METIS's for the nodes in the new numbering.  The caller is not told the numbering. -/
theorem C129_pattern {A : Sp V} (h : A.PatWF) (hsq : A.rows = A.cols) (hc : 0 < A.cols) (hd : A.NoDup)
    (hlow : ∀ e ∈ A.coords, e.2 ≤ e.1) (hdg : A.FullDiag) {nnz k : Nat} (hn : A.p.getD A.cols 0 ≤ nnz)
    {stype : Int} (hs : stype < 0) {nd : NodeND} {pk : PartKway}
    (hnd : ∀ g, A.StrayGraph g →
      (nd A.cols g.p g.i).1 = 1 ∧ (nd A.cols g.p g.i).2.Perm (List.range A.cols))
    (hpk : ∀ (B : Sp V) g, B.cols = A.cols → B.StrayGraph g →
      (pk A.cols g.p g.i none k).1 = 1 ∧ (pk A.cols g.p g.i none k).2.length = A.cols)
    (debug : Bool) :
    ∃ g₀ π F g, A.StrayGraph g₀ ∧ InverseOf (nd A.cols g₀.p g₀.i).2 π A.cols ∧
      partitioning nd pk debug A nnz stype true k = ok (F, (pk A.cols g.p g.i none k).2) ∧
      F.WF ∧ F.rows = A.cols ∧ F.cols = A.cols ∧
      F.coords.Perm ((bothHalves A.coords).map fun e => (π e.1, π e.2)) ∧ F.StrayGraph g := by
  obtain ⟨g₀, a1, a2⟩ := C83_perm_symmetric h hsq hc hdg hn (stype := stype) (by omega) debug
  obtain ⟨n1, n2⟩ := hnd g₀ a1
  have a3 := a2 nd (by rw [n2.length_eq, List.length_range])
  rw [if_neg (by rw [n1]; simp)] at a3
  obtain ⟨π, hπ⟩ := inverse_exists n2
  obtain ⟨T, t1, t2, t3, t4, t5, t6, t7⟩ := C60_pattern (pat := true) (stype := stype) (nnz := nnz)
    (perm := some (nd A.cols g₀.p g₀.i).2) (π := π) h (by simp) hsq hc (by omega) hn n2 hπ.1
  have hTw : T.WF := ⟨t2, by rw [t6, ← t5]; exact t2.bound⟩
  have hTn : T.p.getD T.cols 0 ≤ nnz := by rw [← t5]; exact t2.bound
  obtain ⟨F, f1, f2, f3, f4, f5⟩ := C29_make_full hTw (by omega) (by omega) hTn
  have hb : ∀ e ∈ A.coords, e.1 < A.cols ∧ e.2 < A.cols := by
    rintro ⟨r, c⟩ he
    obtain ⟨m1, m2⟩ := Metis.mem_coords.1 he
    have := h.range c m1 r m2
    exact ⟨by omega, m1⟩
  have hinj : ∀ a b, a < A.cols → b < A.cols → π a = π b → a = b := by
    intro a b ha hb' e
    rw [← (hπ.2 a ha).2, ← (hπ.2 b hb').2, e]
  have hFT : F.coords.Perm (bothHalves T.coords) := by
    rw [← coords_entries f2, ← coords_entries hTw]
    unfold bothHalves
    rw [List.flatMap_map]
    refine (f5.map _).trans (List.Perm.of_eq ?_)
    rw [List.map_flatMap]
    refine List.flatMap_congr ?_
    rintro ⟨r, c, v⟩ _
    exact mirrored_coords r c v
  have hFc : F.coords.Perm ((bothHalves A.coords).map fun e => (π e.1, π e.2)) := by
    refine hFT.trans ?_
    have e1 : (A.coords.filter fun e => inTriangle stype e.1 e.2) = A.coords := by
      refine List.filter_eq_self.2 ?_
      intro e he
      have := hlow e he
      unfold inTriangle
      rw [if_neg (by omega)]
      simpa using this
    rw [e1] at t7
    unfold bothHalves
    refine (t7.flatMap_right _).trans ?_
    rw [List.flatMap_map, List.map_flatMap]
    refine flatMap_perm _ ?_
    rintro ⟨r, c⟩ he
    obtain ⟨hr, hcc⟩ := hb _ he
    dsimp only at hr hcc ⊢
    have eo : otherTriangle stype π r c = (min (π r) (π c), max (π r) (π c)) := by
      unfold otherTriangle
      rw [if_neg (show ¬ 0 < stype by omega)]
    rw [eo]
    dsimp only
    by_cases e : r = c
    · subst e; simp
    · have hne : π r ≠ π c := fun e' => e (hinj _ _ hr hcc e')
      rw [if_neg e, if_neg (by omega)]
      rcases Nat.lt_or_ge (π r) (π c) with hlt | hge
      · rw [Nat.min_eq_left hlt.le, Nat.max_eq_right hlt.le]
        exact List.Perm.refl _
      · rw [Nat.min_eq_right hge, Nat.max_eq_left hge]
        exact List.Perm.swap _ _ _
  have hbb : ∀ e ∈ bothHalves A.coords, e.1 < A.cols ∧ e.2 < A.cols := by
    intro e he
    unfold bothHalves at he
    obtain ⟨⟨r, c⟩, m1, m2⟩ := List.mem_flatMap.1 he
    have := hb _ m1
    dsimp only at m2 this
    split at m2
    · simp at m2; subst m2; exact this
    · simp at m2
      rcases m2 with rfl | rfl
      · exact this
      · exact this.symm
  have hFnd : F.NoDup := by
    refine noDup_of_coords (hFc.nodup_iff.2 ?_)
    refine List.Nodup.map_on ?_ (nodup_mirrored (coords_nodup hd) hlow)
    rintro ⟨a, b⟩ h1 ⟨c, d⟩ h2 e
    obtain ⟨x1, x2⟩ := hbb _ h1
    obtain ⟨y1, y2⟩ := hbb _ h2
    simp only [Prod.mk.injEq] at e ⊢
    exact ⟨hinj _ _ x1 y1 e.1, hinj _ _ x2 y2 e.2⟩
  have hFd : F.FullDiag := by
    refine fullDiag_of_mem hFnd ?_
    intro c hcc
    rw [hFc.mem_iff]
    have hlen : (nd A.cols g₀.p g₀.i).2.length = A.cols := by rw [n2.length_eq, List.length_range]
    have hcA : c < A.cols := by omega
    have hq : (nd A.cols g₀.p g₀.i).2.getD c 0 < A.cols := by
      rw [List.getD_eq_getElem _ _ (by omega)]
      exact List.mem_range.1 (n2.mem_iff.1 (List.getElem_mem _))
    refine List.mem_map.2 ⟨((nd A.cols g₀.p g₀.i).2.getD c 0, (nd A.cols g₀.p g₀.i).2.getD c 0), ?_, ?_⟩
    · unfold bothHalves
      refine List.mem_flatMap.2 ⟨_, mem_of_fullDiag hdg hq, ?_⟩
      rw [if_pos rfl]
      exact List.mem_singleton.2 rfl
    · dsimp only
      rw [hπ.1 c hcA]
  obtain ⟨g, s1, s2⟩ := C83_partition_symmetric (k := k) f2.toPatWF (by omega) (by omega) hFd
    (Nat.le_refl (F.p.getD F.cols 0)) debug
  have hFA : F.cols = A.cols := by omega
  obtain ⟨o1, o2⟩ := hpk F g hFA s1
  rw [hFA] at s2
  have s3 := s2 pk o2
  rw [if_neg (by rw [o1]; simp)] at s3
  refine ⟨g₀, π, F, g, a1, hπ, ?_, f2, by omega, hFA, hFc, s1⟩
  unfold partitioning
  rw [if_pos rfl, a3, ok_bind]
  dsimp only
  rw [t1, ok_bind]
  dsimp only
  rw [show decide (-stype = 0) = false from by simp; omega, f1, ok_bind]
  dsimp only
  rw [rd_getD 0 (by rw [f2.plen]; omega), ok_bind, hFA, s3]
  rfl

omit [Zero V] in
/-- **C129** (finding): both graphs METIS is given in that case break its rules. -/
theorem C129_pattern_not_accepted {A : Sp V} (hc : 0 < A.cols) {g : Csc} (h : A.StrayGraph g) : ¬ g.Undirected :=
  C83_never_accepted h hc

/-- **C129** (finding): a pattern that is not marked symmetric is transposed to a null pointer, which `make_full`
dereferences. -/
theorem C129_unsymmetric_pattern_ub (nd : NodeND) (pk : PartKway) (debug : Bool) (A : Sp V) (nnz k : Nat) :
    partitioning nd pk debug A nnz 0 true k = ub := by
  unfold partitioning
  rw [if_pos rfl, C83_unsymmetric, ok_bind]
  dsimp only
  rw [C60_not_symmetric _ _ _ _ _ (.inl rfl)]
  rfl

/-! A path of three nodes, numbered backwards, node `i` in part `i % 2`. -/

/-- METIS puts node `i` into part `i % 2`. -/
def parity : PartKway := fun n _ _ _ k => (1, (List.range n).map fun i => if k < 2 then 0 else i % 2)

theorem parity_ok : Partitions parity := by
  intro g w k _ hk _ _
  refine ⟨rfl, by simp [parity], ?_⟩
  intro x hx
  obtain ⟨i, -, rfl⟩ := List.mem_map.1 hx
  split <;> omega

/-- The whole path, with values. -/
def exPath : Sp Int := ⟨3, 3, [0, 2, 5, 7], [0, 1, 0, 1, 2, 1, 2], [4, 1, 1, 4, 1, 1, 4]⟩

/-- Its lower triangle, without values. -/
def exHalf : Sp Int := ⟨3, 3, [0, 2, 4, 5], [0, 1, 1, 2, 2], []⟩

example : exPath.WF ∧ exPath.Exact ∧ exPath.NoDup ∧ (∀ e ∈ exPath.coords, (e.2, e.1) ∈ exPath.coords) ∧
    OrdersNodes backwards ∧ Partitions parity ∧
    partitioning backwards parity true exPath 7 0 false 2 = ok (exPath, [0, 1, 0]) := by
  refine ⟨⟨⟨by decide, by decide, by decide, by decide, by decide⟩, by decide⟩, ⟨by decide, by decide⟩, ?_, by decide,
    backwards_ok, parity_ok, by decide +kernel⟩
  unfold Sp.NoDup; decide

example : exHalf.PatWF ∧ exHalf.NoDup ∧ (∀ e ∈ exHalf.coords, e.2 ≤ e.1) ∧ exHalf.FullDiag ∧
    (∀ g, exHalf.StrayGraph g →
      (backwards 3 g.p g.i).1 = 1 ∧ (backwards 3 g.p g.i).2.Perm (List.range 3)) ∧
    (∀ (B : Sp Int) g, B.cols = 3 → B.StrayGraph g →
      (parity 3 g.p g.i none 2).1 = 1 ∧ (parity 3 g.p g.i none 2).2.length = 3) ∧
    partitioning backwards parity true exHalf 5 (-1) true 2
      = ok (⟨3, 3, [0, 2, 5, 7], [0, 1, 1, 0, 2, 2, 1, 0, 0, 0], List.replicate 10 0⟩, [0, 1, 0]) := by
  refine ⟨⟨by decide, by decide, by decide, by decide, by decide⟩, ?_, by decide, ?_,
    fun g _ => ⟨rfl, List.reverse_perm _⟩, fun B g _ _ => ⟨rfl, by simp [parity]⟩, by decide +kernel⟩
  · unfold Sp.NoDup; decide
  · unfold Sp.FullDiag; decide

end Verif.GenMtx
