import Verif.Proof.LbcCsc
import Verif.Props.LbcSeq

/-!
# C88: the LBC inspector of lbc_csc.cpp

`get_coarse_levelSet_DAG_CSC` (src/lbc_csc.cpp 15-296).  Vocabulary: `Csc.Dep`, `Csc.Acyclic`,
`Csc.DiagFirst` (Verif/Spec/Graph.lean), `Sched.Valid` (Verif/Spec/Sched.lean).
-/

namespace Verif.Lbc
open Res Csc LevelSet Hdagg

variable {g : Csc}

/-- What a caller has to provide: a well-formed acyclic graph that stores the diagonal first in each
column, of at most `INT32_MAX` and at least two nodes; if it is a chain of two nodes, not the
distance 1; a cost for every node; not the value 0 for the number of parts; tuning parameters for
which the cutting into windows is sound (C35); bin packing, or an edge and a distance of at least
2.  Unlike in C36 and C55, a path may visit all nodes. -/
structure CscHyp {K : Type} (g : Csc) (P : Params K) (minDist divRate : Int) (nodeCost : List K)
    (xi0 ps0 : List Nat) : Prop where
  wf : g.WF
  oneDiag : g.OneDiag
  diagFirst : g.DiagFirst
  acyclic : g.Acyclic
  small : g.n ≤ intMax
  big : 3 ≤ g.n ∨ (g.n = 2 ∧ (minDist ≠ 1 ∨ ∀ u v, ¬ g.Dep u v))
  costLen : nodeCost.length = g.n
  xiLen : xi0.length = g.n
  psLen : ps0.length = g.n
  innerParts : P.innerParts ≠ 0
  steps : (1 ≤ divRate ∧ 1 ≤ minDist + divRate) ∨ (0 ≤ minDist ∧ ∀ v, ¬ g.PathTo minDist.toNat v)
  packing : P.binPack = true ∨ (2 ≤ minDist ∧ ∃ u v, g.Dep u v)
  sort : ∀ l, (P.sort l).Perm l

section
variable {K : Type} [Add K] [LT K] [DecidableLT K]

/-- **C88.**  The inspector ends normally, and its schedule has well-formed pointers, lists every node
exactly once, and puts every dependence into a later coarse level or to a later position of the same
part. -/
theorem C88_csc_lbc_valid {P : Params K} {minDist divRate : Int} {nodeCost : List K}
    {xi0 ps0 : List Nat} (h : CscHyp g P minDist divRate nodeCost xi0 ps0) (zero : K) :
    ∃ s, coarsenCsc P g.n g.p g.i minDist divRate nodeCost zero xi0 ps0 = ok s ∧
      s.Valid g.n g.Dep := by
  obtain ⟨s, h1, h2, -⟩ := wp_iff.1 (coarsenCsc_wp h.wf h.oneDiag h.diagFirst h.acyclic h.innerParts
    h.sort h.small h.steps h.big h.packing h.costLen zero h.xiLen h.psLen)
  exact ⟨s, h1, h2⟩

/-- **C88, with the solver.**  With the schedule of this inspector for the dependence graph of a lower
triangular matrix, the parallel solve `sptrsv_csr_lbc` gives the values of the serial solve, for
every interleaving and every arithmetic. -/
theorem C88_csc_lbc_solve {F : Type} (A : Arith F) {m : Mat F} (hm : m.LowerCsr)
    (hg : Mat.SameDeps g m) {P : Params K} {minDist divRate : Int} {nodeCost : List K}
    {xi0 ps0 : List Nat} (h : CscHyp g P minDist divRate nodeCost xi0 ps0) (zero : K) {b : List F}
    (hb : b.length = m.n) :
    ∃ s xs, coarsenCsc P g.n g.p g.i minDist divRate nodeCost zero xi0 ps0 = ok s ∧
      Exec.sptrsvCsr A m.n m.p m.i m.x b = ok xs ∧
      AlwaysGives (fun sch => Exec.sptrsvLbc A m.p m.i m.x s sch b) xs := by
  obtain ⟨s, h1, hs⟩ := C88_csc_lbc_valid h zero
  have hv : s.Valid m.n m.RowDep :=
    ⟨hg.1 ▸ hs.ptrs, hg.1 ▸ hs.complete, fun u v huv => hs.respects u v ((hg.2 u v).2 huv)⟩
  obtain ⟨xs, x1, x2⟩ := C06_lbc_solve_eq_serial A hm hv hb
  exact ⟨s, xs, h1, x1, x2⟩

end

/-! ### Examples and limits -/

/-- The chain `0→1→2`, on which the inspectors of C36 and C55 throw. -/
def exChain : Csc := ⟨3, [0, 2, 4, 5], [0, 1, 1, 2, 2]⟩

theorem exChain_dep {u v : Nat} (h : exChain.Dep u v) : v = u + 1 := by
  obtain ⟨h1, h2, h3⟩ := h
  have h1 : u < 3 := h1
  have : u = 0 ∨ u = 1 ∨ u = 2 := by omega
  rcases this with rfl | rfl | rfl <;> simp [exChain, Csc.col, Csc.ptr] at h2 <;> omega

theorem exChain_acyclic : exChain.Acyclic := by
  have : ∀ a c, Relation.TransGen exChain.Dep a c → a < c := by
    intro a c h
    induction h with
    | single h => have := exChain_dep h; omega
    | tail _ h ih => have := exChain_dep h; omega
  intro v hv
  have := this v v hv
  omega

/-- The hypotheses of C88 hold for the chain of three nodes. -/
example : CscHyp exChain exParams 1 1 [1, 1, 1] [7, 7, 7] [9, 9, 9] ∧
    coarsenCsc exParams exChain.n exChain.p exChain.i 1 1 [1, 1, 1] 0 [7, 7, 7] [9, 9, 9]
      = ok ⟨2, [0, 1, 2, 0], [0, 1, 3], [0, 1, 2]⟩ :=
  ⟨⟨⟨by decide, by decide, by decide, by decide, by decide⟩, by
      show ∀ u, u < 3 → _; decide, by show ∀ u, u < 3 → _; decide, exChain_acyclic, by decide, .inl (by decide), rfl, rfl, rfl,
    by decide, .inl (by decide), .inl rfl, fun _ => .refl _⟩, by decide +kernel⟩

/-- The graph `0→2, 1→2, 2→3` without bin packing. -/
example : CscHyp exGraph { exParams with binPack := false } 2 1 [1, 1, 1, 1] [7, 7, 7, 7] [9, 9, 9, 9] ∧
    coarsenCsc { exParams with binPack := false } exGraph.n exGraph.p exGraph.i 2 1 [1, 1, 1, 1] 0
      [7, 7, 7, 7] [9, 9, 9, 9] = ok ⟨2, [0, 1, 2, 0, 0], [0, 3, 4, 0], [0, 1, 2, 3]⟩ :=
  ⟨⟨exGraph_wf, exGraph_oneDiag, by show ∀ u, u < 4 → _; decide, exGraph_acyclic, by decide,
    .inl (by decide), rfl, rfl, rfl, by decide, .inl (by decide),
    .inr ⟨by decide, 2, 3, by unfold Csc.Dep; decide⟩, fun _ => .refl _⟩, by decide +kernel⟩

/-- **C88, limit: one node.**  `finalPartPtr` has `n` elements, one too few for `n` parts. -/
theorem C88_one_node_ub : coarsenCsc exParams 1 [0, 1] [0] 1 1 [1] 0 [7] [9] = Res.ub ∧
    coarsenCsc exParams 1 [0, 1] [0] 2 1 [1] 0 [7] [9] = Res.ub := by decide +kernel

/-- **C88, limit: a chain of two nodes with distance 1** has two parts. -/
theorem C88_two_chain_ub :
    coarsenCsc exParams 2 [0, 2, 3] [0, 1, 1] 1 1 [1, 1] 0 [7, 7] [9, 9] = Res.ub := by decide +kernel

/-- **C88, limit: no bin packing without an edge, or with distance 1.** -/
theorem C88_no_packing_ub :
    coarsenCsc { exParams with binPack := false } 3 [0, 1, 2, 3] [0, 1, 2] 2 1 [1, 1, 1] 0 [7, 7, 7]
      [9, 9, 9] = Res.ub ∧
    coarsenCsc { exParams with binPack := false } 4 [0, 2, 4, 5, 6] [0, 2, 1, 3, 2, 3] 1 1 [1, 1, 1, 1] 0
      [7, 7, 7, 7] [9, 9, 9, 9] = Res.ub := by decide +kernel

/-- **C88, limit: the diagonal has to be first.**  The chain `0→1→2` with column 0 stored as `1, 0`: node 0
counts itself as a dependence and is missing in the schedule. -/
theorem C88_diagonal_not_first :
    ∃ s, coarsenCsc exParams 3 [0, 2, 4, 5] [1, 0, 1, 2, 2] 1 1 [1, 1, 1] 0 [7, 7, 7] [9, 9, 9]
      = ok s ∧ ∀ l q k, ¬ s.At 0 l q k := by
  refine ⟨⟨2, [0, 1, 2, 0], [0, 1, 2], [1, 2, 0]⟩, by decide +kernel, ?_⟩
  rintro l q k ⟨h1, h2, h3, h4⟩
  have h1 : l < 2 := h1
  have hk : k < 3 := (List.getElem?_eq_some_iff.1 h4).1
  have : k = 0 ∨ k = 1 ∨ k = 2 := by omega
  rcases this with rfl | rfl | rfl
  · simp at h4
  · simp at h4
  · have : l = 0 ∨ l = 1 := by omega
    rcases this with rfl | rfl
    · have : q = 0 := by
        obtain ⟨a, b, h5, h6, h7, h8⟩ := h2
        simp at h5 h6
        omega
      subst this
      obtain ⟨a, b, h5, h6, h7, h8⟩ := h3
      simp at h5 h6
      omega
    · have : q = 1 := by
        obtain ⟨a, b, h5, h6, h7, h8⟩ := h2
        simp at h5 h6
        omega
      subst this
      obtain ⟨a, b, h5, h6, h7, h8⟩ := h3
      simp at h5 h6
      omega

end Verif.Lbc
