import Verif.Proof.Hdagg
import Verif.Props.ComputeCC
import Verif.Props.PostOrder
import Verif.Props.Exec

/-!
# C14-C16: `HDAGG`

`hdagg debug rdiv accept cc cc' a` is the model of the call: `debug` is a build with assertions,
`rdiv` the division of a cost by a number of cores, `accept k lvl` the outcome of the
floating-point load-balance test, `cc`/`cc'` the interleavings of the component
computations (`nofuel`: the interleaving given ends before the computation does).
-/

namespace Verif
open Res hiding ub
open Hdagg LevelSet Csc Exec

/-- What a caller of `HDAGG` has to provide: the graph `g` in the arguments, well formed, acyclic
and with fewer levels than nodes; positive costs; at least one core; for the order of
parts by post order, the diagonal first in each column. -/
structure HdaggHyp {K : Type} [AddCommGroup K] [LinearOrder K] (g : Csc) (rdiv : K → Nat → K)
    (a : Args K) : Prop where
  graph : (⟨a.n, a.p, a.ix⟩ : Csc) = g
  wf : g.WF
  oneDiag : g.OneDiag
  acyclic : g.Acyclic
  shallow : ¬ ∃ v, g.IsDepth v (g.n - 1)
  costLen : a.nodeCost.length = g.n
  costPos : ∀ c ∈ a.nodeCost, 0 < c
  cores : 1 ≤ a.cores
  rdiv : RDivOk rdiv
  diagFirst : a.postOrder = true → g.DiagFirst

section
variable {K : Type} [AddCommGroup K] [LinearOrder K] [IsOrderedAddMonoid K]

/-- The dependences that the chosen order inside parts can respect. -/
private def orderedDep (g : Csc) (a : Args K) (u v : Nat) : Prop :=
  g.Dep u v ∧ (a.binPack = true → a.postOrder = false → u < v)

private theorem hdagg_spec {g : Csc} {rdiv : K → Nat → K} {a : Args K} (h : HdaggHyp g rdiv a)
    (accept : Nat → Nat → Bool) :
    (∀ cc cc', wpl (hdagg false rdiv accept cc cc' a)
      (fun r => r.2.Valid g.n (orderedDep g a) ∧ r.2.Together g.Dep)) ∧
    ∃ cc cc' r, hdagg false rdiv accept cc cc' a = ok r := by
  have hn : a.n = g.n := congrArg Csc.n h.graph
  have hp : a.p = g.p := congrArg Csc.p h.graph
  have hi : a.ix = g.i := congrArg Csc.i h.graph
  obtain ⟨o, ho, hL⟩ := buildLevelSet_ok h.wf h.oneDiag
  obtain ⟨o', ho', h4, _⟩ := C04_error_code_exact h.wf h.oneDiag
  rw [ho] at ho'
  cases ho'
  have hne : o.ret ≠ -1 := by
    intro hc
    rcases h4.1 hc with h5 | h5
    · exact h5 h.acyclic
    · exact h.shallow h5
  rcases hL with ⟨L, hL, hO⟩ | ⟨hr, _⟩
  · have hpos : ∀ v, v < g.n → 0 < a.nodeCost.getD v 0 := by
      intro v hv
      refine h.costPos _ ?_
      rw [List.getD_eq_getElem?_getD, List.getElem?_eq_getElem (by rw [h.costLen]; exact hv)]
      exact List.getElem_mem _
    have hrun : ∀ cc cc', hdagg false rdiv accept cc cc' a = (do
        let w ← windows false ⟨a.n, a.p, a.ix, a.nodeCost, a.cores, rdiv, o.levelPtr, o.levelSet,
          o.nodeToLevel, L⟩ accept cc
        let s ← computeSchedule false ⟨a.cores, a.n, a.p, a.ix, o.levelPtr, o.levelSet,
          o.nodeToLevel, a.binPack, a.postOrder⟩ w.wm w.chunks cc'
        ok (w.wm, s)) := by
      intro cc cc'
      unfold hdagg
      rw [show buildLevelSet a.n a.p a.ix = ok o by rw [hn, hp, hi]; exact ho]
      simp only [ok_bind]
      rw [if_neg (by omega), hL, Int.toNat_natCast]
    have hspec : ∀ (t : Bool) (cc cc' : Orac),
        (t = true → CCTotal false g L o.levelPtr o.levelSet o.nodeToLevel a.nodeCost cc) →
        (t = true → SCTotal g L o.levelPtr o.levelSet o.nodeToLevel cc') →
        wpm t (hdagg false rdiv accept cc cc' a)
          (fun r => r.2.Valid g.n (orderedDep g a) ∧ r.2.Together g.Dep) := by
      intro t cc cc' hT hT'
      rw [hrun]
      exact wpm_mono (hdagg_rest (D := g.Dep)
        (S := fun u v => a.binPack = true → a.postOrder = false → u < v) h.wf hO h.rdiv hn hp hi h.costLen hpos
        h.cores (fun u v h => h) (fun h1 h2 u v _ h => h h1 h2)
        (fun hpo => ⟨h.diagFirst hpo, h.oneDiag⟩) accept hT hT') (fun r hr => hr.2.2)
    refine ⟨fun cc cc' => ?_, ?_⟩
    · have := hspec false cc cc' (by simp) (by simp)
      rwa [wpm_false] at this
    · obtain ⟨cc, hcc⟩ := exists_ccTotal h.wf hO h.costLen false
      obtain ⟨cc', hcc'⟩ := exists_scTotal h.wf hO
      have := hspec true cc cc' (fun _ => hcc) (fun _ => hcc')
      rw [wpm_true] at this
      obtain ⟨r, h1, _⟩ := wp_iff.1 this
      exact ⟨cc, cc', r, h1⟩
  · exact absurd hr hne

/-- **C14.** Every completed run of `HDAGG` returns a schedule with well-formed pointer arrays that
lists every node exactly once, for every outcome of the balance tests and every
interleaving; no run has an out-of-bounds access or throws, and some run completes. -/
theorem C14_hdagg_complete {g : Csc} {rdiv : K → Nat → K} {a : Args K} (h : HdaggHyp g rdiv a)
    (accept : Nat → Nat → Bool) :
    (∀ cc cc', wpl (hdagg false rdiv accept cc cc' a)
      (fun r => r.2.PtrsOk g.n ∧ r.2.Complete g.n)) ∧
    ∃ cc cc' r, hdagg false rdiv accept cc cc' a = ok r :=
  ⟨fun cc cc' => wpl_mono ((hdagg_spec h accept).1 cc cc') fun _ hr =>
      ⟨hr.1.ptrs, hr.1.complete⟩,
    (hdagg_spec h accept).2⟩

/-- **C15.** In the schedule returned by `HDAGG` every dependence goes to a later coarse level, or
to a later position of the same part.  When parts are sorted by node number
(bin packing without post order) the graph has to be lower triangular. -/
theorem C15_hdagg_respects_dependences {g : Csc} {rdiv : K → Nat → K} {a : Args K}
    (h : HdaggHyp g rdiv a) (hlow : a.binPack = true → a.postOrder = false → g.Lower)
    (accept : Nat → Nat → Bool) (cc cc' : Orac) :
    wpl (hdagg false rdiv accept cc cc' a) (fun r => r.2.Respects g.Dep) := by
  refine wpl_mono ((hdagg_spec h accept).1 cc cc') fun r hr u v huv =>
    hr.1.respects u v ⟨huv, ?_⟩
  intro h1 h2
  have := hlow h1 h2 u huv.1 v huv.2.1
  have := huv.2.2
  omega

/-- C15 for every acyclic graph, whatever the numbering of its nodes: a dependence goes to a later
coarse level or stays inside a part.  (Used when the parts are re-sorted afterwards.) -/
theorem C15_hdagg_together {g : Csc} {rdiv : K → Nat → K} {a : Args K}
    (h : HdaggHyp g rdiv a) (accept : Nat → Nat → Bool) (cc cc' : Orac) :
    wpl (hdagg false rdiv accept cc cc' a) (fun r => r.2.Together g.Dep) :=
  wpl_mono ((hdagg_spec h accept).1 cc cc') fun _ hr => hr.2

/-- **C16.** For the graph of a lower triangular matrix, the parallel solve with the schedule of
`HDAGG` gives the values of the serial solve, whatever the balance tests, the interleavings of
the inspector and of the executor, and the arithmetic. -/
theorem C16_hdagg_end_to_end {V : Type} (A : Arith V) {m : Mat V} (hm : m.LowerCsr)
    {g : Csc} (hg : Mat.SameDeps g m) {rdiv : K → Nat → K} {a : Args K} (h : HdaggHyp g rdiv a)
    {b : List V} (hb : b.length = m.n) :
    ∃ xs, sptrsvCsr A m.n m.p m.i m.x b = ok xs ∧
      ∀ accept cc cc', wpl (hdagg false rdiv accept cc cc' a) (fun r =>
        AlwaysGives (fun sch => sptrsvLbc A m.p m.i m.x r.2 sch b) xs) := by
  obtain ⟨xs, hS⟩ := exists_solution (A := A) hm hb
  refine ⟨xs, sptrsvCsr_spec hm hb hS, fun accept cc cc' => ?_⟩
  refine wpl_mono ((hdagg_spec h accept).1 cc cc') fun r hr => ?_
  have hv : r.2.Valid m.n m.RowDep := by
    refine ⟨hg.1 ▸ hr.1.ptrs, hg.1 ▸ hr.1.complete, fun u v huv =>
      hr.1.respects u v ⟨(hg.2 u v).2 huv, ?_⟩⟩
    intro _ _
    obtain ⟨hv, l, hl⟩ := huv
    exact hm.lower v hv _ hl
  obtain ⟨xs', h1, h2⟩ := C06_lbc_solve_eq_serial A hm hv hb
  rw [sptrsvCsr_spec hm hb hS] at h1
  cases h1
  exact h2

omit [IsOrderedAddMonoid K] in
/-- Limit of C14: on every well-formed graph that is cyclic, or in which a path visits all nodes,
`HDAGG` throws (`std::vector` with negative size). -/
theorem C14_hdagg_throws_on_chains {g : Csc} (hwf : g.WF) (hd : g.OneDiag)
    (hbad : ¬ g.Acyclic ∨ ∃ v, g.IsDepth v (g.n - 1)) (debug : Bool) (rdiv : K → Nat → K)
    {a : Args K} (hg : (⟨a.n, a.p, a.ix⟩ : Csc) = g) (accept : Nat → Nat → Bool) (cc cc' : Orac) :
    hdagg debug rdiv accept cc cc' a = exn := by
  obtain ⟨o, ho, h4, _⟩ := C04_error_code_exact hwf hd
  subst hg
  unfold hdagg
  simp only at ho
  rw [ho]
  simp only [ok_bind]
  rw [if_pos (by have := h4.2 hbad; omega)]

end

/-! ### Findings -/

/-- `exGraph` without node 3: `0→2, 1→2`. -/
def exArgs (cores : Nat) (cost : List Int) : Args Int :=
  ⟨3, [0, 2, 4, 5], [0, 2, 1, 2, 2], cost, cores, false, true⟩

/-- A long round-robin interleaving. -/
def exOrac : Orac := fun _ _ _ => (List.range 240).map (· % 4)

/-- Finding: in a build with assertions the last window may be accepted while `chunk_sizes` still
belongs to the smaller window; then the assertion of line 431 fails. -/
theorem C14_debug_assertion_fails :
    hdagg true ceilDiv (fun _ _ => true) exOrac exOrac (exArgs 1 [1, 1, 1]) = exn := by
  decide +kernel

/-- Finding: with zero costs the schedule lists no node inside its parts. -/
theorem C14_zero_costs_lose_nodes :
    ∃ r, hdagg false ceilDiv (fun _ _ => true) exOrac exOrac (exArgs 2 [0, 0, 0]) = ok r ∧
      ¬ r.2.PtrsOk 3 := by
  refine ⟨([0, 2], ⟨1, [0, 2], [0, 0, 0], [0, 1, 2]⟩), by decide +kernel, ?_⟩
  rintro ⟨parts, h1, h2⟩
  have h3 := h1.last
  have h4 := h2.last
  simp only [List.getElem?_cons_succ, List.getElem?_cons_zero, Option.some.injEq] at h3
  subst h3
  simp at h4

/-! ### Non-vacuity -/

/-- `exGraph` on two cores. -/
def exArgs4 (postOrder binPack : Bool) : Args Int :=
  ⟨4, exGraph.p, exGraph.i, [1, 2, 3, 4], 2, postOrder, binPack⟩

theorem exArgs4_hyp (postOrder binPack : Bool) :
    HdaggHyp exGraph ceilDiv (exArgs4 postOrder binPack) := by
  obtain ⟨o, ho, h4, _⟩ := C04_error_code_exact exGraph_wf exGraph_oneDiag
  have hr : ¬ o.ret = -1 := by
    have : buildLevelSet exGraph.n exGraph.p exGraph.i
      = ok ⟨3, [0, 2, 3, 4, 0], [0, 1, 2, 3], [0, 0, 1, 2]⟩ := by decide
    rw [this] at ho
    cases ho
    decide
  rw [h4, not_or, not_not] at hr
  exact ⟨rfl, exGraph_wf, exGraph_oneDiag, hr.1, hr.2, rfl, by simp [exArgs4], by simp [exArgs4],
    ceilDiv_ok, fun _ => by unfold DiagFirst; decide⟩

/-- All levels in one window, no bin packing: one part with all nodes. -/
example : hdagg false ceilDiv (fun _ _ => true) exOrac exOrac (exArgs4 false false) =
    ok ([0, 3], ⟨1, [0, 1], [0, 4], [0, 1, 2, 3]⟩) := by
  decide +kernel

/-- One window for each level, bin packing, post order. -/
example : hdagg false ceilDiv (fun _ _ => false) exOrac exOrac (exArgs4 true true) =
    ok ([0, 1, 2, 3], ⟨3, [0, 2, 4, 6], [0, 2, 2, 3, 3, 4, 4], [0, 1, 2, 3]⟩) := by
  decide +kernel

/-- C16 for `exMat`: the hypotheses hold, and the solve with the schedule of the first example gives
the serial result. -/
example : exMat.LowerCsr ∧ Mat.SameDeps exGraph exMat ∧
    HdaggHyp exGraph ceilDiv (exArgs4 false false) ∧
    sptrsvLbc exArith exMat.p exMat.i exMat.x ⟨1, [0, 1], [0, 4], [0, 1, 2, 3]⟩
      (fun _ => List.replicate 40 0) [2, 3, 6, 11] = ok [1, 1, 1, 1] :=
  ⟨exMat_lower, exGraph_sameDeps, exArgs4_hyp _ _, by decide⟩

end Verif
