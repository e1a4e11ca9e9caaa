import Verif.Proof.PostOrder
import Verif.Props.LevelSet

/-! # C20: the post order of `computePostOrder` is a topological order -/

namespace Verif
open Res

/-- **C20.** For every acyclic graph with the diagonal entry first (and only once) in each column,
`computePostOrder` terminates, stays in bounds and returns a permutation of the nodes in which
every node precedes the nodes that depend on it.  (`strict = false`: the value read from the
emptied stack in line 260, which is never used, is unspecified instead of undefined.) -/
theorem C20_post_order_topological {g : Csc} (hwf : g.WF) (hf : g.DiagFirst) (ho : g.OneDiag)
    (ha : g.Acyclic) :
    ∃ post, PostOrder.computePostOrder false g.n g.p g.i = ok post ∧
      post.Perm (List.range g.n) ∧
      ∀ u v (a b : Nat), g.Dep u v → post[a]? = some u → post[b]? = some v → a < b := by
  obtain ⟨post, h, h1⟩ := wp_iff.1 (PostOrder.computePostOrder_spec hwf hf ho ha)
  exact ⟨post, h, h1.perm, h1.topo⟩

/-- Finding: read strictly, every such call on a non-empty graph has undefined behaviour, because
`stack.back()` is evaluated on an empty vector after each search (hdagg.cpp:260). -/
theorem C20_back_of_empty_stack {g : Csc} (hwf : g.WF) (hf : g.DiagFirst) (ho : g.OneDiag)
    (ha : g.Acyclic) (hn : 0 < g.n) : PostOrder.computePostOrder true g.n g.p g.i = ub :=
  PostOrder.computePostOrder_strict hwf hf ho ha hn

/-! ### Non-vacuity -/

/-- A graph all of whose edges go to larger numbers is acyclic. -/
theorem Csc.Lower.acyclic {g : Csc} (h : ∀ u v, g.Dep u v → u < v) : g.Acyclic := by
  intro v hv
  have : ∀ a b, Relation.TransGen g.Dep a b → a < b := by
    intro a b h'
    induction h' with
    | single h' => exact h _ _ h'
    | tail _ h' ih => exact lt_trans ih (h _ _ h')
  exact absurd (this v v hv) (lt_irrefl _)

example : exGraph.WF ∧ exGraph.DiagFirst ∧ exGraph.OneDiag ∧ exGraph.Acyclic ∧ 0 < exGraph.n ∧
    PostOrder.computePostOrder false exGraph.n exGraph.p exGraph.i = ok [0, 1, 2, 3] := by
  refine ⟨exGraph_wf, by unfold Csc.DiagFirst; decide, exGraph_oneDiag, ?_, by decide, by decide⟩
  apply Csc.Lower.acyclic
  rintro u v ⟨h1, h2, h3⟩
  have h1' : u < 4 := h1
  have : u = 0 ∨ u = 1 ∨ u = 2 ∨ u = 3 := by omega
  rcases this with rfl | rfl | rfl | rfl <;> simp [exGraph, Csc.col, Csc.ptr] at h2 <;> omega

/-- A graph whose post order is not the identity: edges `0→3`, `3→1`, `2→1`. -/
example : PostOrder.computePostOrder false 4 [0, 2, 3, 5, 7] [0, 3, 1, 2, 1, 3, 1]
    = ok [0, 3, 2, 1] := by decide

end Verif
