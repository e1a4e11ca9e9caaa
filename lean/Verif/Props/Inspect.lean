import Verif.Proof.Inspect
import Verif.Props.LevelSet
import Verif.Props.Sparse

/-!
# C97, C98: `compute_depth`, `find` and `sup2node_gen`

The models are in Verif/Model/Inspector.lean.  `Csc.IsHeight` (Verif/Spec/Inspect.lean) and `Csc.Dep`,
`Csc.Acyclic` (Verif/Spec/Graph.lean) are the specification vocabulary.
-/

namespace Verif.Inspect
open Res Sp LevelSet Csc

variable {V : Type} [Zero V] {A : Sp V}

theorem run (dbg pat : Bool) {nnz : Nat} (h : A.PatWF) (hs : A.rows = A.cols) (hn : 0 < A.cols)
    (hd : A.graph.OneDiag) (hx : pat = false → A.p.getD A.cols 0 ≤ A.x.length)
    (hnnz : A.p.getD A.cols 0 ≤ nnz) (degrees : List Nat) :
    ∃ f : Csc, ∃ o, f.n = A.cols ∧ f.WF ∧ f.OneDiag ∧ (∀ u v, f.Dep u v ↔ A.graph.Dep v u) ∧
      buildLevelSet f.n f.p f.i = ok o ∧
      computeDepth dbg A nnz pat degrees = writeLevels o.ret o.levelPtr o.levelSet degrees := by
  obtain ⟨o, h1, B, rfl, h2, h3, h4, _⟩ := wp_iff.1 (transposeGeneral_wp (dbg := dbg) h
    (pat := pat) hx (by omega) hnnz)
  have hB := h4.patWF
  have hF : Flip A B := ⟨h2, h3, h4.coords_perm⟩
  have hfn : B.graph.n = A.cols := by show B.cols = A.cols; omega
  have hwf : B.graph.WF := graph_wf hB (by omega)
  have hod : B.graph.OneDiag := by
    intro u hu
    have hu' : u < B.cols := hu
    have := hF.count (u := u) (by omega) (by omega)
    exact this.trans (hd u (show u < A.cols by omega))
  obtain ⟨o, ho, _⟩ := buildLevelSet_ok hwf hod
  refine ⟨B.graph, o, hfn, hwf, hod, fun u v => hF.dep h hs, ho, ?_⟩
  have hp := h.plen
  have hp' := hB.plen
  have hend : A.p.getD A.cols 0 = B.p.getD B.cols 0 := by
    rw [h4.ptr (Nat.le_refl _), below_all _ _ _ h4.keys, tagged_length h]
  unfold computeDepth
  rw [h1, ok_bind, Symm.deref, ok_bind, rd_getD 0 (by omega), ok_bind, rd_getD 0 (by omega), ok_bind,
    if_neg (by rw [hend]; simp)]
  have : buildLevelSet A.cols B.p B.i = ok o := by rw [← hfn]; exact ho
  rw [this, ok_bind]

/-- **C97.** For every square matrix with one diagonal entry per column whose graph has no path of
`n - 1` edges (so it is acyclic and not one chain), `compute_depth` stores for every node the number of edges of a longest
dependence path that starts in it; entries of the array beyond the nodes keep their value.  It does not
matter whether the matrix has values or is a pattern, or whether assertions are on. -/
theorem C97_compute_depth (dbg pat : Bool) {nnz : Nat} (h : A.PatWF) (hs : A.rows = A.cols)
    (hn : 0 < A.cols) (hd : A.graph.OneDiag) (hx : pat = false → A.p.getD A.cols 0 ≤ A.x.length)
    (hnnz : A.p.getD A.cols 0 ≤ nnz) {degrees : List Nat} (hdeg : A.cols ≤ degrees.length)
    (hc : ∀ v, ¬ A.graph.PathFrom (A.cols - 1) v) :
    ∃ d, computeDepth dbg A nnz pat degrees = ok d ∧ d.length = degrees.length ∧
      (∀ v, v < A.cols → ∃ k, d[v]? = some k ∧ A.graph.IsHeight v k) ∧
      ∀ v, A.cols ≤ v → d[v]? = degrees[v]? := by
  obtain ⟨f, o, hfn, hwf, hod, hdep, ho, he⟩ := run dbg pat h hs hn hd hx hnnz degrees
  have hpath : ∀ k v, f.PathTo k v ↔ A.graph.PathFrom k v := fun k v => pathTo_iff hfn hdep
  obtain ⟨o', ho', hr⟩ := buildLevelSet_ok hwf hod
  obtain rfl : o = o' := by rw [ho] at ho'; injection ho'
  rcases hr with ⟨L, hL, hok⟩ | ⟨_, v, hv⟩
  · obtain ⟨d, hd1, hd2, hd3, hd4⟩ := wp_iff.1 (writeLevels_wp (degrees := degrees) hok (by omega))
    refine ⟨d, by rw [he, hL]; exact hd1, hd2, fun v hv => ?_, fun v hv => ?_⟩
    · refine ⟨_, getElem?_getD 0 (by omega), ?_⟩
      rw [hd3 v (by omega)]
      have := hok.isDepth hwf (v := v) (by omega)
      exact ⟨(hpath _ _).1 this.1, fun m hm => this.2 m ((hpath _ _).2 hm)⟩
    · by_cases c : v < d.length
      · rw [getElem?_getD 0 c, getElem?_getD 0 (by omega), hd4 v (by omega)]
      · rw [List.getElem?_eq_none (by omega), List.getElem?_eq_none (by omega)]
  · rw [hfn] at hv
    exact absurd ((hpath _ _).1 hv) (hc v)

/-- **C97.** If the graph has a cycle, or if some path runs through all nodes (also for a single node),
`compute_depth` gives no sign of an error and leaves the array as it was. -/
theorem C97_compute_depth_silent (dbg pat : Bool) {nnz : Nat} (h : A.PatWF) (hs : A.rows = A.cols)
    (hn : 0 < A.cols) (hd : A.graph.OneDiag) (hx : pat = false → A.p.getD A.cols 0 ≤ A.x.length)
    (hnnz : A.p.getD A.cols 0 ≤ nnz) (degrees : List Nat)
    (hc : ¬ A.graph.Acyclic ∨ ∃ v, A.graph.PathFrom (A.cols - 1) v) :
    computeDepth dbg A nnz pat degrees = ok degrees := by
  obtain ⟨f, o, hfn, hwf, hod, hdep, ho, he⟩ := run dbg pat h hs hn hd hx hnnz degrees
  have hpath : ∀ k v, f.PathTo k v ↔ A.graph.PathFrom k v := fun k v => pathTo_iff hfn hdep
  obtain ⟨o', ho', hr, _⟩ := C04_error_code_exact hwf hod
  obtain rfl : o = o' := by rw [ho] at ho'; injection ho'
  have hret : o.ret = -1 := by
    rw [hr]
    by_cases ha : f.Acyclic
    · rcases hc with hc | ⟨v, hv⟩
      · exact absurd ((acyclic_iff hdep).1 ha) hc
      · refine .inr ⟨v, by rw [hfn]; exact (hpath _ _).2 hv, fun m hm => ?_⟩
        have := hm.lt_n hwf ha
        omega
    · exact .inl ha
  rw [he, hret]
  rfl

/-- **C97.** A matrix without rows is dereferenced as a null pointer. -/
theorem C97_compute_depth_empty (dbg pat : Bool) {nnz : Nat} (hr : A.rows = 0) (degrees : List Nat) :
    computeDepth dbg A nnz pat degrees = ub := by
  unfold computeDepth
  rw [C27_no_rows dbg pat hr]
  rfl

/-- Edges `0→2, 1→2, 2→3`. -/
def exDepth : Sp Nat := ⟨4, 4, [0, 2, 4, 6, 7], [0, 2, 1, 2, 2, 3, 3], []⟩

theorem exDepth_lt : ∀ u v, exDepth.graph.Dep u v → u < v := by
  rintro u v ⟨h1, h2, h3⟩
  have h1' : u < 4 := h1
  have : u = 0 ∨ u = 1 ∨ u = 2 ∨ u = 3 := by omega
  rcases this with rfl | rfl | rfl | rfl <;>
    simp [exDepth, Sp.graph, Csc.col, Csc.ptr] at h2 <;> omega

/-- The hypotheses of `C97_compute_depth` hold, and the heights are 2, 2, 1, 0. -/
example : exDepth.PatWF ∧ exDepth.rows = exDepth.cols ∧ exDepth.graph.OneDiag ∧ exDepth.graph.Acyclic ∧
    (∀ v, ¬ exDepth.graph.PathFrom (exDepth.cols - 1) v) ∧
    computeDepth true exDepth 7 true [9, 9, 9, 9, 8] = ok [2, 2, 1, 0, 8] := by
  refine ⟨⟨by decide, by decide, by decide, by decide, by decide⟩, rfl, by unfold OneDiag; decide, ?_, ?_,
    by decide +kernel⟩
  · have : ∀ a b, Relation.TransGen exDepth.graph.Dep a b → a < b := by
      intro a b h
      induction h with
      | single h => exact exDepth_lt _ _ h
      | tail _ h ih => exact lt_trans ih (exDepth_lt _ _ h)
    intro v hv
    exact absurd (this v v hv) (lt_irrefl _)
  · have hdep : ∀ u v, exDepth.graph.Dep u v → (u < 2 ∧ v = 2) ∨ (u = 2 ∧ v = 3) := by
      rintro u v ⟨h1, h2, h3⟩
      have h1' : u < 4 := h1
      have : u = 0 ∨ u = 1 ∨ u = 2 ∨ u = 3 := by omega
      rcases this with rfl | rfl | rfl | rfl <;>
        simp [exDepth, Sp.graph, Csc.col, Csc.ptr] at h2 <;> omega
    intro v hv
    have hv' : exDepth.graph.PathFrom 3 v := hv
    obtain _ | ⟨d1, p1⟩ := hv'
    obtain _ | ⟨d2, p2⟩ := p1
    obtain _ | ⟨d3, p3⟩ := p2
    have := hdep _ _ d1
    have := hdep _ _ d2
    have := hdep _ _ d3
    omega

/-- The chain `0→1→2`: the array is not written. -/
example : computeDepth true (⟨3, 3, [0, 2, 4, 5], [0, 1, 1, 2, 2], []⟩ : Sp Nat) 5 true [7, 7, 7]
    = ok [7, 7, 7] := by decide +kernel

/-! ### `find` and `sup2node_gen` -/

/-- **C98.** In an array that does not decrease up to position `nodes`, `find` returns a position of the
value it looks for, if there is one; every number of calls above `nodes` is enough. -/
theorem C98_find {sup : List Nat} {target nodes fuel k : Nat} (hlen : nodes < sup.length)
    (hs : ∀ a b, a ≤ b → b ≤ nodes → sup.getD a 0 ≤ sup.getD b 0) (hf : nodes < fuel)
    (hk : k ≤ nodes) (ht : sup[k]? = some target) :
    ∃ r, find sup target fuel 0 nodes = ok r ∧ r ≤ nodes ∧ sup[r]? = some target := by
  have hk' : sup.getD k 0 = target := by rw [List.getD_eq_getElem?_getD, ht]; rfl
  obtain ⟨r, h1, h2, h3⟩ := wp_iff.1 (find_found (target := target) hlen hs fuel 0 nodes (by omega)
    (Nat.zero_le _) (Nat.le_refl _) ⟨k, Nat.zero_le _, hk, hk'⟩)
  exact ⟨r, h1, h2, by rw [getElem?_getD 0 (by omega), h3]⟩

/-- **C98.** If the value does not occur, `find` calls itself for ever: no number of calls is enough,
whatever the array holds. -/
theorem C98_find_absent {sup : List Nat} {target nodes : Nat} (hlen : nodes < sup.length)
    (ha : ∀ k, k ≤ nodes → sup[k]? ≠ some target) (fuel : Nat) :
    find sup target fuel 0 nodes = nofuel :=
  find_absent hlen (fun k hk h => ha k hk (by rw [getElem?_getD 0 (by omega), h])) fuel 0 nodes
    (Nat.zero_le _) (Nat.le_refl _)

/-- **C98.** If every listed node is the first column of a supernode `k`, plus a multiple of the number
of columns, then `sup2node_gen` returns the numbers of these supernodes. -/
theorem C98_sup2node {fuel n size nodes : Nat} {levels sup : List Nat} (hn : 0 < n)
    (hlen : nodes < sup.length) (hs : ∀ a b, a < b → b ≤ nodes → sup.getD a 0 < sup.getD b 0)
    (hend : sup.getD nodes 0 = n) (hf : nodes < fuel) (hsize : size ≤ levels.length)
    (hl : ∀ i, i < size → ∃ k q, k < nodes ∧ levels.getD i 0 = sup.getD k 0 + q * n) :
    ∃ out, sup2nodeGen fuel n size levels nodes sup = ok out ∧ out.length = size ∧
      ∀ i k q, i < size → k < nodes → levels.getD i 0 = sup.getD k 0 + q * n → out[i]? = some k := by
  have hmono : ∀ a b, a ≤ b → b ≤ nodes → sup.getD a 0 ≤ sup.getD b 0 := by
    intro a b h1 h2
    rcases Nat.eq_or_lt_of_le h1 with h | h
    · rw [h]
    · exact (hs a b h h2).le
  have hinj : ∀ a b, a ≤ nodes → b ≤ nodes → sup.getD a 0 = sup.getD b 0 → a = b := by
    intro a b h1 h2 h3
    rcases Nat.lt_trichotomy a b with h | h | h
    · have := hs a b h h2; omega
    · exact h
    · have := hs b a h h1; omega
  have hmod : ∀ k q, k < nodes → (sup.getD k 0 + q * n) - (sup.getD k 0 + q * n) / n * n
      = sup.getD k 0 := by
    intro k q hk
    have h1 : sup.getD k 0 < n := by rw [← hend]; exact hs k nodes hk (Nat.le_refl _)
    rw [Nat.add_mul_div_right _ _ hn, Nat.div_eq_of_lt h1, Nat.zero_add, Nat.add_sub_cancel]
  suffices h : wp (sup2nodeGen fuel n size levels nodes sup) fun out => out.length = size ∧
      ∀ i, i < size → ∀ k q, k < nodes → levels.getD i 0 = sup.getD k 0 + q * n → out.getD i 0 = k by
    obtain ⟨out, h1, h2, h3⟩ := wp_iff.1 h
    exact ⟨out, h1, h2, fun i k q hi hk he => by rw [getElem?_getD 0 (by omega), h3 i hi k q hk he]⟩
  unfold sup2nodeGen
  refine forRange_wp' (fun j (out : List Nat) => out.length = size ∧ ∀ i, i < j → ∀ k q, k < nodes →
    levels.getD i 0 = sup.getD k 0 + q * n → out.getD i 0 = k) (Nat.zero_le _)
    ⟨by simp, fun i hi => absurd hi (by omega)⟩ ?_ (fun _ h => h)
  rintro j out _ hj ⟨e1, e2⟩
  obtain ⟨k, q, hk, hlk⟩ := hl j hj
  rw [rd_getD 0 (by omega), ok_bind, if_neg (by omega), hlk, hmod k q hk, wp_bind]
  refine wp_mono (find_found hlen hmono fuel 0 nodes (by omega) (Nat.zero_le _) (Nat.le_refl _)
    ⟨k, Nat.zero_le _, hk.le, rfl⟩) ?_
  rintro r ⟨r1, r2⟩
  obtain rfl : r = k := hinj r k r1 hk.le r2
  rw [wr_eq (by omega), wp_ok]
  refine ⟨by simpa using e1, fun i hi k' q' hk' he => ?_⟩
  rw [getD_set]
  by_cases c : j = i
  · subst c
    rw [if_pos ⟨rfl, by omega⟩]
    refine hinj r k' hk.le hk'.le ?_
    rw [← hmod r q hk, ← hmod k' q' hk', ← hlk, ← he]
  · rw [if_neg (fun x => c x.1)]
    exact e2 i (by omega) k' q' hk' he

/-- **C98.** A listed node that is not the first column of a supernode makes the first `find` on it call
itself for ever. -/
theorem C98_sup2node_absent {n size nodes : Nat} {levels sup : List Nat} (hn : 0 < n)
    (hlen : nodes < sup.length) (hsize : 0 < size) (hl : 0 < levels.length)
    (ha : ∀ k, k ≤ nodes → sup[k]? ≠ some (levels.getD 0 0 % n)) (fuel : Nat) :
    sup2nodeGen fuel n size levels nodes sup = nofuel := by
  have e : levels.getD 0 0 - levels.getD 0 0 / n * n = levels.getD 0 0 % n := by
    have := Nat.div_add_mod (levels.getD 0 0) n
    rw [Nat.mul_comm] at this
    omega
  obtain ⟨s, rfl⟩ : ∃ s, size = s + 1 := ⟨size - 1, by omega⟩
  unfold sup2nodeGen forRange
  rw [Nat.sub_zero, forN, rd_getD 0 hl, ok_bind, if_neg (by omega), e, C98_find_absent hlen ha]
  rfl

/-- Four supernodes of nine columns; the nodes of two copies. -/
example : sup2nodeGen 6 9 4 [0, 12, 4, 16] 4 [0, 3, 4, 7, 9] = ok [0, 1, 2, 3] := by decide +kernel

/-- Column 5 is not the first of a supernode. -/
example : find [0, 3, 4, 7, 9] 5 1000 0 4 = nofuel :=
  C98_find_absent (by decide) (by decide) 1000

end Verif.Inspect
