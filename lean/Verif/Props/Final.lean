import Verif.Proof.Final
import Verif.Props.GroupDag
import Verif.Props.LevelSet
import Verif.Props.Exec

/-! # C75, C78: the graph of a final schedule, and the level of every node -/

namespace Verif.Final
open Res
open Verif.Group

/-- **C75.** For every valid schedule of a graph, `getFinalScheduleDAG` returns the partition of
the nodes into the non-empty parts of the schedule, in schedule order, and the dependence graph of
these parts.  That graph is lower triangular and has its diagonal first.  The two debug
assertions hold.  `order`, `order'` are the orders of the parallel loops of `buildGroupDAG`. -/
theorem C75_final_dag {g : Csc} (hg : g.WF) (hd : g.OneDiag) {s : Sched} (hs : s.Valid g.n g.Dep)
    (debug : Bool) {order order' : Nat → List Nat} (ho : ∀ k, (order k).Perm (List.range k))
    (ho' : ∀ k, (order' k).Perm (List.range k)) :
    ∃ G r, getFinalScheduleDAG debug order order' g.n s g.p g.i = ok (G, r) ∧
      G.Partition g.n ∧ G.NonEmpty ∧ G.set = s.nodes.take g.n ∧
      (∀ u v, u < g.n → v < g.n → ((∃ j, G.Mem u j ∧ G.Mem v j) ↔
        ∃ l q k k', s.At u l q k ∧ s.At v l q k')) ∧
      (∀ a b, G.Dep g a b → a < b) ∧
      (groupGraph G.num r).WF ∧ (groupGraph G.num r).OneDiag ∧
      (∀ a b, (groupGraph G.num r).Dep a b ↔ G.Dep g a b) ∧
      (groupGraph G.num r).DiagFirst ∧ (groupGraph G.num r).Lower := by
  obtain ⟨parts, h1, h2⟩ := hs.ptrs
  have hlen : (s.nodes.take g.n).length = g.n := by simpa using hs.complete.length_eq
  have hl : g.n ≤ s.nodes.length := by rw [List.length_take] at hlen; omega
  obtain ⟨t, ht, hF⟩ := wp_iff.1 (finalGroups_wp h1 h2 hl)
  obtain ⟨hP, hne⟩ := hF.partition h2 hs.complete
  set G : Grouping := ⟨t.ptr.length - 1, t.ptr, t.set⟩ with hGdef
  have hnum : G.num = t.ptr.length - 1 := rfl
  have hpos := List.length_pos_of_ne_nil hF.cuts.ne
  have hnode : ∀ k, k < g.n → s.nodes[k]? = G.set[k]? := by
    intro k hk
    show _ = t.set[k]?
    rw [hF.set, List.getElem?_take_of_lt hk]
  have hGset : G.set.length = g.n := by show t.set.length = _; rw [hF.set, hlen]
  have hnod : G.set.Nodup := by
    show t.set.Nodup
    rw [hF.set]; exact hs.complete.nodup_iff.2 List.nodup_range
  -- positions of members
  have hmem : ∀ v j, G.Mem v j → ∃ k, k < g.n ∧ t.ptr.getD j 0 ≤ k ∧ k < t.ptr.getD (j + 1) 0 ∧
      s.nodes[k]? = some v := by
    rintro v j ⟨hj, hv⟩
    rw [Grouping.rows_eq, mem_slice] at hv
    obtain ⟨k, k1, k2, k3⟩ := hv
    have hk : k < g.n := by
      by_contra hc
      rw [List.getElem?_eq_none (by omega)] at k3; cases k3
    exact ⟨k, hk, k1, k2, by rw [hnode k hk]; exact k3⟩
  have hmem' : ∀ v j k, j < G.num → k < g.n → t.ptr.getD j 0 ≤ k → k < t.ptr.getD (j + 1) 0 →
      s.nodes[k]? = some v → G.Mem v j := by
    intro v j k hj hk k1 k2 k3
    refine ⟨hj, ?_⟩
    rw [Grouping.rows_eq, mem_slice]
    exact ⟨k, k1, k2, by rw [← hnode k hk]; exact k3⟩
  have hup : ∀ a b, G.Dep g a b → a < b := by
    rintro a b ⟨hab, u, v, hu, hv, huv⟩
    obtain ⟨k, hk, k1, k2, k3⟩ := hmem u a hu
    obtain ⟨k', hk', k1', k2', k3'⟩ := hmem v b hv
    have hlt := Exec.Sched.pos_lt hs huv hk hk' k3 k3'
    by_contra hc
    have := hP.ptr.dmono_le (a := b + 1) (b := a) (by omega) (by have := hu.1; omega)
    have : t.ptr.getD (b + 1) 0 ≤ t.ptr.getD a 0 := this
    omega
  obtain ⟨r, hr, r1, r2, r3, r4⟩ :=
    C23_group_dependences hg hd hP hne (ho G.num) (ho' G.num)
  refine ⟨G, r, ?_, hP, hne, hF.set, ?_, hup, r1, r2, r3, (r4 hup).1, (r4 hup).2⟩
  · unfold getFinalScheduleDAG
    rw [ht, ok_bind]
    dsimp only
    rw [Group.back_eq hF.cuts.ne, ok_bind, if_neg, hr, ok_bind]
    rintro ⟨_, hc⟩
    exact hc ⟨hF.cnt, by rw [hF.cuts.last, h2.dlast]⟩
  · intro u v hu hv
    constructor
    · rintro ⟨j, hju, hjv⟩
      obtain ⟨k, hk, k1, k2, k3⟩ := hmem u j hju
      obtain ⟨k', hk', k1', k2', k3'⟩ := hmem v j hjv
      obtain ⟨q, hq, q1, q2⟩ := h2.exists_block hk
      obtain ⟨l, hlv, l1, l2⟩ := h1.exists_block hq
      obtain ⟨e1, e2⟩ := hF.block h2 hju.1 hq k1 k2 q1 q2
      exact ⟨l, q, k, k', ⟨hlv, (h1.inBlock_iff hlv).2 ⟨l1, l2⟩, (h2.inBlock_iff hq).2 ⟨q1, q2⟩, k3⟩,
        ⟨hlv, (h1.inBlock_iff hlv).2 ⟨l1, l2⟩,
          (h2.inBlock_iff hq).2 ⟨by omega, by omega⟩, k3'⟩⟩
    · rintro ⟨l, q, k, k', ⟨a1, a2, a3, a4⟩, ⟨_, _, b3, b4⟩⟩
      have hq : q < parts := by
        have := (h1.inBlock_iff a1).1 a2
        have := h1.dle (b := l + 1) a1
        omega
      obtain ⟨q1, q2⟩ := (h2.inBlock_iff hq).1 a3
      obtain ⟨q1', q2'⟩ := (h2.inBlock_iff hq).1 b3
      have hqn := h2.dle (b := q + 1) hq
      obtain ⟨j, hj, k1, k2⟩ := hP.ptr.exists_block (k := k) (by omega)
      obtain ⟨e1, e2⟩ := hF.block h2 hj hq k1 k2 q1 q2
      refine ⟨j, hmem' u j k hj (by omega) k1 k2 a4, hmem' v j k' hj (by omega) ?_ ?_ b4⟩ <;>
      · have : G.ptr = t.ptr := rfl
        omega

/-! ### `computingNode2Level` -/

/-- **C78.** For every level set of `n` nodes, `computingNode2Level` returns for every node the
level that lists it, whatever the result vector held before. -/
theorem C78_node_level {n nlevels : Nat} {levelPtr levelSet : List Nat}
    (hp : PtrOk levelPtr nlevels n) (hc : (levelSet.take n).Perm (List.range n)) (init : List Nat) :
    ∃ r, computingNode2Level levelPtr levelSet nlevels n init = ok r ∧ r.length = n ∧
      ∀ l v, l < nlevels → InLevel levelPtr levelSet l v → r[v]? = some l := by
  have hlen : (levelSet.take n).length = n := by simpa using hc.length_eq
  have hl : n ≤ levelSet.length := by rw [List.length_take] at hlen; omega
  have hnod : (levelSet.take n).Nodup := hc.nodup_iff.2 List.nodup_range
  have hget : ∀ k v, k < n → levelSet[k]? = some v → v < n := by
    intro k v hk hv
    have : v ∈ levelSet.take n := by
      rw [List.mem_iff_getElem?]
      exact ⟨k, by rw [List.getElem?_take_of_lt hk]; exact hv⟩
    exact List.mem_range.1 (hc.mem_iff.1 this)
  have hinj : ∀ k k' v, k < n → k' < n → levelSet[k]? = some v → levelSet[k']? = some v → k = k' := by
    intro k k' v hk hk' h1 h2
    refine nodup_getElem?_inj hnod (v := v) ?_ ?_
    · rw [List.getElem?_take_of_lt hk]; exact h1
    · rw [List.getElem?_take_of_lt hk']; exact h2
  suffices h : wp (computingNode2Level levelPtr levelSet nlevels n init) fun r => r.length = n ∧
      ∀ l, l < nlevels → ∀ k v, levelPtr.getD l 0 ≤ k → k < levelPtr.getD (l + 1) 0 →
        levelSet[k]? = some v → r.getD v 0 = l by
    obtain ⟨r, hr, h1, h2⟩ := wp_iff.1 h
    refine ⟨r, hr, h1, ?_⟩
    rintro l v hlv ⟨k, hk, hv⟩
    obtain ⟨k1, k2⟩ := (hp.inBlock_iff hlv).1 hk
    have hkn := hp.dle (b := l + 1) hlv
    rw [getElem?_getD 0 (by rw [h1]; exact hget k v (by omega) hv), h2 l hlv k v k1 k2 hv]
  unfold computingNode2Level
  refine forRange_wp' (fun L (r : List Nat) => r.length = n ∧ ∀ l, l < L → ∀ k v,
    levelPtr.getD l 0 ≤ k → k < levelPtr.getD (l + 1) 0 → levelSet[k]? = some v → r.getD v 0 = l)
    (Nat.zero_le _) ⟨?_, fun l h => absurd h (by omega)⟩ ?_ (fun _ h => h)
  · rw [List.length_append, List.length_take, List.length_replicate]; omega
  · rintro L r _ hL ⟨hrl, hr⟩
    have hplen := hp.len
    have hLn := hp.dle (b := L + 1) hL
    rw [rd_getD 0 (by omega), ok_bind, rd_getD 0 (by omega), ok_bind]
    refine forRange_wp' (fun c (r : List Nat) => r.length = n ∧ (∀ l, l < L → ∀ k v,
      levelPtr.getD l 0 ≤ k → k < levelPtr.getD (l + 1) 0 → levelSet[k]? = some v → r.getD v 0 = l) ∧
      ∀ k v, levelPtr.getD L 0 ≤ k → k < c → levelSet[k]? = some v → r.getD v 0 = L)
      (hp.dmono hL) ⟨hrl, hr, fun k v h1 h2 => by omega⟩ ?_ ?_
    · rintro c r' c1 c2 ⟨e1, e2, e3⟩
      have hcv := getElem?_getD (l := levelSet) (j := c) 0 (by omega)
      rw [rd_getD 0 (by omega), ok_bind, wr_eq (by rw [e1]; exact hget c _ (by omega) hcv), wp_ok]
      refine ⟨by simp [e1], ?_, ?_⟩
      · intro l hl' k v k1 k2 hv
        have hkc : levelPtr.getD (l + 1) 0 ≤ levelPtr.getD L 0 := hp.dmono_le (by omega) (by omega)
        have hvn := hget k v (by omega) hv
        rw [getD_set, if_neg, e2 l hl' k v k1 k2 hv]
        rintro ⟨rfl, _⟩
        have := hinj k c _ (by omega) (by omega) hv hcv
        omega
      · intro k v k1 k2 hv
        have hvn := hget k v (by omega) hv
        rw [getD_set]
        split
        · rfl
        · next hne =>
          rcases Nat.lt_or_ge k c with h | h
          · exact e3 k v k1 h hv
          · have : k = c := by omega
            subst this
            rw [hcv] at hv
            injection hv with hv
            exact absurd ⟨hv, by omega⟩ hne
    · rintro r' ⟨e1, e2, e3⟩
      refine ⟨e1, ?_⟩
      intro l hl' k v k1 k2 hv
      rcases Nat.lt_or_ge l L with h | h
      · exact e2 l h k v k1 k2 hv
      · have : l = L := by omega
        subst this
        exact e3 k v k1 k2 hv

/-! ### Non-vacuity -/

theorem exGraph_sched : exSched.Valid exGraph.n exGraph.Dep := by
  refine ⟨exSched_valid.ptrs, exSched_valid.complete, ?_⟩
  rintro u v ⟨hu, hv, hne⟩
  refine exSched_valid.respects u v ?_
  have hu : u < 4 := hu
  have : u = 0 ∨ u = 1 ∨ u = 2 ∨ u = 3 := by omega
  rcases this with rfl | rfl | rfl | rfl
  · have : v = 2 := by simp [exGraph, Csc.col, Csc.ptr] at hv; omega
    subst this; exact ⟨by decide, 1, by decide⟩
  · have : v = 2 := by simp [exGraph, Csc.col, Csc.ptr] at hv; omega
    subst this; exact ⟨by decide, 1, by decide⟩
  · have : v = 3 := by simp [exGraph, Csc.col, Csc.ptr] at hv; omega
    subst this; exact ⟨by decide, 5, by decide⟩
  · simp [exGraph, Csc.col, Csc.ptr] at hv; omega

/-- The parts `{0}`, `{1}`, `{2,3}` of the schedule become the groups. -/
example : exGraph.WF ∧ exGraph.OneDiag ∧ exSched.Valid exGraph.n exGraph.Dep ∧
    getFinalScheduleDAG true List.range List.range 4 exSched exGraph.p exGraph.i =
      ok (⟨3, [0, 1, 2, 4], [0, 1, 2, 3]⟩, [0, 2, 4, 5], [0, 2, 1, 2, 2]) :=
  ⟨exGraph_wf, exGraph_oneDiag, exGraph_sched, by decide⟩

/-- A schedule with an empty part: the empty part is no group. -/
example : getFinalScheduleDAG true List.range List.range 4 ⟨2, [0, 3, 4], [0, 1, 1, 2, 4], [1, 0, 2, 3]⟩
      exGraph.p exGraph.i =
    ok (⟨3, [0, 1, 2, 4], [1, 0, 2, 3]⟩, [0, 2, 4, 5], [0, 2, 1, 2, 2]) := by decide

example : PtrOk [0, 2, 3, 4] 3 4 ∧ ([2, 0, 3, 1] : List Nat).Perm (List.range 4) ∧
    computingNode2Level [0, 2, 3, 4] [2, 0, 3, 1] 3 4 [7, 7, 7, 7, 7] = ok [0, 2, 0, 1] :=
  ⟨PtrOk.mk' (by decide) (by decide) (by decide) (by decide), by decide, by decide⟩

end Verif.Final
