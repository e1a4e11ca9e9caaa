import Verif.Proof.QueueLevels
import Verif.Proof.Slices
import Verif.Spec.Sched
import Verif.Props.LevelSet

/-!
# C45: queue-based level sets

`buildLevelSet_CSC_Queue` (utils/sparse_inspector.cpp 63-123).
-/

namespace Verif
open Res Csc QLevel

variable {g : Csc}

/-- **C45, every graph.**  For every graph that stores the diagonal first in each column, the call
ends without an out-of-bounds access; its `L` levels are non-empty and list pairwise different
nodes; level `l` consists of exactly the nodes whose longest incoming path has `l` edges, and every
node that has a longest path is listed.  (A node reachable from a cycle has arbitrarily long paths
and is left out; no error is reported.) -/
theorem C45_queue_levels (hwf : g.WF) (hd1 : g.OneDiag) (hdf : g.DiagFirst) {ptr set : List Nat}
    (hp : g.n + 1 ≤ ptr.length) (hp0 : ptr.getD 0 0 = 0) (hset : g.n ≤ set.length) :
    ∃ L ptr' set' k, build g.n g.p g.i ptr set = ok (L, ptr', set') ∧
      PtrOk ptr' L k ∧ (∀ l, l < L → ptr'.getD l 0 < ptr'.getD (l + 1) 0) ∧
      k ≤ g.n ∧ g.n ≤ set'.length ∧ (set'.take k).Nodup ∧
      (∀ l v, l < L → (InLevel ptr' set' l v ↔ g.IsDepth v l)) ∧
      (∀ l v, g.IsDepth v l → l < L) := by
  obtain ⟨r, h1, s, hs, hq, rfl⟩ := wp_iff.1 (build_spec hwf hd1 hdf hp hp0 hset)
  have hcl := hs.curLe
  have hcn := hs.cntLe
  have hpl := hs.lenPtr
  have hsl := hs.lenSet
  have hptr : PtrOk s.ptr s.cur s.cnt := PtrOk.mk' (by omega) hs.ptr0 hs.ptrL
    (fun l hl => Nat.le_of_lt (hs.strict l hl))
  have hstop : ∀ v, g.PathTo s.cur v → g.PathTo (s.cur + 1) v := by
    intro v hv
    by_contra hc
    have := (hs.memQ v).2 ⟨hv, hc⟩
    rw [hq] at this
    simp at this
  have hdep : ∀ l v, g.IsDepth v l ↔ g.PathTo l v ∧ ¬ g.PathTo (l + 1) v := by
    intro l v
    constructor
    · rintro ⟨h2, h3⟩
      exact ⟨h2, fun hc => by have := h3 _ hc; omega⟩
    · rintro ⟨h2, h3⟩
      refine ⟨h2, fun m hm => ?_⟩
      by_contra hc
      exact h3 (hm.le hwf (by omega))
  have hinf : ∀ m v, g.PathTo s.cur v → g.PathTo (s.cur + m) v := by
    intro m
    induction m with
    | zero => intro v hv; exact hv
    | succ m ih =>
      intro v hv
      obtain ⟨u, h2, h3⟩ := pathTo_succ.1 (hstop v hv)
      exact .snoc (ih u h2) h3
  have hlt : ∀ l v, g.IsDepth v l → l < s.cur := by
    rintro l v ⟨h2, h3⟩
    by_contra hc
    have := h3 _ (hinf (l + 1 - s.cur) v (h2.le hwf (by omega)))
    omega
  refine ⟨s.cur, s.ptr, s.set, s.cnt, h1, hptr, hs.strict, hcn, hsl,
    (List.nodup_append.1 hs.nodup).1, ?_, hlt⟩
  have hfw : ∀ l v, l < s.cur → InLevel s.ptr s.set l v → g.IsDepth v l := by
    rintro l v hl ⟨k, h2, h3⟩
    rw [hptr.inBlock_iff hl] at h2
    have := hs.lvl l k hl h2.1 h2.2
    rw [List.getD_eq_getElem?_getD, h3] at this
    exact (hdep l v).2 this
  intro l v hl
  refine ⟨hfw l v hl, fun hv => ?_⟩
  have hmem : v ∈ s.set.take s.cnt := by
    rw [hs.memDone]
    refine ⟨hv.1.lt hwf, fun hc => ?_⟩
    have := hv.2 _ hc
    omega
  obtain ⟨k, hk⟩ := List.mem_iff_getElem?.1 hmem
  rw [List.getElem?_take] at hk
  split at hk
  · rename_i hkc
    obtain ⟨b, hb, h4, h5⟩ := hptr.exists_block hkc
    have hin : InLevel s.ptr s.set b v := ⟨k, (hptr.inBlock_iff hb).2 ⟨h4, h5⟩, hk⟩
    have hdb := hfw b v hb hin
    have : b = l := by
      have e1 := hdb.2 _ hv.1
      have e2 := hv.2 _ hdb.1
      omega
    exact this ▸ hin
  · cases hk

/-- **C45.**  For every acyclic graph that stores the diagonal first in each column, the level set
lists every node exactly once (in its first `n` entries; the arrays of the caller may be longer), and
every node is in a later level than the nodes it depends on.
There is no error code: unlike `build_levelSet_CSC` (C04), a chain is not rejected. -/
theorem C45_queue_levels_acyclic (hwf : g.WF) (hd1 : g.OneDiag) (hdf : g.DiagFirst)
    (hac : g.Acyclic) {ptr set : List Nat}
    (hp : g.n + 1 ≤ ptr.length) (hp0 : ptr.getD 0 0 = 0) (hset : g.n ≤ set.length) :
    ∃ L ptr' set', build g.n g.p g.i ptr set = ok (L, ptr', set') ∧
      PtrOk ptr' L g.n ∧ (∀ l, l < L → ptr'.getD l 0 < ptr'.getD (l + 1) 0) ∧
      (set'.take g.n).Perm (List.range g.n) ∧
      ∀ u v lu lv, g.Dep u v → lu < L → lv < L → InLevel ptr' set' lu u → InLevel ptr' set' lv v →
        lu < lv := by
  obtain ⟨L, ptr', set', k, h1, h2, h3, h4, h5, h6, h7, h8⟩ :=
    C45_queue_levels hwf hd1 hdf hp hp0 hset
  have hsub : ∀ v, v < g.n → v ∈ set'.take k := by
    intro v hv
    obtain ⟨d, hd⟩ := exists_depth hwf hac hv
    have hdL := h8 d v hd
    obtain ⟨j, hj1, hj2⟩ := (h7 d v hdL).2 hd
    rw [h2.inBlock_iff hdL] at hj1
    have := h2.dle (b := d + 1) hdL
    rw [List.mem_iff_getElem?]
    exact ⟨j, by rw [List.getElem?_take, if_pos (by omega), hj2]⟩
  have hlt : ∀ v ∈ set'.take k, v < g.n := by
    intro v hv
    obtain ⟨j, hj⟩ := List.mem_iff_getElem?.1 hv
    rw [List.getElem?_take] at hj
    split at hj
    · rename_i hjk
      obtain ⟨b, hb, h9, h10⟩ := h2.exists_block hjk
      exact ((h7 b v hb).1 ⟨j, (h2.inBlock_iff hb).2 ⟨h9, h10⟩, hj⟩).1.lt hwf
    · cases hj
  have hperm : (set'.take k).Perm (List.range g.n) := by
    rw [List.perm_ext_iff_of_nodup h6 List.nodup_range]
    intro v
    rw [List.mem_range]
    exact ⟨hlt v, hsub v⟩
  have hk : k = g.n := by
    have := hperm.length_eq
    simp at this
    omega
  subst hk
  refine ⟨L, ptr', set', h1, h2, h3, hperm, ?_⟩
  · intro u v lu lv hd hlu hlv hu hv
    have du := (h7 lu u hlu).1 hu
    have dv := (h7 lv v hlv).1 hv
    have := dv.2 _ (.snoc du.1 hd)
    omega

/-- The hypotheses hold for `exGraph` and for the chain that `build_levelSet_CSC` rejects. -/
example : exGraph.WF ∧ exGraph.OneDiag ∧ exGraph.DiagFirst ∧
    build exGraph.n exGraph.p exGraph.i (List.replicate 5 0) (List.replicate 4 0)
      = ok (3, [0, 2, 3, 4, 0], [0, 1, 2, 3]) ∧
    exChain.WF ∧ exChain.OneDiag ∧ exChain.DiagFirst ∧
    build exChain.n exChain.p exChain.i (List.replicate 4 0) (List.replicate 3 0)
      = ok (3, [0, 1, 2, 3], [0, 1, 2]) := by
  refine ⟨exGraph_wf, exGraph_oneDiag, by unfold DiagFirst; decide, by decide,
    ⟨by decide, by decide, by decide, by decide, by decide⟩, by unfold OneDiag; decide,
    by unfold DiagFirst; decide, by decide⟩

/-- A cycle `1→2→1` behind node 0: only node 0 is listed, and no error is reported. -/
example : build 3 [0, 2, 4, 6] [0, 1, 1, 2, 2, 1] (List.replicate 4 0) (List.replicate 3 0)
    = ok (1, [0, 1, 0, 0], [0, 0, 0]) := by decide

end Verif
