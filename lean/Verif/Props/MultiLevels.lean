import Verif.Proof.MultiLevels
import Verif.Proof.Slices
import Verif.Spec.Sched
import Verif.Props.LevelSet
import Verif.Props.Lbc

/-!
# C87: level sets of several copies of a graph

`level_set_multi_graphs` (utils/sparse_inspector.cpp 184-268).  Node `v` of copy `q` is numbered
`v + n * q`; copy `q + 1` of a node has to wait for copy `q` of the same node.
-/

namespace Verif
open Res Csc MLevel Hdagg

variable {g : Csc}

/-- **C87, every graph.**  For every graph that stores the diagonal first in each column and every
number `K ≥ 1` of copies, the call ends without an out-of-bounds access; `levelptr` has exactly
`L + 1` entries, the `L` levels are non-empty and list pairwise different numbers; node `v` of copy
`q` is in level `l` if and only if `q < K` and `l = d + q`, where `d` is the length of a longest
dependence path ending in `v`; and every copy of every node that has a longest path is listed. -/
theorem C87_multi_levels (hwf : g.WF) (hd1 : g.OneDiag) (hdf : g.DiagFirst) {K : Nat} (hK : 0 < K) :
    ∃ L ptr levels k, build g.n g.p g.i K = ok (L, ptr, levels) ∧
      ptr.length = L + 1 ∧ levels.length = K * g.n ∧
      PtrOk ptr L k ∧ (∀ l, l < L → ptr.getD l 0 < ptr.getD (l + 1) 0) ∧
      k ≤ K * g.n ∧ (levels.take k).Nodup ∧
      (∀ l q v, l < L → v < g.n → (InLevel ptr levels l (v + g.n * q) ↔
        q < K ∧ ∃ d, g.IsDepth v d ∧ l = d + q)) ∧
      (∀ x ∈ levels.take k, x < K * g.n) ∧
      (∀ d q v, q < K → g.IsDepth v d → d + q < L) := by
  obtain ⟨r, h1, s, hs, hq, rfl⟩ := wp_iff.1 (build_spec hwf hd1 hdf hK)
  have hroom := hs.room
  have hcl := hs.curLe
  have hpl := hs.ptrLen
  have hgetp : ∀ l, l ≤ s.cur → (s.ptr.take (s.cur + 1)).getD l 0 = s.ptr.getD l 0 := by
    intro l hl
    rw [List.getD_eq_getElem?_getD, List.getD_eq_getElem?_getD, List.getElem?_take,
      if_pos (by omega)]
  have hlenp : (s.ptr.take (s.cur + 1)).length = s.cur + 1 := by simp; omega
  have hstrict : ∀ l, l < s.cur → (s.ptr.take (s.cur + 1)).getD l 0
      < (s.ptr.take (s.cur + 1)).getD (l + 1) 0 := by
    intro l hl
    rw [hgetp l (by omega), hgetp (l + 1) (by omega)]
    exact hs.strict l hl
  have hptr : PtrOk (s.ptr.take (s.cur + 1)) s.cur s.st.num := PtrOk.mk' (by omega)
    (by rw [hgetp 0 (by omega)]; exact hs.ptr0) (by rw [hgetp _ (by omega)]; exact hs.ptrL)
    (fun l hl => Nat.le_of_lt (hstrict l hl))
  have hdep : ∀ l v, g.IsDepth v l ↔ g.PathTo l v ∧ ¬ g.PathTo (l + 1) v := by
    intro l v
    constructor
    · rintro ⟨h2, h3⟩
      exact ⟨h2, fun hc => by have := h3 _ hc; omega⟩
    · rintro ⟨h2, h3⟩
      refine ⟨h2, fun m hm => ?_⟩
      by_contra hc
      exact h3 (hm.le hwf (by omega))
  have hdm : ∀ q v, v < g.n → (v + g.n * q) / g.n = q ∧ (v + g.n * q) % g.n = v := by
    intro q v hv
    exact ⟨by rw [Nat.add_mul_div_left _ _ (by omega), Nat.div_eq_of_lt hv]; omega,
      by rw [Nat.add_mul_mod_self_left, Nat.mod_eq_of_lt hv]⟩
  have hnow : ∀ l q v, v < g.n → (Now g K l (v + g.n * q) ↔ q < K ∧ ∃ d, g.IsDepth v d ∧ l = d + q) := by
    intro l q v hv
    unfold Now
    rw [(hdm q v hv).1, (hdm q v hv).2]
    constructor
    · rintro ⟨h2, h3, h4⟩
      refine ⟨?_, l - q, ?_, ?_⟩
      · by_contra hc
        have : g.n * K ≤ g.n * q := Nat.mul_le_mul_left _ (by omega)
        rw [Nat.mul_comm K] at h2
        omega
      · rw [hdep]
        refine ⟨h3, ?_⟩
        by_cases hql : q ≤ l
        · rw [show l - q + 1 = l + 1 - q by omega]; exact h4
        · rw [show l + 1 - q = 0 by omega] at h4
          exact absurd (PathTo.nil hv) h4
      · by_contra hc
        rw [show l + 1 - q = 0 by omega] at h4
        exact h4 (.nil hv)
    · rintro ⟨h2, d, h3, rfl⟩
      rw [hdep] at h3
      refine ⟨idx_lt h2 hv, ?_, ?_⟩
      · rw [show d + q - q = d by omega]; exact h3.1
      · rw [show d + q + 1 - q = d + 1 by omega]; exact h3.2
  -- the loop has stopped: no node has its turn later
  have hstop : ∀ x, ¬ Now g K s.cur x := by
    intro x hx
    have := (hs.memQ x).2 hx
    rw [hq] at this
    simp at this
  have hmemD : ∀ x, x ∈ s.st.levels.take s.st.num ↔ Before g K s.cur x := hs.memD
  have hstop0 : ∀ q v, q < K → q ≤ s.cur → g.PathTo (s.cur - q) v → g.PathTo (s.cur - q + 1) v := by
    intro q v hqK hqc hp
    by_contra hc
    have hv := hp.lt hwf
    refine hstop (v + g.n * q) ((hnow _ _ _ hv).2 ⟨hqK, s.cur - q, ?_, by omega⟩)
    exact (hdep _ _).2 ⟨hp, hc⟩
  have hcurK : 0 < g.n → (∃ v d, g.IsDepth v d) → K ≤ s.cur := by
    rintro hn ⟨v, d, hd⟩
    by_contra hc
    -- a node without dependences has all its copies in the levels `0 .. K-1`
    obtain ⟨w, hw⟩ : ∃ w, g.IsDepth w 0 := by
      have : ∀ d v, g.IsDepth v d → ∃ w, g.IsDepth w 0 := by
        intro d
        induction d with
        | zero => intro v hv; exact ⟨v, hv⟩
        | succ d ih =>
          rintro v ⟨hv1, hv2⟩
          obtain ⟨u, hu1, hu2⟩ := pathTo_succ.1 hv1
          refine ih u ⟨hu1, fun m hm => ?_⟩
          have := hv2 _ (.snoc hm hu2)
          omega
      exact this d v hd
    exact hstop (w + g.n * s.cur) ((hnow _ _ _ (hw.1.lt hwf)).2 ⟨by omega, 0, hw, by omega⟩)
  have hinf : ∀ q, q < K → q ≤ s.cur → ∀ m v, g.PathTo (s.cur - q) v → g.PathTo (s.cur - q + m) v := by
    intro q hqK hqc m
    induction m with
    | zero => intro v hv; exact hv
    | succ m ih =>
      intro v hv
      obtain ⟨u, h2, h3⟩ := pathTo_succ.1 (hstop0 q v hqK hqc hv)
      exact .snoc (ih u h2) h3
  have hlt : ∀ d q v, q < K → g.IsDepth v d → d + q < s.cur := by
    intro d q v hqK hd
    have hv := hd.1.lt hwf
    have hKc := hcurK (by omega) ⟨v, d, hd⟩
    by_contra hc
    have := hd.2 _ (hinf q hqK (by omega) (d + 1) v (hd.1.le hwf (by omega)))
    omega
  refine ⟨s.cur, s.ptr.take (s.cur + 1), s.st.levels, s.st.num, h1, hlenp, hs.core.levLen, hptr,
    hstrict, by omega, (List.nodup_append.1 hs.core.nodup).1, ?_, ?_, hlt⟩
  · have hfw : ∀ l x, l < s.cur → InLevel (s.ptr.take (s.cur + 1)) s.st.levels l x → Now g K l x := by
      rintro l x hl ⟨k, h2, h3⟩
      rw [hptr.inBlock_iff hl, hgetp _ (by omega), hgetp _ (by omega)] at h2
      have := hs.lvl l k hl h2.1 h2.2
      rw [List.getD_eq_getElem?_getD, h3] at this
      exact this
    intro l q v hl hv
    refine ⟨fun h2 => (hnow l q v hv).1 (hfw l _ hl h2), fun h2 => ?_⟩
    have h3 := (hnow l q v hv).2 h2
    obtain ⟨hqK, d, hd, rfl⟩ := h2
    have hmem : v + g.n * q ∈ s.st.levels.take s.st.num := by
      rw [hmemD]
      refine ⟨idx_lt hqK hv, fun hc => ?_⟩
      rw [(hdm q v hv).1, (hdm q v hv).2] at hc
      have := hd.2 _ hc
      omega
    obtain ⟨k, hk⟩ := List.mem_iff_getElem?.1 hmem
    rw [List.getElem?_take] at hk
    split at hk
    · rename_i hkc
      obtain ⟨b, hb, h4, h5⟩ := hptr.exists_block hkc
      have hin : InLevel (s.ptr.take (s.cur + 1)) s.st.levels b (v + g.n * q) :=
        ⟨k, (hptr.inBlock_iff hb).2 ⟨h4, h5⟩, hk⟩
      obtain ⟨_, d', hd', rfl⟩ := (hnow b q v hv).1 (hfw b _ hb hin)
      have : d' = d := by
        have e1 := hd'.2 _ hd.1
        have e2 := hd.2 _ hd'.1
        omega
      exact this ▸ hin
    · cases hk
  · intro x hx
    exact ((hmemD x).1 hx).1

/-- **C87.**  For every acyclic graph that stores the diagonal first in each column, the levels list
every copy of every node exactly once; a node is in a later level than the same copy of every node
it depends on, and exactly one level after its previous copy.  There are `K - 1` levels more than for
one copy. -/
theorem C87_multi_levels_acyclic (hwf : g.WF) (hd1 : g.OneDiag) (hdf : g.DiagFirst)
    (hac : g.Acyclic) {K : Nat} (hK : 0 < K) :
    ∃ L ptr levels, build g.n g.p g.i K = ok (L, ptr, levels) ∧ ptr.length = L + 1 ∧
      PtrOk ptr L (K * g.n) ∧ (∀ l, l < L → ptr.getD l 0 < ptr.getD (l + 1) 0) ∧
      levels.Perm (List.range (K * g.n)) ∧
      (∀ u v q lu lv, g.Dep u v → lu < L → lv < L → InLevel ptr levels lu (u + g.n * q) →
        InLevel ptr levels lv (v + g.n * q) → lu < lv) ∧
      (∀ v q l l', v < g.n → l < L → l' < L → InLevel ptr levels l (v + g.n * q) →
        InLevel ptr levels l' (v + g.n * (q + 1)) → l' = l + 1) ∧
      (0 < g.n → ∃ M p1 l1, build g.n g.p g.i 1 = ok (M, p1, l1) ∧ L = M + (K - 1)) := by
  obtain ⟨L, ptr, levels, k, h1, h2, h3, h4, h5, h6, h7, h8, h9, h10⟩ :=
    C87_multi_levels hwf hd1 hdf hK
  have hsub : ∀ x, x < K * g.n → x ∈ levels.take k := by
    intro x hx
    have hn : 0 < g.n := by
      rcases Nat.eq_zero_or_pos g.n with h0 | h0
      · rw [h0] at hx; simp at hx
      · exact h0
    have hv := Nat.mod_lt x hn
    obtain ⟨d, hd⟩ := exists_depth hwf hac hv
    have hqK : x / g.n < K := by
      rw [Nat.div_lt_iff_lt_mul hn]; exact hx
    have hdL := h10 d _ _ hqK hd
    obtain ⟨j, hj1, hj2⟩ := (h8 _ (x / g.n) (x % g.n) hdL hv).2 ⟨hqK, d, hd, rfl⟩
    rw [h4.inBlock_iff hdL] at hj1
    rw [Nat.mod_add_div] at hj2
    have := h4.dle (b := d + x / g.n + 1) hdL
    rw [List.mem_iff_getElem?]
    exact ⟨j, by rw [List.getElem?_take, if_pos (by omega), hj2]⟩
  have hperm : (levels.take k).Perm (List.range (K * g.n)) := by
    rw [List.perm_ext_iff_of_nodup h7 List.nodup_range]
    intro v
    rw [List.mem_range]
    exact ⟨h9 v, hsub v⟩
  have hk : k = K * g.n := by
    have := hperm.length_eq
    simp at this
    omega
  have htake : levels.take k = levels := List.take_of_length_le (by omega)
  rw [htake] at hperm
  rw [hk] at h4
  refine ⟨L, ptr, levels, h1, h2, h4, h5, hperm, ?_, ?_, ?_⟩
  · intro u v q lu lv hd hlu hlv hu hv
    obtain ⟨_, du, hdu, rfl⟩ := (h8 lu q u hlu hd.1).1 hu
    obtain ⟨_, dv, hdv, rfl⟩ := (h8 lv q v hlv (hwf.range u hd.1 v hd.2.1)).1 hv
    have := hdv.2 _ (.snoc hdu.1 hd)
    omega
  · intro v q l l' hv hl hl' h11 h12
    obtain ⟨_, d, hd, rfl⟩ := (h8 l q v hl hv).1 h11
    obtain ⟨_, d', hd', rfl⟩ := (h8 l' (q + 1) v hl' hv).1 h12
    have := hd.2 _ hd'.1
    have := hd'.2 _ hd.1
    omega
  · intro hn
    obtain ⟨M, p1, l1, k1, e1, e2, e3, e4, e5, e6, e7, e8, e9, e10⟩ :=
      C87_multi_levels hwf hd1 hdf (K := 1) (by omega)
    refine ⟨M, p1, l1, e1, ?_⟩
    -- a node of the last level of either result has a copy in the last level of the other
    have hM : 0 < M := by
      obtain ⟨d, hd⟩ := exists_depth hwf hac hn
      have := e10 d 0 0 (by omega) hd
      omega
    have hLge : M + (K - 1) ≤ L := by
      have hlast := e5 (M - 1) (by omega)
      rw [show M - 1 + 1 = M by omega] at hlast
      have hblk : InBlock p1 (M - 1) (p1.getD (M - 1) 0) := by
        rw [e4.inBlock_iff (by omega), show M - 1 + 1 = M by omega]
        exact ⟨Nat.le_refl _, hlast⟩
      have hlk : p1.getD (M - 1) 0 < k1 := by
        have := e4.dle (b := M) (Nat.le_refl _)
        omega
      have hget : l1[p1.getD (M - 1) 0]? = some (l1.getD (p1.getD (M - 1) 0) 0) :=
        getElem?_getD 0 (by omega)
      have hx : l1.getD (p1.getD (M - 1) 0) 0 < g.n := by
        have := e9 (l1.getD (p1.getD (M - 1) 0) 0) (by
          rw [List.mem_iff_getElem?]
          exact ⟨_, by rw [List.getElem?_take, if_pos hlk, hget]⟩)
        omega
      obtain ⟨_, d, hd, hdl⟩ := (e8 (M - 1) 0 _ (by omega) hx).1
        ⟨_, hblk, by rw [Nat.mul_zero, Nat.add_zero]; exact hget⟩
      have := h10 d (K - 1) _ (by omega) hd
      omega
    have hLle : L ≤ M + (K - 1) := by
      have hLpos : 0 < L := by omega
      have hlast := h5 (L - 1) (by omega)
      rw [show L - 1 + 1 = L by omega] at hlast
      have hblk : InBlock ptr (L - 1) (ptr.getD (L - 1) 0) := by
        rw [h4.inBlock_iff (by omega), show L - 1 + 1 = L by omega]
        exact ⟨Nat.le_refl _, hlast⟩
      have hlk : ptr.getD (L - 1) 0 < K * g.n := by
        have := h4.dle (b := L) (Nat.le_refl _)
        omega
      have hget : levels[ptr.getD (L - 1) 0]? = some (levels.getD (ptr.getD (L - 1) 0) 0) :=
        getElem?_getD 0 (by omega)
      generalize levels.getD (ptr.getD (L - 1) 0) 0 = x at hget
      obtain ⟨hqK, d, hd, hdl⟩ := (h8 (L - 1) (x / g.n) (x % g.n) (by omega) (Nat.mod_lt _ hn)).1
        ⟨_, hblk, by rw [Nat.mod_add_div]; exact hget⟩
      have := e10 d 0 _ (by omega) hd
      omega
    omega

/-- The hypotheses hold for `exGraph` (three copies) and for a chain. -/
example : exGraph.WF ∧ exGraph.OneDiag ∧ exGraph.DiagFirst ∧ exGraph.Acyclic ∧
    build exGraph.n exGraph.p exGraph.i 3
      = ok (5, [0, 2, 5, 9, 11, 12], [0, 1, 4, 2, 5, 8, 3, 6, 9, 7, 10, 11]) ∧
    build exChain.n exChain.p exChain.i 1 = ok (3, [0, 1, 2, 3], [0, 1, 2]) := by
  refine ⟨exGraph_wf, exGraph_oneDiag, by unfold DiagFirst; decide, ?_, by decide, by decide⟩
  exact Lbc.exGraph_acyclic

/-- A cycle `1→2→1` behind node 0: only the copies of node 0 are listed, and no error is reported. -/
example : build 3 [0, 2, 4, 6] [0, 1, 1, 2, 2, 1] 2 = ok (2, [0, 1, 2], [0, 3, 0, 0, 0, 0]) := by
  decide

/-- Without a copy the call writes outside its arrays. -/
theorem C87_no_copy (n : Nat) (Lp Li : List Nat) : build n Lp Li 0 = Res.ub := rfl

end Verif
