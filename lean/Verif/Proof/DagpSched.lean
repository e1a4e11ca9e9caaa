import Verif.Proof.DagpGraph
import Verif.Proof.GroupLevels
import Verif.Proof.LbcEmit

/-! # The schedule made from the level set of the parts -/

namespace Verif.Dagp
open Res Csc

/-- The rows of part `c`, in increasing order. -/
def partRows (n : Nat) (parts : List Nat) (c : Nat) : List Nat :=
  (List.range n).filter fun v => decide (parts[v + 1]? = some c)

theorem collectParts_wp {n k : Nat} {parts : List Nat} (hp : PartsOk n k parts) :
    wp (collectParts n k parts) (fun ps => ps.length = k ∧ ∀ c, c < k → ps.getD c [] = partRows n parts c) := by
  unfold collectParts
  refine forRange_wp' (fun i (ps : List (List Nat)) => ps.length = k ∧
    ∀ c, c < k → ps.getD c [] = partRows (i - 1) parts c) (by omega) ?_ ?_ ?_
  · refine ⟨by simp, fun c hc => ?_⟩
    rw [getD_replicate _ _ _ _ hc]
    rfl
  · rintro i ps h1 h2 ⟨h3, h4⟩
    obtain ⟨a, ha, hak⟩ := hp i h1 (by omega)
    rw [rd_some ha, ok_bind, rd_getD [] (by omega), ok_bind, wr_eq (by omega), wp_ok]
    refine ⟨by simpa using h3, fun c hc => ?_⟩
    have hsucc : partRows (i + 1 - 1) parts c = partRows (i - 1) parts c ++ (if a = c then [i - 1] else []) := by
      unfold partRows
      rw [show i + 1 - 1 = (i - 1) + 1 by omega, List.range_succ, List.filter_append, List.filter_singleton]
      rw [show i - 1 + 1 = i by omega, ha]
      congr 1
      by_cases e : a = c
      · simp [e]
      · simp [e]
    rw [hsucc, getD_set]
    by_cases e : a = c
    · rw [if_pos ⟨e, by omega⟩, if_pos e, h4 a hak, e]
    · rw [if_neg (fun hc => e hc.1), if_neg e, List.append_nil, h4 c hc]
  · rintro ps ⟨h1, h2⟩
    exact ⟨h1, fun c hc => by rw [h2 c hc, Nat.add_sub_cancel]⟩

theorem mem_partRows {n c v : Nat} {parts : List Nat} : v ∈ partRows n parts c ↔ v < n ∧ parts[v + 1]? = some c := by
  simp [partRows]

/-- The parts together are all rows. -/
theorem parts_perm {n K : Nat} {parts : List Nat} (hp : PartsOk n K parts) {ls : List Nat}
    (hl : ls.Perm (List.range K)) : (ls.flatMap (partRows n parts)).Perm (List.range n) := by
  rw [List.perm_ext_iff_of_nodup ?_ List.nodup_range]
  · intro v
    simp only [List.mem_flatMap, mem_partRows, List.mem_range]
    constructor
    · rintro ⟨c, -, h, -⟩; exact h
    · intro hv
      obtain ⟨a, ha, haK⟩ := hp (v + 1) (by omega) (by omega)
      exact ⟨a, hl.mem_iff.2 (List.mem_range.2 haK), hv, ha⟩
  · rw [List.nodup_flatMap]
    refine ⟨fun c _ => List.nodup_range.filter _, ?_⟩
    have hnd : ls.Nodup := hl.nodup_iff.2 List.nodup_range
    refine hnd.imp ?_
    intro a b hab
    intro v h1 h2
    rw [mem_partRows] at h1 h2
    rw [h1.2] at h2
    exact hab (Option.some.inj h2.2)

/-- The state after the first `i` parts of the level set have been written. -/
structure Written (n k : Nat) (f : Nat → List Nat) (ls : List Nat) (i : Nat) (s : Nat × Nat × List Nat × List Nat) :
    Prop where
  part : s.1 = i + 1
  vert : s.2.1 = ((ls.take i).flatMap f).length
  plen : s.2.2.1.length = k + 1
  done : ∀ q, q ≤ i → s.2.2.1.getD q 0 = ((ls.take q).flatMap f).length
  todo : ∀ q, i < q → s.2.2.1.getD q 0 = 0
  hlen : s.2.2.2.length = n
  nodes : s.2.2.2.take s.2.1 = (ls.take i).flatMap f

theorem writePart_wp {n k i : Nat} {ps : List (List Nat)} {ls : List Nat} {s : Nat × Nat × List Nat × List Nat}
    (hs : Written n k (fun c => ps.getD c []) ls i s) (hi : i < ls.length) (hik : i < k) (hc : ls.getD i 0 < ps.length)
    (hroom : ((ls.take (i + 1)).flatMap (fun c => ps.getD c [])).length ≤ n) :
    wp (writePart ls ps i s) (Written n k (fun c => ps.getD c []) ls (i + 1)) := by
  obtain ⟨cp, cv, pp, h⟩ := s
  obtain ⟨h1, h2, h3, h4, h5, h6, h7⟩ := hs
  dsimp only at h1 h2 h3 h4 h5 h6 h7
  subst h1
  have hsucc : (ls.take (i + 1)).flatMap (fun c => ps.getD c [])
      = (ls.take i).flatMap (fun c => ps.getD c []) ++ ps.getD (ls.getD i 0) [] := by
    rw [List.take_add_one, getElem?_getD 0 hi, List.flatMap_append]
    simp
  obtain ⟨l, hl⟩ : ∃ l, l = ps.getD (ls.getD i 0) [] := ⟨_, rfl⟩
  rw [hsucc, List.length_append, ← hl] at hroom
  unfold writePart
  dsimp only
  rw [rd_getD 0 hi, ok_bind, rd_getD 0 (by omega), ok_bind, Nat.add_sub_cancel, rd_getD 0 (by omega), ok_bind,
    rd_getD [] hc, ok_bind, wr_eq (by omega), ok_bind, wp_bind, ← hl]
  refine wp_mono (forRange_wp (fun m (t : Nat × List Nat) => t.1 = cv + m ∧ t.2.length = n ∧
    t.2.take t.1 = (ls.take i).flatMap (fun c => ps.getD c []) ++ l.take m) (Nat.zero_le _) ?_ ?_) ?_
  · exact ⟨rfl, h6, by simpa using h7⟩
  · rintro m ⟨t, g⟩ - hm ⟨k1, k2, k3⟩
    dsimp only at k1 k2 k3 ⊢
    rw [rd_eq hm, ok_bind, wr_eq (by omega), ok_bind, wp_ok]
    refine ⟨by dsimp only; omega, by simpa using k2, ?_⟩
    dsimp only
    rw [LevelSet.take_set_succ _ _ _ (by omega), k3, List.append_assoc]
    congr 1
    rw [List.take_add_one, List.getElem?_eq_getElem hm]
    rfl
  · rintro ⟨t, g⟩ ⟨k1, k2, k3⟩
    dsimp only at k1 k2 k3
    rw [wp_ok]
    have e0 : pp.getD (i + 1) 0 = 0 := h5 _ (by omega)
    have ei := h4 i (Nat.le_refl _)
    refine ⟨rfl, ?_, by simpa using h3, ?_, ?_, k2, ?_⟩
    · dsimp only
      rw [hsucc, List.length_append, ← hl]
      omega
    · intro q hq
      dsimp only
      rw [getD_set]
      by_cases e : i + 1 = q
      · subst e
        rw [if_pos ⟨rfl, by omega⟩, e0, ei, hsucc, List.length_append, ← hl]
        omega
      · rw [if_neg (fun hc => e hc.1), h4 q (by omega)]
    · intro q hq
      dsimp only
      rw [getD_set, if_neg (fun hc => by omega)]
      exact h5 q (by omega)
    · dsimp only
      rw [k3, hsucc, ← hl, List.take_length]

variable {g pg : Csc}

/-- The parts as groups. -/
def partGroups (n K : Nat) (parts : List Nat) : Grouping :=
  ⟨K, (Csc.ofCols ((List.range K).map (partRows n parts))).p, (Csc.ofCols ((List.range K).map (partRows n parts))).i⟩

theorem partGroups_rows {n K c : Nat} {parts : List Nat} (hc : c < K) :
    groupRows (partGroups n K parts).ptr (partGroups n K parts).set c = partRows n parts c := by
  show (Csc.ofCols ((List.range K).map (partRows n parts))).col c = _
  rw [Csc.ofCols_col _ (by simpa using hc), List.getD_eq_getElem?_getD, List.getElem?_map, List.getElem?_range hc]
  rfl

theorem partGroups_partition {n K : Nat} {parts : List Nat} (hp : PartsOk n K parts) :
    (partGroups n K parts).Partition n := by
  have hperm := parts_perm hp (List.Perm.refl (List.range K))
  have hset : (partGroups n K parts).set = (List.range K).flatMap (partRows n parts) := by
    unfold partGroups Csc.ofCols
    rw [List.flatMap_def]
  have hlen : ((List.range K).flatMap (partRows n parts)).length = n := by
    have := hperm.length_eq
    simpa using this
  have hptr : ∀ c, c ≤ K → (partGroups n K parts).ptr.getD c 0
      = (((List.range K).map (partRows n parts)).take c).flatten.length := fun c hc =>
    Csc.ofCols_ptr _ (by simpa using hc)
  refine ⟨PtrOk.mk' (by simp [partGroups, Csc.ofCols]) (by rw [hptr 0 (Nat.zero_le _)]; rfl) ?_ ?_, ?_⟩
  · show (partGroups n K parts).ptr.getD K 0 = n
    rw [hptr K (Nat.le_refl _), List.take_of_length_le (by simp), ← List.flatMap_def, hlen]
  · intro c hc
    have hc : c < K := hc
    rw [hptr c (by omega), hptr (c + 1) (by omega)]
    exact Group.flatten_take_le _ (by omega)
  · rw [hset, List.take_of_length_le (by omega)]
    exact hperm

/-- `get_h_level_set` for a graph of parts without cycles. -/
theorem getHLevelSet_wp (dbg : Bool) (hg : g.WF) (hlow : ∀ u v, g.Dep u v → u < v) (hpg : pg.WF)
    {k : Nat} (hk : pg.n ≤ k) {parts : List Nat} (hp : PartsOk g.n pg.n parts)
    (hcov : ∀ u v a b, g.Dep u v → parts[u + 1]? = some a → parts[v + 1]? = some b → a ≠ b → pg.Dep a b)
    (hac : pg.Acyclic) :
    wp (getHLevelSet dbg g.n pg.n pg.p pg.i k parts) (fun o => ∃ L : Nat, o.levels = L ∧
      (⟨L, o.levelPtr, o.partPtr, o.nodes⟩ : Sched).Valid g.n g.Dep ∧ o.nodes.length = g.n ∧
      o.partPtr.length = k + 1 ∧ o.levelPtr.length = L + 1) := by
  unfold getHLevelSet
  rw [wp_bind]
  refine wp_mono (buildLevelSet_wp hpg) ?_
  rintro ⟨ret, ptr, ls⟩ hr
  rcases hr with ⟨L, ntl, hret, hpl, hok⟩ | ⟨-, v, hv⟩
  swap
  · exact absurd (hv.lt_n hpg hac) (lt_irrefl _)
  dsimp only at hret hpl hok ⊢
  subst hret
  rw [wp_bind]
  have hpk : PartsOk g.n k parts := fun v h1 h2 => by
    obtain ⟨a, ha, hb⟩ := hp v h1 h2
    exact ⟨a, ha, by omega⟩
  refine wp_mono (collectParts_wp hpk) ?_
  rintro ps ⟨hpsl, hps⟩
  have hLn := hok.lN
  have hlsl := hok.setLen
  have hfm : ∀ q, (ls.take q).flatMap (fun c => ps.getD c []) = (ls.take q).flatMap (partRows g.n parts) := by
    intro q
    apply List.flatMap_congr
    intro c hc
    have : c ∈ ls := List.mem_of_mem_take hc
    exact hps c (by have := List.mem_range.1 (hok.perm.mem_iff.1 this); omega)
  have hperm := parts_perm hp hok.perm
  have htot : (ls.flatMap (partRows g.n parts)).length = g.n := by
    have := hperm.length_eq
    simpa using this
  have hroom : ∀ q, ((ls.take q).flatMap (fun c => ps.getD c [])).length ≤ g.n := by
    intro q
    rw [hfm]
    have := Exec.length_flatMap_take_mono ls (partRows g.n parts) (a := q) (b := max q ls.length) (le_max_left _ _)
    rw [List.take_of_length_le (le_max_right _ _), htot] at this
    exact this
  rw [wp_bind]
  refine wp_mono (forRange_wp (fun j (t : List Nat × Nat × Nat × List Nat × List Nat) => t.1.length = L + 1 ∧
    (∀ q, q ≤ j → t.1.getD q 0 = ptr.getD q 0) ∧ Written g.n k (fun c => ps.getD c []) ls (ptr.getD j 0) t.2)
    (Nat.zero_le _) ?_ ?_) ?_
  · refine ⟨by simp, ?_, ?_⟩
    · intro q hq
      obtain rfl : q = 0 := by omega
      rw [hok.ptr0, getD_replicate _ _ _ _ (by omega)]
    · rw [hok.ptr0]
      refine ⟨rfl, rfl, by simp, ?_, ?_, by simp, rfl⟩
      · intro q hq
        obtain rfl : q = 0 := by omega
        rw [getD_replicate _ _ _ _ (by omega)]
        rfl
      · intro q _
        dsimp only
        rw [List.getD_eq_getElem?_getD, List.getElem?_replicate]
        split <;> rfl
  · rintro j ⟨lp, t⟩ - hj ⟨k1, k2, k3⟩
    dsimp only at k1 k2 k3 ⊢
    have hjL : j < L := by omega
    have hst := hok.strict j hjL
    have hle := hok.ptr_le (a := j + 1) (by omega)
    rw [rd_getD 0 (by omega), ok_bind, wr_eq (by omega), ok_bind, rd_getD 0 (by omega), ok_bind, wp_bind]
    refine wp_mono (forRange_wp (Written g.n k (fun c => ps.getD c []) ls) hst.le k3 ?_) ?_
    · intro i s h1 h2 h3
      exact writePart_wp h3 (by omega) (by omega) (by have := hok.set_lt (k := i) (by omega); omega) (hroom _)
    · intro s hs
      rw [wp_ok]
      refine ⟨by simpa using k1, ?_, hs⟩
      intro q hq
      dsimp only
      rw [getD_set]
      by_cases e : j + 1 = q
      · subst e
        rw [if_pos ⟨rfl, by omega⟩]
      · rw [if_neg (fun hc => e hc.1)]
        exact k2 q (by omega)
  · rintro ⟨lp, cp, cv, pp, h⟩ ⟨k1, k2, k3⟩
    dsimp only at k1 k2 k3 ⊢
    rw [show ((L : Int)).toNat = L by omega] at k2 k3
    rw [hok.ptrL] at k3
    obtain ⟨w1, w2, w3, w4, w5, w6, w7⟩ := k3
    dsimp only at w1 w2 w3 w4 w5 w6 w7
    have hall : (ls.take pg.n).flatMap (fun c => ps.getD c []) = ls.flatMap (partRows g.n parts) := by
      rw [hfm, List.take_of_length_le (by omega)]
    rw [hall, htot] at w2
    rw [if_neg (by intro hc; exact hc.2 w2), wp_ok]
    refine ⟨L, rfl, ?_, w6, w3, k1⟩
    dsimp only
    rw [w2, List.take_of_length_le (by omega), hall] at w7
    have hlpOk : PtrOk lp L pg.n := by
      refine PtrOk.mk' (by omega) ?_ ?_ ?_
      · rw [k2 0 (Nat.zero_le _), hok.ptr0]
      · rw [k2 L (Nat.le_refl _), hok.ptrL]
      · intro b hb
        rw [k2 b (by omega), k2 (b + 1) (by omega)]
        exact (hok.strict b hb).le
    have hGP := partGroups_partition hp
    have hrows : ∀ c ∈ ls, groupRows (partGroups g.n pg.n parts).ptr (partGroups g.n pg.n parts).set c
        = partRows g.n parts c := fun c hc =>
      partGroups_rows (List.mem_range.1 (hok.perm.mem_iff.1 hc))
    have hval := levels_expand_valid hg (G := partGroups g.n pg.n parts) hGP (L := L) (lp := lp) (ls := ls) hlsl hlpOk
      hok.perm ?_ (R := (· < ·)) (fun u v hd => by have := hlow u v hd; omega) ?_
    · refine hval.of_prefix (lp := lp) (List.prefix_refl _) ?_ ?_ ?_
      · dsimp only [Sched.expand, Sched.ofLevels]
        refine List.prefix_iff_eq_take.2 ?_
        apply List.ext_getElem?
        intro q
        simp only [List.length_map, List.length_range]
        rw [List.getElem?_take, List.getElem?_map]
        by_cases hq : q < ls.length + 1
        · rw [if_pos hq, List.getElem?_range hq, Option.map_some,
            getElem?_getD 0 (show q < pp.length by omega), w4 q (by omega), hfm]
          congr 2
          apply List.flatMap_congr
          intro c hc
          exact hrows c (List.mem_of_mem_take hc)
        · rw [if_neg hq, List.getElem?_eq_none (by simp; omega)]
          rfl
      · dsimp only [Sched.expand, Sched.ofLevels]
        rw [w7, List.flatMap_congr hrows]
      · dsimp only [Sched.expand, Sched.ofLevels]
        rw [List.flatMap_congr hrows, htot]
    · intro a c l l' hd hl hl' ha hc
      obtain ⟨hne, u, v, ⟨hu1, hu2⟩, ⟨hv1, hv2⟩, huv⟩ := hd
      have hu1 : a < pg.n := hu1
      have hv1 : c < pg.n := hv1
      rw [partGroups_rows hu1, mem_partRows] at hu2
      rw [partGroups_rows hv1, mem_partRows] at hv2
      have hdep := hcov u v a c huv hu2.2 hv2.2 hne
      have hlt := hok.dep_lt hpg hdep
      have hlev : ∀ a l, l < L → InLevel lp ls l a → ntl.getD a 0 = l := by
        rintro a l hl ⟨q, hq, hqa⟩
        rw [hlpOk.inBlock_iff hl, k2 l (by omega), k2 (l + 1) (by omega)] at hq
        have := hok.lvl l q hl hq.1 hq.2
        rw [List.getD_eq_getElem?_getD (l := ls), hqa] at this
        exact this
      rw [hlev a l hl ha, hlev c l' hl' hc] at hlt
      exact hlt
    · intro j hj
      have hj : j < pg.n := hj
      rw [partGroups_rows hj]
      exact List.pairwise_lt_range.filter _

end Verif.Dagp
