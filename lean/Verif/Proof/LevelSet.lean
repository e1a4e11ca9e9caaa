import Verif.Model.LevelSet
import Verif.Proof.Graph

/-! Loop invariants of `build_levelSet_CSC`. -/

namespace Verif.LevelSet
open Res Csc

variable {g : Csc}

theorem take_set_succ {α : Type _} (l : List α) (k : Nat) (v : α) (h : k < l.length) :
    (l.set k v).take (k + 1) = l.take k ++ [v] := by
  rw [List.take_add_one, List.take_set_of_le (le_refl _)]
  simp [h]

theorem take_set_ge {α : Type _} (l : List α) (k m : Nat) (v : α) (h : m ≤ k) :
    (l.set k v).take m = l.take m := List.take_set_of_le h

/-- In-degree counting. -/
theorem countInDegree_spec (h : g.WF) (hd : g.OneDiag) :
    wp (countInDegree g.n g.p g.i (List.replicate g.n 0)) (fun deg =>
      deg.length = g.n ∧ ∀ v, v < g.n → deg.getD v 0 = 1 + (g.remIn [] v : Int)) := by
  unfold countInDegree
  rw [h.rd_p (le_refl _)]
  simp only [ok_bind]
  refine forRange_wp' (fun j (deg : List Int) => deg.length = g.n ∧
    ∀ v, v < g.n → deg.getD v 0 = ((g.i.take j).count v : Int)) (Nat.zero_le _) ?_ ?_ ?_
  · refine ⟨by simp, fun v hv => ?_⟩
    rw [getD_replicate _ _ _ _ hv]; simp
  · rintro j deg - hj ⟨hl, hv⟩
    have hlt : g.idx j < g.n := by
      have hm : g.idx j ∈ g.i.take (g.ptr g.n) := by
        have hb := h.bound
        rw [List.mem_iff_getElem]
        refine ⟨j, by simp; omega, ?_⟩
        rw [List.getElem_take, idx, List.getD_eq_getElem?_getD, List.getElem?_eq_getElem (by omega)]
        rfl
      rw [h.take_eq_flatten (le_refl _), List.mem_flatten] at hm
      obtain ⟨c, hc, hm⟩ := hm
      rw [List.mem_map] at hc
      obtain ⟨u, hu, rfl⟩ := hc
      exact h.range u (List.mem_range.1 hu) _ hm
    rw [h.rd_i hj]
    simp only [ok_bind, rd_getD 0 (by omega : g.idx j < deg.length), wr_eq (by omega : g.idx j < deg.length), wp_ok]
    refine ⟨by simpa using hl, fun v hvn => ?_⟩
    rw [getD_set, List.take_add_one, List.count_append, hv v hvn]
    have hb := h.bound
    have hopt : g.i[j]? = some (g.idx j) := by
      rw [idx, List.getD_eq_getElem?_getD, List.getElem?_eq_getElem (by omega)]; rfl
    rw [hopt]
    simp only [Option.toList_some, List.count_singleton]
    by_cases he : g.idx j = v
    · subst he
      rw [hv _ hvn]
      simp [hl, hvn]
    · simp [he]
  · rintro deg ⟨hl, hv⟩
    refine ⟨hl, fun v hvn => ?_⟩
    rw [hv v hvn, h.remIn_nil hd hvn]
    push_cast; ring

/-- Loop-head invariant, without the bound on the number of levels. -/
structure InvB (g : Csc) (s : St) : Prop where
  lenDeg : s.inDegree.length = g.n
  lenVis : s.visited.length = g.n
  lenSet : s.levelSet.length = g.n
  lenLvl : s.nodeToLevel.length = g.n
  lenPtr : s.levelPtr.length = g.n + 1
  cntLe : s.cnt ≤ g.n
  nodup : (s.levelSet.take s.cnt).Nodup
  memDone : ∀ v, v ∈ s.levelSet.take s.cnt ↔ v < g.n ∧ ¬ g.PathTo s.curLevel v
  vis : ∀ v, v < g.n → (s.visited.getD v false = true ↔ v ∈ s.levelSet.take s.cnt)
  deg : ∀ v, v < g.n → s.inDegree.getD v 0 = 1 + (g.remIn (s.levelSet.take s.cnt) v : Int)
  ptr0 : s.levelPtr.getD 0 0 = 0
  ptrL : s.levelPtr.getD s.curLevel 0 = s.cnt
  ptrMono : ∀ l, l < s.curLevel → s.levelPtr.getD l 0 ≤ s.levelPtr.getD (l + 1) 0
  ntl : ∀ v, v ∈ s.levelSet.take s.cnt →
    g.PathTo (s.nodeToLevel.getD v 0) v ∧ ¬ g.PathTo (s.nodeToLevel.getD v 0 + 1) v
  lvl : ∀ l k, l < s.curLevel → s.levelPtr.getD l 0 ≤ k → k < s.levelPtr.getD (l + 1) 0 →
    s.nodeToLevel.getD (s.levelSet.getD k 0) 0 = l
  begOut : s.beg < g.n → s.beg ∉ s.levelSet.take s.cnt
  outside : ∀ v, v < g.n → (v < s.beg ∨ s.end_ < (v : Int)) → v ∈ s.levelSet.take s.cnt
  endLt : s.end_ < g.n
  endGe : -1 ≤ s.end_
  prev : 0 < s.curLevel → ∃ v, g.PathTo (s.curLevel - 1) v
  beyond : ∀ l, s.curLevel < l → s.levelPtr.getD l 0 = 0

/-- Loop-head invariant. -/
structure Inv (g : Csc) (s : St) : Prop extends InvB g s where
  lvlLt : s.curLevel < g.n ∨ s.curLevel = 0

/-- Invariant of the scan over `[begin, end]`; `t` is the state before the scan. -/
structure ScanInv (g : Csc) (t : St) (i : Nat) (s : St) : Prop where
  eDeg : s.inDegree = t.inDegree
  ePtr : s.levelPtr = t.levelPtr
  eBeg : s.beg = t.beg
  eEnd : s.end_ = t.end_
  eCur : s.curLevel = t.curLevel
  lenVis : s.visited.length = g.n
  lenSet : s.levelSet.length = g.n
  lenLvl : s.nodeToLevel.length = g.n
  cntLe : s.cnt ≤ g.n
  cntGe : t.cnt ≤ s.cnt
  old : s.levelSet.take t.cnt = t.levelSet.take t.cnt
  nodup : (s.levelSet.take s.cnt).Nodup
  mem : ∀ v, v ∈ s.levelSet.take s.cnt ↔ v ∈ t.levelSet.take t.cnt ∨
    (t.beg ≤ v ∧ v < i ∧ v < g.n ∧ g.remIn (t.levelSet.take t.cnt) v = 0)
  vis : ∀ v, v < g.n → (s.visited.getD v false = true ↔ v ∈ s.levelSet.take s.cnt)
  ntlOld : ∀ v, v ∈ t.levelSet.take t.cnt → s.nodeToLevel.getD v 0 = t.nodeToLevel.getD v 0
  ntlNew : ∀ v, v ∈ s.levelSet.take s.cnt → v ∉ t.levelSet.take t.cnt →
    s.nodeToLevel.getD v 0 = t.curLevel

theorem nodup_length_le {l : List Nat} {n : Nat} (hn : l.Nodup) (hb : ∀ v ∈ l, v < n) :
    l.length ≤ n := by
  have : l ⊆ List.range n := fun v hv => List.mem_range.2 (hb v hv)
  have := (List.subperm_of_subset hn this).length_le
  simpa using this

theorem nodup_length_lt {l : List Nat} {n w : Nat} (hn : l.Nodup) (hb : ∀ v ∈ l, v < n)
    (hw : w < n) (hwn : w ∉ l) : l.length < n := by
  have h1 : (w :: l).Nodup := List.nodup_cons.2 ⟨hwn, hn⟩
  have := nodup_length_le (n := n) h1 (by simpa [hw] using hb)
  simp at this; omega

theorem scanStep_spec {t : St} (ht : InvB g t) {i : Nat} {s : St}
    (hi1 : t.beg ≤ i) (hi2 : i < g.n) (hs : ScanInv g t i s) :
    wp (scanStep i s) (ScanInv g t (i + 1)) := by
  unfold scanStep
  rw [hs.eDeg, rd_getD 0 (by rw [ht.lenDeg]; exact hi2)]
  simp only [ok_bind]
  have hdeg := ht.deg i hi2
  by_cases h1 : t.inDegree.getD i 0 = 1
  · have hrem : g.remIn (t.levelSet.take t.cnt) i = 0 := by omega
    rw [if_pos h1, rd_getD false (by rw [hs.lenVis]; exact hi2)]
    simp only [ok_bind]
    by_cases hv : s.visited.getD i false = true
    · rw [if_pos hv]
      simp only [pure_eq, wp_ok]
      have hin := (hs.vis i hi2).1 hv
      refine { hs with mem := fun v => ?_ }
      rw [hs.mem v]
      constructor
      · rintro (h | ⟨a, b, c, d⟩)
        · exact .inl h
        · exact .inr ⟨a, by omega, c, d⟩
      · rintro (h | ⟨a, b, c, d⟩)
        · exact .inl h
        · by_cases hvi : v = i
          · subst hvi
            exact (hs.mem v).1 hin
          · exact .inr ⟨a, by omega, c, d⟩
    · rw [if_neg hv]
      have hnin : i ∉ s.levelSet.take s.cnt := fun hc => hv ((hs.vis i hi2).2 hc)
      have hcnt : s.cnt < g.n := by
        have hb : ∀ v ∈ s.levelSet.take s.cnt, v < g.n := by
          intro v hvm
          rcases (hs.mem v).1 hvm with h | ⟨_, _, h, _⟩
          · exact ((ht.memDone v).1 h).1
          · exact h
        have := nodup_length_lt hs.nodup hb hi2 hnin
        simp at this
        have := hs.lenSet
        have := hs.cntLe
        omega
      rw [wr_eq (by rw [hs.lenVis]; exact hi2), wr_eq (by rw [hs.lenSet]; exact hcnt),
        wr_eq (by rw [hs.lenLvl]; exact hi2)]
      simp only [ok_bind, pure_eq, wp_ok]
      have hts : (s.levelSet.set s.cnt i).take (s.cnt + 1) = s.levelSet.take s.cnt ++ [i] :=
        take_set_succ _ _ _ (by rw [hs.lenSet]; exact hcnt)
      have hold : i ∉ t.levelSet.take t.cnt := fun hc => hnin ((hs.mem i).2 (.inl hc))
      constructor
      · rfl
      · exact hs.ePtr
      · exact hs.eBeg
      · exact hs.eEnd
      · exact hs.eCur
      · simpa using hs.lenVis
      · simpa using hs.lenSet
      · simpa using hs.lenLvl
      · exact hcnt
      · have := hs.cntGe; simp; omega
      · simp only
        rw [take_set_ge _ _ _ _ hs.cntGe]; exact hs.old
      · simp only [hts]
        rw [List.nodup_append]
        refine ⟨hs.nodup, by simp, ?_⟩
        intro a ha b hb
        simp at hb
        subst hb
        intro hab; subst hab; exact hnin ha
      · intro v
        simp only [hts, List.mem_append, List.mem_singleton]
        rw [hs.mem v]
        constructor
        · rintro ((h | ⟨a, b, c, d⟩) | h)
          · exact .inl h
          · exact .inr ⟨a, by omega, c, d⟩
          · subst h; exact .inr ⟨hi1, by omega, hi2, hrem⟩
        · rintro (h | ⟨a, b, c, d⟩)
          · exact .inl (.inl h)
          · by_cases hvi : v = i
            · exact .inr hvi
            · exact .inl (.inr ⟨a, by omega, c, d⟩)
      · intro v hvn
        simp only [hts, List.mem_append, List.mem_singleton, getD_set]
        by_cases hvi : i = v
        · subst hvi
          simp [hs.lenVis, hvn]
        · rw [if_neg (by tauto), hs.vis v hvn]
          constructor
          · exact .inl
          · rintro (h | h)
            · exact h
            · exact absurd h.symm hvi
      · intro v hvt
        simp only [getD_set]
        rw [if_neg ?_]
        · exact hs.ntlOld v hvt
        · rintro ⟨h, _⟩; subst h; exact hold hvt
      · intro v hvm hvt
        simp only [hts, List.mem_append, List.mem_singleton] at hvm
        simp only [getD_set]
        by_cases hvi : i = v
        · subst hvi
          rw [if_pos ⟨rfl, by rw [hs.lenLvl]; exact hi2⟩, hs.eCur]
        · rw [if_neg (by tauto)]
          rcases hvm with h | h
          · exact hs.ntlNew v h hvt
          · exact absurd h.symm hvi
  · rw [if_neg h1]
    simp only [pure_eq, wp_ok]
    refine { hs with mem := fun v => ?_ }
    rw [hs.mem v]
    constructor
    · rintro (h | ⟨a, b, c, d⟩)
      · exact .inl h
      · exact .inr ⟨a, by omega, c, d⟩
    · rintro (h | ⟨a, b, c, d⟩)
      · exact .inl h
      · refine .inr ⟨a, ?_, c, d⟩
        by_cases hvi : v = i
        · subst hvi; omega
        · omega

theorem advanceBegin_spec {deg : List Int} {b0 : Nat} (hl : deg.length = g.n) (hb : b0 < g.n) :
    wp (advanceBegin g.n deg b0) (fun b => b0 ≤ b ∧ b ≤ g.n ∧
      (∀ v, b0 ≤ v → v < b → deg.getD v 0 = 1) ∧ (b < g.n → deg.getD b 0 ≠ 1)) := by
  unfold advanceBegin
  refine loopF_wp (fun b => b0 ≤ b ∧ b < g.n ∧ (∀ v, b0 ≤ v → v < b → deg.getD v 0 = 1))
    (fun b => g.n - b) ?_ _ _ (by omega) ⟨le_refl _, hb, by intro v h1 h2; omega⟩
  rintro b ⟨h1, h2, h3⟩
  rw [rd_getD 0 (by omega : b < deg.length)]
  simp only [ok_bind]
  by_cases hd : deg.getD b 0 = 1
  · rw [if_pos hd]
    have h4 : ∀ v, b0 ≤ v → v < b + 1 → deg.getD v 0 = 1 := by
      intro v hv1 hv2
      by_cases hvb : v = b
      · subst hvb; exact hd
      · exact h3 v hv1 (by omega)
    by_cases hn : b + 1 ≥ g.n
    · rw [if_pos hn]
      simp only [pure_eq, wp_ok]
      exact ⟨by omega, by omega, h4, by omega⟩
    · rw [if_neg hn]
      simp only [pure_eq, wp_ok]
      exact ⟨⟨by omega, by omega, h4⟩, by omega⟩
  · rw [if_neg hd]
    simp only [pure_eq, wp_ok]
    exact ⟨h1, by omega, h3, fun _ => hd⟩

theorem retreatEnd_spec {deg : List Int} {b : Nat} {e0 : Int} (hl : deg.length = g.n)
    (he0 : 0 ≤ e0) (he1 : e0 < g.n) (hb : (b : Int) ≤ e0 → deg.getD b 0 ≠ 1) :
    wp (retreatEnd g.n deg b e0) (fun e => e ≤ e0 ∧ 0 ≤ e ∧
      (∀ v : Nat, e < v → (v : Int) ≤ e0 → deg.getD v 0 = 1)) := by
  unfold retreatEnd
  refine loopF_wp (fun e : Int => e ≤ e0 ∧ 0 ≤ e ∧ ((b : Int) ≤ e0 → (b : Int) ≤ e) ∧
    (∀ v : Nat, e < v → (v : Int) ≤ e0 → deg.getD v 0 = 1))
    (fun e => e.toNat) ?_ _ _ (by omega) ⟨le_refl _, he0, id, by intro v h1 h2; omega⟩
  rintro e ⟨h1, h2, h3, h4⟩
  have hrd : rdZ deg e = ok (deg.getD e.toNat 0) := by
    unfold rdZ
    rw [if_neg (by omega), rd_getD 0 (by omega)]
  rw [hrd]
  simp only [ok_bind]
  by_cases hc : deg.getD e.toNat 0 = 1 ∧ (b : Int) ≤ e
  · rw [if_pos hc]
    simp only [pure_eq, wp_ok]
    have hbe : (b : Int) ≠ e := by
      intro h
      apply hb (by omega)
      have : e.toNat = b := by omega
      rw [← this]; exact hc.1
    refine ⟨⟨by omega, by omega, by omega, ?_⟩, by omega⟩
    intro v hv1 hv2
    by_cases hve : (v : Int) = e
    · have : v = e.toNat := by omega
      rw [this]; exact hc.1
    · exact h4 v (by omega) hv2
  · rw [if_neg hc]
    simp only [pure_eq, wp_ok]
    exact ⟨h1, h2, h4⟩

theorem removeCol_spec (h : g.WF) {S : List Nat} {cc : Nat} {deg : List Int} (hcc : cc < g.n)
    (hl : deg.length = g.n) (hns : cc ∉ S)
    (hd : ∀ v, v < g.n → deg.getD v 0 = 1 + (g.remIn S v : Int)) :
    wp (forRange (g.ptr cc) (g.ptr (cc + 1)) (fun j deg => do
      let v ← rd g.i j
      if v ≠ cc then
        let d ← rd deg v
        wr deg v (d - 1)
      else pure deg) deg) (fun deg' => deg'.length = g.n ∧
        ∀ v, v < g.n → deg'.getD v 0 = 1 + (g.remIn (S ++ [cc]) v : Int)) := by
  have hm := h.mono cc hcc
  have hle := h.ptr_le (a := cc + 1) (by omega)
  unfold forRange
  rw [forRange_rd g.i (fun v deg => if v ≠ cc then do
        let d ← rd deg v
        wr deg v (d - 1)
      else pure deg) _ _ _ (by omega)]
  change wp (forEach (g.col cc) _ deg) _
  have key := forEach_wp (fun (pre : List Nat) (deg' : List Int) => deg'.length = g.n ∧
    ∀ v, v < g.n → deg'.getD v 0 = deg.getD v 0 - (if v = cc then 0 else (pre.count v : Int)))
    (f := fun v deg => if v ≠ cc then do
        let d ← rd deg v
        wr deg v (d - 1)
      else pure deg) (g.col cc) [] deg ⟨hl, by intro v hv; simp⟩ ?_
  · refine wp_mono key ?_
    rintro deg' ⟨h1, h2⟩
    refine ⟨h1, fun v hv => ?_⟩
    rw [h2 v hv, hd v hv, remIn_append hcc hns]
    simp only [List.nil_append]
    by_cases hvc : v = cc
    · subst hvc; simp
    · have : cc ≠ v := fun h => hvc h.symm
      simp only [hvc, this, if_false]
      push_cast; ring
  · rintro p a q deg' heq ⟨h1, h2⟩
    have ha : a < g.n := by
      apply h.range cc hcc a
      simp only [List.nil_append] at heq
      rw [heq]; simp
    by_cases hac : a = cc
    · subst hac
      simp only [ne_eq, not_true_eq_false, if_false, pure_eq, wp_ok]
      refine ⟨h1, fun v hv => ?_⟩
      rw [h2 v hv]
      by_cases hvc : v = a
      · simp [hvc]
      · have : a ≠ v := fun h => hvc h.symm
        simp [hvc, List.count_append, this]
    · simp only [ne_eq, hac, not_false_eq_true, if_true, rd_getD 0 (by omega : a < deg'.length),
        ok_bind, wr_eq (by omega : a < deg'.length), wp_ok]
      refine ⟨by simpa using h1, fun v hv => ?_⟩
      rw [getD_set]
      by_cases hva : a = v
      · subst hva
        rw [if_pos ⟨rfl, by omega⟩, h2 a hv]
        simp [hac, List.count_append]
        ring
      · rw [if_neg (by tauto), h2 v hv]
        simp [List.count_append, hva]

theorem removeEdges_spec (h : g.WF) {ls : List Nat} {deg : List Int} {lo hi : Nat}
    (hlo : lo ≤ hi) (hhi : hi ≤ ls.length) (hl : deg.length = g.n)
    (hnd : (ls.take hi).Nodup) (hlt : ∀ v ∈ ls.take hi, v < g.n)
    (hd : ∀ v, v < g.n → deg.getD v 0 = 1 + (g.remIn (ls.take lo) v : Int)) :
    wp (removeEdges g.p g.i ls lo hi deg) (fun deg' => deg'.length = g.n ∧
      ∀ v, v < g.n → deg'.getD v 0 = 1 + (g.remIn (ls.take hi) v : Int)) := by
  unfold removeEdges
  refine forRange_wp (fun l (deg : List Int) => deg.length = g.n ∧
      ∀ v, v < g.n → deg.getD v 0 = 1 + (g.remIn (ls.take l) v : Int)) hlo ⟨hl, hd⟩ ?_
  rintro l deg' h1 h2 ⟨h3, h4⟩
  have hll : l < ls.length := by omega
  have hsub : ls.take l ++ [ls[l]] = ls.take (l + 1) := by
    rw [List.take_add_one]; simp [hll]
  have hpre : ls.take (l + 1) <+: ls.take hi := List.take_prefix_take_left (by omega)
  have hcc : ls[l] < g.n := by
    apply hlt
    apply hpre.subset
    rw [← hsub]; exact List.mem_append_right _ (List.mem_singleton.2 rfl)
  have hns : ls[l] ∉ ls.take l := by
    have := hnd.sublist hpre.sublist
    rw [← hsub, List.nodup_append] at this
    intro hc
    exact this.2.2 _ hc _ (by simp) rfl
  rw [rd_eq hll]
  simp only [ok_bind]
  rw [h.rd_p (by omega), h.rd_p (by omega)]
  simp only [ok_bind]
  have := removeCol_spec h hcc h3 hns h4
  rw [hsub] at this
  exact this

/-- Result of the loop. -/
def Post (g : Csc) (r : Int × St) : Prop :=
  (r.1 = r.2.curLevel ∧ Inv g r.2 ∧ ∀ v, v < g.n → v ∈ r.2.levelSet.take r.2.cnt) ∨
  (r.1 = -1 ∧ ∃ v, g.PathTo (g.n - 1) v)

/-- The rest of a round: after the scan, `begin` has been moved to `b`. -/
theorem round_next (h : g.WF) {s t : St} (hs : InvB g s) (hbe : (s.beg : Int) ≤ s.end_)
    (ht : ScanInv g s (s.end_ + 1).toNat t) (hn : t.curLevel + 1 ≤ g.n) {b : Nat}
    (hb3 : ∀ v, s.beg ≤ v → v < b → v < g.n → s.inDegree.getD v 0 = 1)
    (hb4 : b < g.n → s.inDegree.getD b 0 ≠ 1) :
    wp (retreatEnd g.n s.inDegree b s.end_) (fun e =>
      wp (rd (t.levelPtr.set (t.curLevel + 1) t.cnt) (t.curLevel + 1 - 1)) (fun lo =>
        wp (rd (t.levelPtr.set (t.curLevel + 1) t.cnt) (t.curLevel + 1)) (fun hi =>
          wp (removeEdges g.p g.i t.levelSet lo hi s.inDegree) (fun deg =>
            InvB g { t with curLevel := t.curLevel + 1, levelPtr := t.levelPtr.set (t.curLevel + 1) t.cnt,
                            beg := b, end_ := e, inDegree := deg } ∧
            t.curLevel = s.curLevel)))) := by
  have hend := hs.endLt
  have hbn : s.beg < g.n := by omega
  have hnotdone := hs.begOut hbn
  have hpathBeg : g.PathTo s.curLevel s.beg := by
    by_contra hc
    exact hnotdone ((hs.memDone _).2 ⟨hbn, hc⟩)
  have hcur := ht.eCur
  -- membership after the scan
  have hmem : ∀ v, v ∈ t.levelSet.take t.cnt ↔ v < g.n ∧ ¬ g.PathTo (s.curLevel + 1) v := by
    intro v
    rw [ht.mem v, pathTo_succ]
    constructor
    · rintro (hv | ⟨_, _, hv, hr⟩)
      · obtain ⟨a, b⟩ := (hs.memDone v).1 hv
        refine ⟨a, ?_⟩
        rintro ⟨u, hu1, hu2⟩
        exact b ((PathTo.snoc hu1 hu2).shorten h)
      · refine ⟨hv, ?_⟩
        rintro ⟨u, hu1, hu2⟩
        have := remIn_eq_zero.1 hr u hu2
        exact ((hs.memDone u).1 this).2 hu1
    · rintro ⟨hv, hnp⟩
      have hrem : g.remIn (s.levelSet.take s.cnt) v = 0 := by
        rw [remIn_eq_zero]
        intro u hu
        refine (hs.memDone u).2 ⟨hu.1, fun hp => hnp ⟨u, hp, hu⟩⟩
      by_cases hin : v ∈ s.levelSet.take s.cnt
      · exact .inl hin
      · right
        by_cases ho : v < s.beg ∨ s.end_ < (v : Int)
        · exact absurd (hs.outside v hv ho) hin
        · refine ⟨by omega, ?_, hv, hrem⟩
          have : (v : Int) < s.end_ + 1 := by omega
          omega
  -- done nodes have degree one
  have hone : ∀ v, v ∈ t.levelSet.take t.cnt → s.inDegree.getD v 0 = 1 := by
    intro v hv
    have hv' := (hmem v).1 hv
    rw [hs.deg v hv'.1]
    have hrem : g.remIn (s.levelSet.take s.cnt) v = 0 := by
      rw [remIn_eq_zero]
      intro u hu
      refine (hs.memDone u).2 ⟨hu.1, fun hp => hv'.2 (.snoc hp hu)⟩
    rw [hrem]; rfl
  have hone' : ∀ v, s.beg ≤ v → (v : Int) ≤ s.end_ → s.inDegree.getD v 0 = 1 →
      v ∈ t.levelSet.take t.cnt := by
    intro v h1 h2 h3
    rw [ht.mem v]
    right
    have hvn : v < g.n := by omega
    have := hs.deg v hvn
    refine ⟨h1, ?_, hvn, by omega⟩
    have : (v : Int) < s.end_ + 1 := by omega
    omega
  have hallTaken : ∀ v, v < g.n → (v < s.beg ∨ s.end_ < (v : Int)) →
      v ∈ t.levelSet.take t.cnt := fun v hv ho => (ht.mem v).2 (.inl (hs.outside v hv ho))
  refine wp_mono (retreatEnd_spec hs.lenDeg (by omega) hend (fun hle => hb4 (by omega))) ?_
  rintro e ⟨he1, he2, he3⟩
  have hlen : t.levelPtr.length = g.n + 1 := by rw [ht.ePtr]; exact hs.lenPtr
  have hg1 : (t.levelPtr.set (t.curLevel + 1) t.cnt).getD t.curLevel 0 = s.cnt := by
    rw [getD_set, if_neg (by omega), ht.ePtr, hcur, hs.ptrL]
  have hg2 : (t.levelPtr.set (t.curLevel + 1) t.cnt).getD (t.curLevel + 1) 0 = t.cnt := by
    rw [getD_set, if_pos (by omega)]
  rw [show t.curLevel + 1 - 1 = t.curLevel by omega,
    rd_getD 0 (by rw [List.length_set]; omega), rd_getD 0 (by rw [List.length_set]; omega),
    hg1, hg2]
  simp only [wp_ok]
  have hdeg : ∀ v, v < g.n → s.inDegree.getD v 0
      = 1 + (g.remIn (t.levelSet.take s.cnt) v : Int) := by
    rw [ht.old]; exact hs.deg
  refine wp_mono (removeEdges_spec h ht.cntGe (by rw [ht.lenSet]; exact ht.cntLe)
    hs.lenDeg ht.nodup (fun v hv => ((hmem v).1 hv).1) hdeg) ?_
  rintro deg' ⟨hdl, hdv⟩
  refine ⟨?_, hcur⟩
  constructor
  · exact hdl
  · exact ht.lenVis
  · exact ht.lenSet
  · exact ht.lenLvl
  · simpa using hlen
  · exact ht.cntLe
  · exact ht.nodup
  · simp only [hcur]; exact hmem
  · exact ht.vis
  · exact hdv
  · simp only
    rw [getD_set, if_neg (by omega), ht.ePtr]; exact hs.ptr0
  · simp only; exact hg2
  · intro l hl
    simp only at hl ⊢
    by_cases hll : l = t.curLevel
    · subst hll
      rw [hg1, hg2]; exact ht.cntGe
    · rw [getD_set, getD_set, if_neg (by omega), if_neg (by omega), ht.ePtr]
      exact hs.ptrMono l (by omega)
  · intro v hv
    simp only at hv ⊢
    by_cases hin : v ∈ s.levelSet.take s.cnt
    · rw [ht.ntlOld v hin]; exact hs.ntl v hin
    · rw [ht.ntlNew v hv hin]
      have hv' := (hmem v).1 hv
      refine ⟨?_, hv'.2⟩
      by_contra hc
      exact hin ((hs.memDone v).2 ⟨hv'.1, hc⟩)
  · intro l k hl hk1 hk2
    simp only at hl hk1 hk2 ⊢
    by_cases hll : l = t.curLevel
    · subst hll
      rw [hg1] at hk1
      rw [hg2] at hk2
      have hkt : k < t.levelSet.length := by rw [ht.lenSet]; have := ht.cntLe; omega
      have hmemk : t.levelSet.getD k 0 ∈ t.levelSet.take t.cnt := by
        rw [List.mem_iff_getElem]
        exact ⟨k, by simp; omega, by simp [List.getElem?_eq_getElem hkt]⟩
      have hnk : t.levelSet.getD k 0 ∉ s.levelSet.take s.cnt := by
        rw [← ht.old]
        intro hc
        obtain ⟨m, hm, hme⟩ := List.mem_iff_getElem.1 hc
        simp at hm
        have := (List.nodup_iff_injective_getElem.1 ht.nodup)
        have h2 : (⟨k, by simp; omega⟩ : Fin (t.levelSet.take t.cnt).length)
            = ⟨m, by simp; have := ht.cntGe; omega⟩ := by
          apply this
          simp only [List.getElem_take] at hme ⊢
          rw [hme, List.getD_eq_getElem?_getD, List.getElem?_eq_getElem hkt]; rfl
        simp at h2
        omega
      rw [ht.ntlNew _ hmemk hnk, hcur]
    · rw [getD_set, if_neg (by omega), ht.ePtr] at hk1
      rw [getD_set, if_neg (by omega), ht.ePtr] at hk2
      have hk3 : k < s.cnt := by
        have hmono : ∀ m, l + 1 ≤ m → m ≤ s.curLevel →
            s.levelPtr.getD (l + 1) 0 ≤ s.levelPtr.getD m 0 := by
          intro m
          induction m with
          | zero => intro h1; omega
          | succ m ih =>
            intro h1 h2
            rcases Nat.lt_or_ge l m with h3 | h3
            · exact le_trans (ih (by omega) (by omega)) (hs.ptrMono m (by omega))
            · have : l = m := by omega
              rw [this]
        have := hmono s.curLevel (by omega) (le_refl _)
        rw [hs.ptrL] at this
        omega
      have heqk : t.levelSet.getD k 0 = s.levelSet.getD k 0 := by
        have h1 : (t.levelSet.take s.cnt)[k]? = t.levelSet[k]? := by
          rw [List.getElem?_take, if_pos hk3]
        have h2 : (s.levelSet.take s.cnt)[k]? = s.levelSet[k]? := by
          rw [List.getElem?_take, if_pos hk3]
        rw [List.getD_eq_getElem?_getD, List.getD_eq_getElem?_getD, ← h1, ← h2, ht.old]
      have hks : k < s.levelSet.length := by rw [hs.lenSet]; have := hs.cntLe; omega
      have hmemk : s.levelSet.getD k 0 ∈ s.levelSet.take s.cnt := by
        rw [List.mem_iff_getElem]
        exact ⟨k, by simp; omega, by simp [List.getElem?_eq_getElem hks]⟩
      rw [heqk, ht.ntlOld _ hmemk]
      exact hs.lvl l k (by omega) hk1 hk2
  · intro hbn'
    simp only at hbn' ⊢
    intro hc
    exact hb4 hbn' (hone b hc)
  · intro v hv ho
    simp only at ho ⊢
    by_cases h1 : v < s.beg ∨ s.end_ < (v : Int)
    · exact hallTaken v hv h1
    · rcases ho with ho | ho
      · exact hone' v (by omega) (by omega) (hb3 v (by omega) ho hv)
      · exact hone' v (by omega) (by omega) (he3 v ho (by omega))
  · simp only; omega
  · simp only; omega
  · simp only
    intro _
    refine ⟨s.beg, ?_⟩
    rw [hcur]; exact hpathBeg
  · intro l hl
    simp only at hl ⊢
    rw [getD_set, if_neg (by omega), ht.ePtr]
    exact hs.beyond l (by omega)

theorem round_spec (h : g.WF) {s : St} (hs : Inv g s) :
    wp (round g.n g.p g.i s) (Ctl.post
      (fun s' => Inv g s' ∧ g.n - s'.curLevel < g.n - s.curLevel) (Post g)) := by
  unfold round
  by_cases hbe : (s.beg : Int) ≤ s.end_
  · rw [if_pos hbe]
    have hbn : s.beg < g.n := by have := hs.endLt; omega
    have hnotdone := hs.begOut hbn
    have hpathBeg : g.PathTo s.curLevel s.beg := by
      by_contra hc
      exact hnotdone ((hs.memDone _).2 ⟨hbn, hc⟩)
    simp only [wp_bind]
    refine forRange_wp' (ScanInv g s) (by omega) ?_ ?_ ?_
    · -- initial
      exact { eDeg := rfl, ePtr := rfl, eBeg := rfl, eEnd := rfl, eCur := rfl
              lenVis := hs.lenVis, lenSet := hs.lenSet, lenLvl := hs.lenLvl
              cntLe := hs.cntLe, cntGe := le_refl _, old := rfl, nodup := hs.nodup
              mem := fun v => ⟨.inl, fun hc => by
                rcases hc with hc | ⟨a, b, _, _⟩
                · exact hc
                · omega⟩
              vis := hs.vis, ntlOld := fun _ _ => rfl, ntlNew := fun v h1 h2 => absurd h1 h2 }
    · intro i s' h1 h2 h3
      exact scanStep_spec hs.toInvB h1 (by have := hs.endLt; omega) h3
    · intro t ht
      have hend := hs.endLt
      by_cases hn : t.curLevel + 1 ≥ g.n
      · rw [if_pos hn]
        simp only [pure_eq, wp_ok]
        refine .inr ⟨rfl, s.beg, ?_⟩
        have hcur : s.curLevel = g.n - 1 := by
          have := ht.eCur
          rcases hs.lvlLt with h | h <;> omega
        rw [← hcur]; exact hpathBeg
      · rw [if_neg hn, wr_eq (by rw [ht.ePtr, hs.lenPtr]; omega)]
        simp only [ok_bind]
        rw [ht.eDeg, ht.eBeg, ht.eEnd]
        simp only [wp_bind]
        refine wp_mono (advanceBegin_spec hs.lenDeg hbn) ?_
        rintro b ⟨hb1, hb2, hb3, hb4⟩
        have hcur := ht.eCur
        refine wp_mono (round_next h hs.toInvB hbe ht (by omega) (fun v h1 h2 _ => hb3 v h1 h2) hb4) ?_
        intro e he
        refine wp_mono he fun lo hlo => wp_mono hlo fun hi hhi => wp_mono hhi ?_
        rintro deg ⟨hi, -⟩
        simp only [pure_eq, wp_ok]
        exact ⟨⟨hi, .inl (by dsimp only; omega)⟩, by dsimp only; omega⟩
  · rw [if_neg hbe]
    simp only [pure_eq, wp_ok]
    refine .inl ⟨rfl, hs, fun v hv => hs.outside v hv ?_⟩
    omega

/-- The invariant holds at the start. -/
theorem invB_start {deg : List Int} (hl : deg.length = g.n)
    (hv : ∀ v, v < g.n → deg.getD v 0 = 1 + (g.remIn [] v : Int)) :
    InvB g { inDegree := deg, visited := List.replicate g.n false
             levelSet := List.replicate g.n 0, nodeToLevel := List.replicate g.n 0
             levelPtr := List.replicate (g.n + 1) 0, cnt := 0, curLevel := 0, beg := 0
             end_ := (g.n : Int) - 1 } := by
  constructor <;> simp only [List.length_replicate, List.take_zero, List.nodup_nil]
  · exact hl
  · omega
  · intro v
    simp only [List.not_mem_nil, false_iff, not_and, not_not, pathTo_zero]
    exact id
  · intro v hvn
    rw [getD_replicate _ _ _ _ hvn]; simp
  · exact hv
  · rw [getD_replicate _ _ _ _ (by omega)]
  · rw [getD_replicate _ _ _ _ (by omega)]
  · intro l hl; omega
  · intro v hv; simp at hv
  · intro l k hl; omega
  · intro _; simp
  · intro v hvn ho; omega
  · omega
  · omega
  · omega
  · intro l _
    rw [List.getD_eq_getElem?_getD, List.getElem?_replicate]
    split <;> rfl

theorem buildLevelSet_spec (h : g.WF) (hd : g.OneDiag) :
    wp (buildLevelSet g.n g.p g.i) (fun o => ∃ r : Int × St, Post g r ∧
      o = ⟨r.1, r.2.levelPtr, r.2.levelSet, r.2.nodeToLevel⟩) := by
  unfold buildLevelSet
  simp only [wp_bind]
  refine wp_mono (countInDegree_spec h hd) ?_
  rintro deg ⟨hl, hv⟩
  refine wp_mono (loopF_wp (Inv g) (fun s => g.n - s.curLevel) (Q := Post g) ?_ _ _ ?_ ?_) ?_
  · intro s hs
    exact round_spec h hs
  · simp only; omega
  · exact ⟨invB_start hl hv, .inr rfl⟩
  · intro r hr
    simp only [pure_eq, wp_ok]
    exact ⟨r, hr, rfl⟩

end Verif.LevelSet
