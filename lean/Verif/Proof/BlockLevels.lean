import Verif.Proof.BlockCsc
import Verif.Proof.LevelSetOk
import Verif.Proof.LbcSeqAll

/-! # `build_levelSet_BCSC` -/

namespace Verif.Blocked
open Res Csc LevelSet BlockCsc

variable {M : BlockCsc}

/-- The loop that moves `begin`, if the memory behind the array ends it. -/
theorem advanceBegin_wp {slack deg : List Int} {b0 : Nat} (hb : b0 < deg.length)
    (hsl : ∃ x ∈ slack, x ≠ 1) :
    wp (advanceBegin slack deg b0) (fun b => b0 ≤ b ∧
      (∀ v, b0 ≤ v → v < b → v < deg.length → deg.getD v 0 = 1) ∧ (b < deg.length → deg.getD b 0 ≠ 1)) := by
  obtain ⟨x, hx, hx1⟩ := hsl
  obtain ⟨k, hk, hkx⟩ := List.mem_iff_getElem.1 hx
  have hgk : (deg ++ slack).getD (deg.length + k) 0 ≠ 1 := by
    rw [getD_append_right _ _ _ (by omega), Nat.add_sub_cancel_left, List.getD_eq_getElem?_getD,
      List.getElem?_eq_getElem hk, hkx]
    exact hx1
  unfold advanceBegin
  refine loopF_wp (fun b => b0 ≤ b ∧ b ≤ deg.length + k ∧
      ∀ v, b0 ≤ v → v < b → v < deg.length → deg.getD v 0 = 1)
    (fun b => deg.length + slack.length - b) ?_ _ _ (by omega) ⟨Nat.le_refl _, by omega, by intro v h1 h2; omega⟩
  rintro b ⟨h1, h2, h3⟩
  rw [rd_getD 0 (by rw [List.length_append]; omega), ok_bind]
  by_cases hd : (deg ++ slack).getD b 0 = 1
  · have hne : b ≠ deg.length + k := by rintro rfl; exact hgk hd
    rw [if_pos hd, wp_ok, Ctl.post_next]
    refine ⟨⟨by omega, by omega, ?_⟩, by omega⟩
    intro v hv1 hv2 hv3
    by_cases hvb : v = b
    · subst hvb
      rw [getD_append_left _ _ _ hv3] at hd
      exact hd
    · exact h3 v hv1 (by omega) hv3
  · rw [if_neg hd, wp_ok, Ctl.post_brk]
    refine ⟨h1, h3, fun hlt => ?_⟩
    rw [getD_append_left _ _ _ hlt] at hd
    exact hd

/-- The loop that moves `begin` without memory behind the array: it stops at a degree that is not one
or reads behind the array. -/
theorem advanceBegin_strict {deg : List Int} {b0 : Nat} (hb : b0 < deg.length) :
    (advanceBegin [] deg b0 = ub ∧ ∀ v, b0 ≤ v → v < deg.length → deg.getD v 0 = 1) ∨
    ∃ b, advanceBegin [] deg b0 = ok b ∧ b0 ≤ b ∧ b < deg.length ∧
      (∀ v, b0 ≤ v → v < b → deg.getD v 0 = 1) ∧ deg.getD b 0 ≠ 1 := by
  unfold advanceBegin
  rw [List.append_nil, List.length_nil, Nat.add_zero]
  have key : ∀ fuel b, b0 ≤ b → b ≤ deg.length → deg.length - b < fuel →
      (∀ v, b0 ≤ v → v < b → deg.getD v 0 = 1) →
      (loopF fuel (fun b => do
        let d ← rd deg b
        if d = 1 then ok (Ctl.next (b + 1)) else ok (Ctl.brk b)) b = ub ∧
          ∀ v, b0 ≤ v → v < deg.length → deg.getD v 0 = 1) ∨
      ∃ b', loopF fuel (fun b => do
        let d ← rd deg b
        if d = 1 then ok (Ctl.next (b + 1)) else ok (Ctl.brk b)) b = ok b' ∧ b0 ≤ b' ∧ b' < deg.length ∧
        (∀ v, b0 ≤ v → v < b' → deg.getD v 0 = 1) ∧ deg.getD b' 0 ≠ 1 := by
    intro fuel
    induction fuel with
    | zero => intro b _ _ h; omega
    | succ fuel ih =>
      intro b h1 h2 h3 h4
      unfold loopF
      beta_reduce
      by_cases hlt : b < deg.length
      · rw [rd_getD 0 hlt, ok_bind]
        by_cases hd : deg.getD b 0 = 1
        · rw [if_pos hd, ok_bind]
          refine ih (b + 1) (by omega) (by omega) (by omega) ?_
          intro v hv1 hv2
          by_cases hvb : v = b
          · subst hvb; exact hd
          · exact h4 v hv1 (by omega)
        · rw [if_neg hd, ok_bind]
          exact .inr ⟨b, rfl, h1, hlt, h4, hd⟩
      · have : rd deg b = ub := by
          unfold rd
          rw [List.getElem?_eq_none (by omega)]
        rw [this]
        exact .inl ⟨rfl, fun v hv1 hv2 => h4 v hv1 (by omega)⟩
  exact key _ b0 (Nat.le_refl _) (by omega) (by omega) (by intro v h1 h2; omega)

/-- What a round does after `begin` has been moved to `b`; `t` is the state after the scan. -/
def roundRest (M : BlockCsc) (s t : LevelSet.St) (b : Nat) : Res (Ctl LevelSet.St LevelSet.St) := do
  let end_ ← LevelSet.retreatEnd M.n s.inDegree b s.end_
  let lo ← rd (t.levelPtr.set (t.curLevel + 1) t.cnt) (t.curLevel + 1 - 1)
  let hi ← rd (t.levelPtr.set (t.curLevel + 1) t.cnt) (t.curLevel + 1)
  let inDegree ← removeEdges M t.levelSet lo hi s.inDegree
  ok (.next { t with curLevel := t.curLevel + 1, levelPtr := t.levelPtr.set (t.curLevel + 1) t.cnt,
                     beg := b, end_ := end_, inDegree := inDegree })

theorem path_beg {s : LevelSet.St} (hs : InvB M.graph s) (hbe : (s.beg : Int) ≤ s.end_) :
    s.beg < M.n ∧ M.graph.PathTo s.curLevel s.beg := by
  have h1 := hs.endLt
  rw [graph_n] at h1
  have hbn : s.beg < M.n := by omega
  refine ⟨hbn, ?_⟩
  by_contra hc
  exact hs.begOut hbn ((hs.memDone _).2 ⟨hbn, hc⟩)

theorem round_eq (h : M.WF) (ha : M.Acyclic) (debug : Bool) (slack : Nat → List Int) {s : LevelSet.St}
    (hs : InvB M.graph s) (hbe : (s.beg : Int) ≤ s.end_) :
    ∃ t, ScanInv M.graph s (s.end_ + 1).toNat t ∧ t.curLevel + 1 ≤ M.n ∧ round debug M slack s =
      (advanceBegin (slack t.curLevel) s.inDegree s.beg >>= roundRest M s t) := by
  have hend := hs.endLt
  rw [graph_n] at hend
  obtain ⟨t, he, ht⟩ := wp_iff.1 (forRange_wp' (f := scanStep) (s := s)
    (Q := ScanInv M.graph s (s.end_ + 1).toNat) (ScanInv M.graph s) (lo := s.beg) (hi := (s.end_ + 1).toNat)
    (by omega)
    { eDeg := rfl, ePtr := rfl, eBeg := rfl, eEnd := rfl, eCur := rfl
      lenVis := hs.lenVis, lenSet := hs.lenSet, lenLvl := hs.lenLvl
      cntLe := hs.cntLe, cntGe := Nat.le_refl _, old := rfl, nodup := hs.nodup
      mem := fun v => ⟨.inl, fun hc => by
        rcases hc with hc | ⟨a, b, _, _⟩
        · exact hc
        · omega⟩
      vis := hs.vis, ntlOld := fun _ _ => rfl, ntlNew := fun v h1 h2 => absurd h1 h2 }
    (fun i s' h1 h2 h3 => scanStep_spec hs h1 (by rw [graph_n]; omega) h3) (fun _ h => h))
  have hcur := ht.eCur
  have hlt := (path_beg hs hbe).2.lt_n h.graph (h.acyclic ha)
  rw [graph_n] at hlt
  refine ⟨t, ht, by omega, ?_⟩
  unfold round
  rw [if_pos hbe, he, ok_bind]
  dsimp only
  have hlp := hs.lenPtr
  rw [graph_n] at hlp
  rw [if_neg (by omega), wr_eq (by rw [ht.ePtr]; omega), ok_bind, ht.eDeg, ht.eBeg, ht.eEnd,
    Nat.add_sub_cancel]
  rfl

theorem roundRest_wp (h : M.WF) {s t : LevelSet.St} (hs : InvB M.graph s)
    (hbe : (s.beg : Int) ≤ s.end_) (ht : ScanInv M.graph s (s.end_ + 1).toNat t)
    (hn : t.curLevel + 1 ≤ M.n) {b : Nat}
    (hb3 : ∀ v, s.beg ≤ v → v < b → v < M.n → s.inDegree.getD v 0 = 1)
    (hb4 : b < M.n → s.inDegree.getD b 0 ≠ 1) :
    wp (roundRest M s t b) (fun r => ∃ s', r = .next s' ∧ InvB M.graph s' ∧ s'.beg = b ∧
      s'.curLevel = s.curLevel + 1) := by
  unfold roundRest
  have key := round_next h.graph hs hbe ht hn hb3 hb4
  simp only [wp_bind]
  refine wp_mono key fun e he => wp_mono he fun lo hlo => wp_mono hlo fun hi hhi => ?_
  rw [removeEdges_eq h]
  refine wp_mono hhi ?_
  rintro deg ⟨h1, h2⟩
  rw [wp_ok]
  exact ⟨_, rfl, h1, rfl, by dsimp only; omega⟩

theorem round_wp (h : M.WF) (ha : M.Acyclic) (debug : Bool) {slack : Nat → List Int}
    (hsl : ∀ k, ∃ x ∈ slack k, x ≠ 1) {s : LevelSet.St} (hs : InvB M.graph s) :
    wp (round debug M slack s) (Ctl.post
      (fun s' => InvB M.graph s' ∧ M.n - s'.curLevel < M.n - s.curLevel)
      (fun s' => InvB M.graph s' ∧ ∀ v, v < M.n → v ∈ s'.levelSet.take s'.cnt)) := by
  by_cases hbe : (s.beg : Int) ≤ s.end_
  · obtain ⟨t, ht, hn, he⟩ := round_eq h ha debug slack hs hbe
    have hbn := (path_beg hs hbe).1
    have hl := hs.lenDeg
    rw [graph_n] at hl
    rw [he, wp_bind]
    refine wp_mono (advanceBegin_wp (by omega) (hsl _)) ?_
    rintro b ⟨h1, h2, h3⟩
    rw [hl] at h2 h3
    refine wp_mono (roundRest_wp h hs hbe ht hn h2 h3) ?_
    rintro r ⟨s', rfl, h4, -, h5⟩
    have := ht.eCur
    rw [Ctl.post_next]
    exact ⟨h4, by omega⟩
  · unfold round
    rw [if_neg hbe, wp_ok, Ctl.post_brk]
    exact ⟨hs, fun v hv => hs.outside v hv (by omega)⟩

theorem inDegrees_wp (h : M.WF) : wp (inDegrees M) (fun deg => deg.length = M.n ∧
    ∀ v, v < M.n → deg.getD v 0 = 1 + (M.graph.remIn [] v : Int)) := by
  rw [inDegrees_eq h]
  exact Lbc.inDegrees_wp h.graph h.oneDiag

theorem buildLevelSet_wp (h : M.WF) (ha : M.Acyclic) (debug : Bool) {slack : Nat → List Int}
    (hsl : ∀ k, ∃ x ∈ slack k, x ≠ 1) :
    wp (buildLevelSet debug M slack) (fun r => ∃ ntl, LevelOk M.graph r.1 r.2.1 r.2.2 ntl) := by
  unfold buildLevelSet
  rw [wp_bind]
  refine wp_mono (inDegrees_wp h) ?_
  rintro deg ⟨hl, hv⟩
  rw [wp_bind]
  refine wp_mono (loopF_wp (InvB M.graph) (fun s => M.n - s.curLevel)
    (Q := fun s' => InvB M.graph s' ∧ ∀ v, v < M.n → v ∈ s'.levelSet.take s'.cnt) ?_ _ _ ?_ ?_) ?_
  · intro s hs
    exact round_wp h ha debug hsl hs
  · dsimp only; omega
  · exact invB_start (g := M.graph) hl hv
  · rintro s ⟨h1, h2⟩
    rw [wp_ok]
    refine ⟨_, levelOk_of_invB h.graph h1 ?_ h2⟩
    rcases Nat.eq_zero_or_pos s.curLevel with h0 | h0
    · rw [h0]; exact Nat.zero_le _
    · obtain ⟨v, hv⟩ := h1.prev h0
      have := hv.lt_n h.graph (h.acyclic ha)
      omega

/-- Without memory behind the array the function always reads behind it. -/
theorem buildLevelSet_ub (h : M.WF) (ha : M.Acyclic) (h0 : 0 < M.n) (debug : Bool) :
    buildLevelSet debug M (fun _ => []) = ub := by
  unfold buildLevelSet
  obtain ⟨deg, he, hl, hv⟩ := wp_iff.1 (inDegrees_wp h)
  rw [he, ok_bind]
  have key : ∀ fuel (s : LevelSet.St), InvB M.graph s → (s.beg : Int) ≤ s.end_ → M.n - s.curLevel < fuel →
      loopF fuel (round debug M fun _ => []) s = ub := by
    intro fuel
    induction fuel with
    | zero => intro s _ _ hf; omega
    | succ fuel ih =>
      intro s hs hbe hf
      obtain ⟨t, ht, hn, he⟩ := round_eq h ha debug (fun _ => []) hs hbe
      have hbn := (path_beg hs hbe).1
      have hl := hs.lenDeg
      rw [graph_n] at hl
      have hcur := ht.eCur
      unfold loopF
      rw [he]
      rcases advanceBegin_strict (deg := s.inDegree) (b0 := s.beg) (by omega) with ⟨h1, -⟩ | ⟨b, h1, h2, h3, h4, h5⟩
      · rw [h1]; rfl
      · rw [h1, ok_bind]
        obtain ⟨r, h6, s', rfl, h7, h8, h9⟩ := wp_iff.1
          (roundRest_wp h hs hbe ht hn (fun v hv1 hv2 _ => h4 v hv1 hv2) (fun _ => h5))
        rw [h6, ok_bind]
        refine ih s' h7 ?_ (by omega)
        by_contra hc
        exact h7.begOut (by rw [graph_n, h8]; omega) (h7.outside _ (by rw [graph_n, h8]; omega) (.inr (by omega)))
  have hk := key (M.n + 2) _ (invB_start (g := M.graph) hl hv)
    (by dsimp only; rw [graph_n]; omega) (by dsimp only; omega)
  rw [graph_n] at hk
  rw [hk]
  rfl

end Verif.Blocked
