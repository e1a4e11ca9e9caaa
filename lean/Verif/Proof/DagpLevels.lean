import Verif.Model.Dagp
import Verif.Proof.LevelSetOk

/-! # The level set of the graph of the parts

`build_levelSet_CSC_pgraph` does the same as `build_levelSet_CSC` with all degrees one smaller. -/

namespace Verif.Dagp
open Res Csc

variable {g : Csc}

/-- All degrees one larger. -/
def ups (l : List Int) : List Int := l.map (· + 1)

theorem ups_length (l : List Int) : (ups l).length = l.length := by simp [ups]

theorem rd_ups (l : List Int) (i : Nat) : rd (ups l) i = rd l i >>= fun d => ok (d + 1) := by
  unfold rd ups
  rw [List.getElem?_map]
  cases l[i]? <;> rfl

theorem rdZ_ups (l : List Int) (i : Int) : rdZ (ups l) i = rdZ l i >>= fun d => ok (d + 1) := by
  unfold rdZ
  split
  · rfl
  · exact rd_ups l _

theorem wr_ups (l : List Int) (i : Nat) (v : Int) : wr (ups l) i (v + 1) = wr l i v >>= fun r => ok (ups r) := by
  unfold wr ups
  by_cases h : i < l.length
  · rw [if_pos (by simpa using h), if_pos h, ok_bind, List.map_set]
  · rw [if_neg (by simpa using h), if_neg h]
    rfl

theorem ups_getD {l : List Int} {i : Nat} (h : i < l.length) : (ups l).getD i 0 = l.getD i 0 + 1 := by
  unfold ups
  rw [List.getD_eq_getElem?_getD, List.getD_eq_getElem?_getD, List.getElem?_map, List.getElem?_eq_getElem h]
  rfl

/-- A loop commutes with a translation of its state. -/
theorem forN_hom {σ τ : Type} (u : σ → τ) {f : Nat → τ → Res τ} {f' : Nat → σ → Res σ}
    (h : ∀ i s, f i (u s) = f' i s >>= fun r => ok (u r)) :
    ∀ (c lo : Nat) (s : σ), forN c lo f (u s) = forN c lo f' s >>= fun r => ok (u r) := by
  intro c
  induction c with
  | zero => intro lo s; rfl
  | succ c ih =>
    intro lo s
    simp only [forN]
    rw [h lo s]
    cases f' lo s with
    | ok r => simp only [ok_bind]; exact ih (lo + 1) r
    | ub => rfl
    | exn => rfl
    | nofuel => rfl

theorem advanceBegin_ups (n : Nat) (deg : List Int) (b : Nat) :
    LevelSet.advanceBegin n (ups deg) b = advanceBegin n deg b := by
  unfold LevelSet.advanceBegin advanceBegin
  congr 1
  funext b
  rw [rd_ups]
  cases rd deg b with
  | ok d =>
    simp only [ok_bind, pure_eq]
    by_cases h : d = 0
    · rw [if_pos (by omega), if_pos h]
    · rw [if_neg (by omega), if_neg h]
  | ub => rfl
  | exn => rfl
  | nofuel => rfl

theorem retreatEnd_ups (n : Nat) (deg : List Int) (b : Nat) (e : Int) :
    LevelSet.retreatEnd n (ups deg) b e = retreatEnd n deg b e := by
  unfold LevelSet.retreatEnd retreatEnd
  congr 1
  funext e
  rw [rdZ_ups]
  cases rdZ deg e with
  | ok d =>
    simp only [ok_bind, pure_eq]
    by_cases h : d = 0 ∧ (b : Int) ≤ e
    · rw [if_pos ⟨by omega, h.2⟩, if_pos h]
    · rw [if_neg (by intro hc; exact h ⟨by omega, hc.2⟩), if_neg h]
  | ub => rfl
  | exn => rfl
  | nofuel => rfl

theorem removeEdges_ups (Lp Li ls : List Nat) (lo hi : Nat) (deg : List Int) :
    LevelSet.removeEdges Lp Li ls lo hi (ups deg) = removeEdges Lp Li ls lo hi deg >>= fun r => ok (ups r) := by
  unfold LevelSet.removeEdges removeEdges forRange
  refine forN_hom ups ?_ _ _ _
  intro l deg
  cases rd ls l with
  | ok cc =>
    simp only [ok_bind]
    cases rd Lp cc with
    | ok a =>
      simp only [ok_bind]
      cases rd Lp (cc + 1) with
      | ok b =>
        simp only [ok_bind]
        refine forN_hom ups ?_ _ _ _
        intro j deg
        cases rd Li j with
        | ok v =>
          simp only [ok_bind]
          by_cases hv : v ≠ cc
          · rw [if_pos hv, if_pos hv, rd_ups]
            cases rd deg v with
            | ok d =>
              simp only [ok_bind]
              rw [show d + 1 - 1 = (d - 1) + 1 by ring, wr_ups]
            | ub => rfl
            | exn => rfl
            | nofuel => rfl
          · rw [if_neg hv, if_neg hv]
            rfl
        | ub => rfl
        | exn => rfl
        | nofuel => rfl
      | ub => rfl
      | exn => rfl
      | nofuel => rfl
    | ub => rfl
    | exn => rfl
    | nofuel => rfl
  | ub => rfl
  | exn => rfl
  | nofuel => rfl

/-- The state of `build_levelSet_CSC` that corresponds to a state. -/
def up (s : PSt) (ntl : List Nat) : LevelSet.St where
  inDegree := ups s.inDegree
  visited := s.visited
  levelSet := s.levelSet
  nodeToLevel := ntl
  levelPtr := s.levelPtr
  cnt := s.cnt
  curLevel := s.curLevel
  beg := s.beg
  end_ := s.end_

theorem bind_wp {α β : Type} {x : Res α} {f : α → Res β} {Q : β → Prop} (h : wp (x >>= f) Q) :
    ∃ a, x = ok a ∧ wp (f a) Q := by
  rw [wp_bind] at h
  exact wp_iff.1 h

theorem scanStep_up {i : Nat} {s : PSt} {ntl : List Nat} {Q : LevelSet.St → Prop}
    (h : wp (LevelSet.scanStep i (up s ntl)) Q) : wp (scanStep i s) (fun s' => ∃ ntl', Q (up s' ntl')) := by
  unfold LevelSet.scanStep at h
  unfold scanStep
  rw [show (up s ntl).inDegree = ups s.inDegree from rfl, rd_ups] at h
  obtain ⟨d', hd', h⟩ := bind_wp h
  cases hd : rd s.inDegree i with
  | ok d =>
    rw [hd] at hd'
    obtain rfl : d + 1 = d' := Res.ok.inj hd'
    rw [ok_bind]
    by_cases h0 : d = 0
    · rw [if_pos (by omega)] at h
      rw [if_pos h0]
      obtain ⟨vis, hv, h⟩ := bind_wp h
      rw [show (up s ntl).visited = s.visited from rfl] at hv
      rw [hv, ok_bind]
      by_cases hvis : vis = true
      · rw [if_pos hvis] at h
        rw [if_pos hvis]
        exact ⟨ntl, h⟩
      · rw [if_neg hvis] at h
        rw [if_neg hvis]
        obtain ⟨v2, e2, h⟩ := bind_wp h
        obtain ⟨l2, e3, h⟩ := bind_wp h
        obtain ⟨n2, e4, h⟩ := bind_wp h
        rw [show (up s ntl).visited = s.visited from rfl] at e2
        rw [show (up s ntl).levelSet = s.levelSet from rfl, show (up s ntl).cnt = s.cnt from rfl] at e3
        rw [e2, ok_bind, e3, ok_bind]
        exact ⟨n2, h⟩
    · rw [if_neg (by omega)] at h
      rw [if_neg h0]
      exact ⟨ntl, h⟩
  | ub => rw [hd] at hd'; cases hd'
  | exn => rw [hd] at hd'; cases hd'
  | nofuel => rw [hd] at hd'; cases hd'

theorem scan_up {Q : LevelSet.St → Prop} : ∀ (c lo : Nat) (s : PSt) (ntl : List Nat),
    wp (forN c lo LevelSet.scanStep (up s ntl)) Q →
      wp (forN c lo scanStep s) (fun s' => ∃ ntl', Q (up s' ntl')) := by
  intro c
  induction c with
  | zero => intro lo s ntl h; exact ⟨ntl, h⟩
  | succ c ih =>
    intro lo s ntl h
    simp only [forN, wp_bind] at h ⊢
    refine wp_mono (scanStep_up h) ?_
    rintro s' ⟨ntl', h'⟩
    exact ih _ _ _ h'

/-- Loop-head invariant. -/
def PInv (g : Csc) (s : PSt) : Prop := ∃ ntl, LevelSet.InvB g (up s ntl) ∧ s.curLevel ≤ g.n

/-- Result of the loop. -/
def PPost (g : Csc) (r : Int × PSt) : Prop :=
  (r.1 = r.2.curLevel ∧ r.2.curLevel ≤ g.n ∧ r.2.levelPtr.length = g.n + 1 ∧
    ∃ ntl, LevelSet.LevelOk g r.2.curLevel r.2.levelPtr r.2.levelSet ntl) ∨
  (r.1 = -1 ∧ ∃ v, g.PathTo g.n v)

theorem round_wp (h : g.WF) {s : PSt} (hs : PInv g s) :
    wp (round g.n g.p g.i s) (Ctl.post
      (fun s' => PInv g s' ∧ g.n + 1 - s'.curLevel < g.n + 1 - s.curLevel) (PPost g)) := by
  obtain ⟨ntl, hs, hcl⟩ := hs
  unfold round
  by_cases hbe : (s.beg : Int) ≤ s.end_
  · rw [if_pos hbe]
    have hend : s.end_ < g.n := hs.endLt
    have hbn : s.beg < g.n := by omega
    have hnotdone : s.beg ∉ s.levelSet.take s.cnt := hs.begOut hbn
    have hpathBeg : g.PathTo s.curLevel s.beg := by
      by_contra hc
      exact hnotdone ((hs.memDone _).2 ⟨hbn, hc⟩)
    have hscan : wp (forRange s.beg (s.end_ + 1).toNat LevelSet.scanStep (up s ntl))
        (LevelSet.ScanInv g (up s ntl) (s.end_ + 1).toNat) := by
      refine forRange_wp (LevelSet.ScanInv g (up s ntl)) (by omega) ?_ ?_
      · exact { eDeg := rfl, ePtr := rfl, eBeg := rfl, eEnd := rfl, eCur := rfl
                lenVis := hs.lenVis, lenSet := hs.lenSet, lenLvl := hs.lenLvl
                cntLe := hs.cntLe, cntGe := le_refl _, old := rfl, nodup := hs.nodup
                mem := fun v => ⟨.inl, fun hc => by
                  rcases hc with hc | ⟨a, b, _, _⟩
                  · exact hc
                  · have : s.beg ≤ v := a
                    omega⟩
                vis := hs.vis, ntlOld := fun _ _ => rfl, ntlNew := fun v h1 h2 => absurd h1 h2 }
      · intro i s' h1 h2 h3
        exact LevelSet.scanStep_spec hs h1 (by omega) h3
    rw [wp_bind]
    refine wp_mono (scan_up _ _ _ _ hscan) ?_
    rintro t ⟨ntl', ht⟩
    have eDeg : t.inDegree = s.inDegree := by
      have h1 : ups t.inDegree = ups s.inDegree := ht.eDeg
      exact (List.map_injective_iff.2 (fun a b hab => by simpa using hab)) h1
    have ePtr : t.levelPtr = s.levelPtr := ht.ePtr
    have eBeg : t.beg = s.beg := ht.eBeg
    have eEnd : t.end_ = s.end_ := ht.eEnd
    have eCur : t.curLevel = s.curLevel := ht.eCur
    dsimp only
    have hlp : s.levelPtr.length = g.n + 1 := hs.lenPtr
    by_cases hn : t.curLevel + 1 > g.n
    · rw [if_pos hn, wp_ok]
      refine .inr ⟨rfl, s.beg, ?_⟩
      rw [show g.n = s.curLevel by omega]
      exact hpathBeg
    · rw [if_neg hn, wr_eq (by rw [ePtr, hlp]; omega), ok_bind, wp_bind, eDeg, eBeg, eEnd]
      have hdl : (ups s.inDegree).length = g.n := hs.lenDeg
      rw [← advanceBegin_ups]
      refine wp_mono (LevelSet.advanceBegin_spec hdl hbn) ?_
      rintro b ⟨hb1, hb2, hb3, hb4⟩
      have key := LevelSet.round_next h hs hbe ht (by show t.curLevel + 1 ≤ g.n; omega)
        (fun v h1 h2 _ => hb3 v h1 h2) hb4
      rw [wp_bind]
      rw [show (up s ntl).inDegree = ups s.inDegree from rfl] at key
      rw [retreatEnd_ups] at key
      refine wp_mono key ?_
      intro e he
      rw [wp_bind]
      refine wp_mono he fun lo hlo => ?_
      rw [wp_bind]
      refine wp_mono hlo fun hi hhi => ?_
      rw [wp_bind]
      rw [show (up t ntl').levelSet = t.levelSet from rfl, removeEdges_ups, wp_bind] at hhi
      refine wp_mono hhi ?_
      intro deg hdeg
      rw [wp_ok] at hdeg
      rw [wp_ok]
      exact ⟨⟨ntl', hdeg.1, by show t.curLevel + 1 ≤ g.n; omega⟩, by dsimp only; omega⟩
  · rw [if_neg hbe, wp_ok]
    refine .inl ⟨rfl, hcl, hs.lenPtr, ntl, ?_⟩
    refine LevelSet.levelOk_of_invB h hs hcl fun v hv => hs.outside v hv ?_
    show v < s.beg ∨ s.end_ < (v : Int)
    omega

/-- One column of the count of in-degrees. -/
theorem countCol_wp (h : g.WF) {cc : Nat} {deg : List Int} (hcc : cc < g.n) (hl : deg.length = g.n) :
    wp (forRange (g.ptr cc) (g.ptr (cc + 1)) (fun j deg => do
      let cn ← rd g.i j
      if cn ≠ cc then do
        let d ← rd deg cn
        wr deg cn (d + 1)
      else ok deg) deg) (fun deg' => deg'.length = g.n ∧
        ∀ v, v < g.n → deg'.getD v 0 = deg.getD v 0 + (if v = cc then 0 else ((g.col cc).count v : Int))) := by
  have hm := h.mono cc hcc
  have hle := h.ptr_le (a := cc + 1) (by omega)
  unfold forRange
  rw [forRange_rd g.i (fun v deg => if v ≠ cc then do
        let d ← rd deg v
        wr deg v (d + 1)
      else ok deg) _ _ _ (by omega)]
  change wp (forEach (g.col cc) _ deg) _
  refine wp_mono (forEach_wp (fun (pre : List Nat) (deg' : List Int) => deg'.length = g.n ∧
    ∀ v, v < g.n → deg'.getD v 0 = deg.getD v 0 + (if v = cc then 0 else (pre.count v : Int)))
    (g.col cc) [] deg ⟨hl, by intro v hv; simp⟩ ?_) (fun _ hq => by simpa using hq)
  rintro p a q deg' heq ⟨h1, h2⟩
  have ha : a < g.n := by
    apply h.range cc hcc a
    simp only [List.nil_append] at heq
    rw [heq]; simp
  by_cases hac : a = cc
  · subst hac
    simp only [ne_eq, not_true_eq_false, if_false, wp_ok]
    refine ⟨h1, fun v hv => ?_⟩
    rw [h2 v hv]
    by_cases hvc : v = a
    · simp [hvc]
    · have : a ≠ v := fun h => hvc h.symm
      simp [hvc, List.count_append, this]
  · simp only [ne_eq, hac, not_false_eq_true, if_true, rd_getD 0 (by omega : a < deg'.length),
      ok_bind, wr_eq (by omega : a < deg'.length), wp_ok]
    refine ⟨by simpa using h1, fun v hv => ?_⟩
    rw [getD_set]
    by_cases hva : a = v
    · subst hva
      rw [if_pos ⟨rfl, by omega⟩, h2 a hv]
      simp [hac, List.count_append]
      ring
    · rw [if_neg (by tauto), h2 v hv]
      simp [List.count_append, hva]

theorem countOff_wp (h : g.WF) : wp (countOff g.n g.p g.i) (fun deg =>
    deg.length = g.n ∧ ∀ v, v < g.n → deg.getD v 0 = (g.remIn [] v : Int)) := by
  unfold countOff
  refine forRange_wp' (fun c (deg : List Int) => deg.length = g.n ∧ ∀ v, v < g.n → deg.getD v 0 =
    ((∑ u ∈ Finset.range c, if u = v then 0 else (g.col u).count v : Nat) : Int)) (Nat.zero_le _) ?_ ?_ ?_
  · exact ⟨by simp, fun v hv => by rw [getD_replicate _ _ _ _ hv]; simp⟩
  · rintro c deg - hc ⟨h1, h2⟩
    rw [h.rd_p (by omega), ok_bind, h.rd_p (by omega), ok_bind]
    refine wp_mono (countCol_wp h hc h1) ?_
    rintro deg' ⟨k1, k2⟩
    refine ⟨k1, fun v hv => ?_⟩
    rw [k2 v hv, h2 v hv, Finset.sum_range_succ]
    by_cases e : v = c
    · subst e; simp
    · rw [if_neg e, if_neg (fun h => e h.symm)]
      push_cast; ring
  · rintro deg ⟨h1, h2⟩
    refine ⟨h1, fun v hv => ?_⟩
    rw [h2 v hv]
    unfold remIn
    simp only [List.not_mem_nil, false_or]

/-- The level set: a correct one for a graph without cycles, `-1` for the others. -/
theorem buildLevelSet_wp (h : g.WF) : wp (buildLevelSet g.n g.p g.i) (fun r =>
    (∃ L : Nat, ∃ ntl, r.1 = L ∧ r.2.1.length = g.n + 1 ∧ LevelSet.LevelOk g L r.2.1 r.2.2 ntl) ∨
    (r.1 = -1 ∧ ∃ v, g.PathTo g.n v)) := by
  unfold buildLevelSet
  rw [wp_bind]
  refine wp_mono (countOff_wp h) ?_
  rintro deg ⟨hl, hv⟩
  rw [wp_bind]
  refine wp_mono (loopF_wp (PInv g) (fun s => g.n + 1 - s.curLevel) (Q := PPost g) ?_ _ _ ?_ ?_) ?_
  · intro s hs
    exact round_wp h hs
  · dsimp only; omega
  · refine ⟨List.replicate g.n 0, ?_, Nat.zero_le _⟩
    refine LevelSet.invB_start (by rw [ups_length, hl]) ?_
    intro v hvn
    rw [ups_getD (by dsimp only; omega)]
    dsimp only
    rw [hv v hvn]
    ring
  · rintro ⟨r, s⟩ hr
    rw [wp_ok]
    rcases hr with ⟨h1, -, h2, ntl, h3⟩ | ⟨h1, h2⟩
    · exact .inl ⟨_, ntl, h1, h2, h3⟩
    · exact .inr ⟨h1, h2⟩

end Verif.Dagp
