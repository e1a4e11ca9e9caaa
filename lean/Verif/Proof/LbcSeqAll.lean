import Verif.Proof.LbcComps

/-! # The sequential LBC inspector: all windows -/

namespace Verif.Lbc
open Res Csc LevelSet Hdagg

variable {g : Csc} {L cnt : Nat}

section
variable {K : Type}

/-! ### Emission -/

theorem emitSeq_loop {n : Nat} {nodeCost : List K} {merged : List (List Nat)}
    (hm : ∀ x ∈ merged.flatten, x < n) : ∀ (c a : Nat) (e e' : Emit) (lab : List Int), lab.length = n →
    forN c a (fun i e => do
      let part ← rd merged i
      emitPart nodeCost part e) e = ok e' →
    ∃ lab', forN c a (fun i s => do
      let part ← rd merged i
      emitPartSeq nodeCost part s) (e, lab) = ok (e', lab') ∧ lab'.length = n := by
  intro c
  induction c with
  | zero =>
    intro a e e' lab hl h
    simp only [forN, ok.injEq] at h ⊢
    subst h
    exact ⟨lab, rfl, hl⟩
  | succ c ih =>
    intro a e e' lab hl h
    simp only [forN] at h ⊢
    rcases Nat.lt_or_ge a merged.length with ha | ha
    · rw [rd_getD [] ha, ok_bind] at h ⊢
      cases h1 : emitPart nodeCost (merged.getD a []) e with
      | ok e1 =>
        rw [h1, ok_bind] at h
        unfold emitPartSeq
        dsimp only
        rw [h1, ok_bind]
        have key := forEach_wp (fun _ (l : List Int) => l.length = n)
          (f := fun x lab => wr lab x (e.cur : Int)) (merged.getD a []) [] lab hl ?_
        · obtain ⟨lab1, h2, h3⟩ := wp_iff.1 key
          rw [h2, ok_bind, ok_bind]
          exact ih (a + 1) e1 e' lab1 h3 h
        · intro p x q l he hl'
          rw [List.nil_append] at he
          have hx : x < n := hm x (List.mem_flatten.2 ⟨_, List.mem_of_getElem? (getElem?_getD [] ha),
            by rw [he]; simp⟩)
          rw [wr_eq (by omega), wp_ok]
          simpa using hl'
      | ub => rw [h1] at h; cases h
      | exn => rw [h1] at h; cases h
      | nofuel => rw [h1] at h; cases h
    · have : rd merged a = Res.ub := by simp [rd, List.getElem?_eq_none ha]
      rw [this] at h
      cases h

theorem emitWindowSeq_wp {n l outParts : Nat} {nodeCost : List K} {merged : List (List Nat)} {e : Emit}
    (hm : ∀ x ∈ merged.flatten, x < n) {lab : List Int} (hl : lab.length = n) {Q : Emit → Prop}
    (h : wp (emitWindow nodeCost l outParts merged e) Q) :
    wp (emitWindowSeq nodeCost l outParts merged e lab) (fun r => Q r.1 ∧ r.2.length = n) := by
  obtain ⟨e', h1, h2⟩ := wp_iff.1 h
  unfold emitWindow at h1
  unfold emitWindowSeq
  cases h3 : rd e.levelPtr l with
  | ok a =>
    rw [h3, ok_bind] at h1
    rw [ok_bind]
    cases h4 : wr e.levelPtr (l + 1) (a + outParts) with
    | ok lp =>
      rw [h4, ok_bind] at h1
      rw [ok_bind]
      obtain ⟨lab', h5, h6⟩ := emitSeq_loop hm _ _ _ _ lab hl h1
      unfold forRange
      rw [h5, wp_ok]
      exact ⟨h2, h6⟩
    | ub => rw [h4] at h1; cases h1
    | exn => rw [h4] at h1; cases h1
    | nofuel => rw [h4] at h1; cases h1
  | ub => rw [h3] at h1; cases h1
  | exn => rw [h3] at h1; cases h1
  | nofuel => rw [h3] at h1; cases h1

/-! ### The degrees -/

theorem inDegrees_wp (hwf : g.WF) (hd1 : g.OneDiag) :
    wp (inDegrees g.n g.p g.i) (fun deg => deg.length = g.n ∧
      ∀ x, x < g.n → deg.getD x 0 = 1 + (g.remIn [] x : Int)) := by
  unfold inDegrees
  refine forRange_wp' (fun k (deg : List Int) => deg.length = g.n ∧
    ∀ x, x < g.n → deg.getD x 0 = (entries g (List.range k) x : Int)) (Nat.zero_le _) ?_ ?_ ?_
  · refine ⟨by simp, fun x hx => ?_⟩
    rw [getD_replicate _ _ _ _ hx]
    simp [entries]
  · rintro k deg _ hk ⟨h1, h2⟩
    refine wp_mono (countCol_wp hwf hk h1) ?_
    rintro deg' ⟨h3, h4⟩
    refine ⟨h3, fun x hx => ?_⟩
    rw [h4 x hx, h2 x hx, List.range_succ]
    simp [entries]
  · rintro deg ⟨h1, h2⟩
    refine ⟨h1, fun x hx => ?_⟩
    have e := entries_rem hd1 hx (List.range g.n) [] (fun u hu => ⟨List.mem_range.1 hu, by simp⟩)
      List.nodup_range
    have e0 : g.remIn ([] ++ List.range g.n) x = 0 := by
      rw [remIn_eq_zero]
      intro u hu
      simpa using (hwf.dep_lt hu).1
    rw [e0, if_pos (List.mem_range.2 hx)] at e
    rw [h2 x hx]
    omega

/-! ### One window -/

/-- The arrays before window `l`. -/
structure SInv (g : Csc) (L : Nat) (V : Wins) (l : Nat) (s : SeqSt K) : Prop where
  mLen : s.marked.length = g.n
  vLen : s.visited.length = g.n
  labLen : s.lab.length = g.n
  oLen : s.outCost.length = g.n
  nLen : s.newOutCost.length = g.n
  dLen : s.deg.length = g.n
  xiLen : s.xi.length = g.n
  psLen : s.ps.length = g.n
  mark : ∀ x, x < g.n → V.lo l ≤ V.node2Level.getD x 0 → s.marked.getD x 0 = 0
  vis : ∀ x, x < g.n → V.lo l ≤ V.node2Level.getD x 0 → s.visited.getD x true = false
  deg : ∀ x, x < g.n → x ∉ win V.levelPtr V.levelSet 0 (min (V.lo l) L) →
    s.deg.getD x 0 = 1 + (g.remIn (win V.levelPtr V.levelSet 0 (min (V.lo l) L)) x : Int)

/-- Marking pairs of arrays. -/
theorem markPairs_wp {ptr set ntl : List Nat} (h : LevelOk g L ptr set ntl) {lo hi : Nat} (hhi : hi ≤ L)
    {m : List Int} {v : List Bool} (hm : m.length = g.n) (hv : v.length = g.n) :
    wp (overLevels ptr set lo hi (fun x (mv : List Int × List Bool) => do
        let m ← wr mv.1 x (0 : Int)
        let v ← wr mv.2 x true
        ok (m, v)) (m, v)) (fun r => r.1.length = g.n ∧ r.2.length = g.n ∧
      (∀ x, x < g.n → r.1.getD x 0 = if lo ≤ ntl.getD x 0 ∧ ntl.getD x 0 < hi then 0 else m.getD x 0) ∧
      ∀ x, x < g.n → r.2.getD x true =
        if lo ≤ ntl.getD x 0 ∧ ntl.getD x 0 < hi then true else v.getD x true) := by
  rcases Nat.lt_or_ge hi lo with h1 | h1
  · rw [overLevels_empty (by omega), wp_ok]
    refine ⟨hm, hv, fun x _ => ?_, fun x _ => ?_⟩ <;> rw [if_neg (by omega)]
  · rw [overLevels_eq h _ _ hi h1 hhi]
    have key := forEach_wp (fun p (r : List Int × List Bool) => r.1.length = g.n ∧ r.2.length = g.n ∧
      (∀ x, r.1.getD x 0 = if x ∈ p then 0 else m.getD x 0) ∧
      ∀ x, r.2.getD x true = if x ∈ p then true else v.getD x true)
      (f := fun x (mv : List Int × List Bool) => do
        let m ← wr mv.1 x (0 : Int)
        let v ← wr mv.2 x true
        ok (m, v)) (win ptr set lo hi) [] (m, v) ⟨hm, hv, by simp, by simp⟩ ?_
    · refine wp_mono key ?_
      rintro ⟨m', v'⟩ ⟨k1, k2, k3, k4⟩
      rw [List.nil_append] at k3 k4
      refine ⟨k1, k2, fun x hx => ?_, fun x hx => ?_⟩
      · rw [k3 x]; simp only [LevelOk.mem_win h h1 hhi, hx, true_and]
      · rw [k4 x]; simp only [LevelOk.mem_win h h1 hhi, hx, true_and]
    · rintro p a q ⟨m', v'⟩ he ⟨k1, k2, k3, k4⟩
      rw [List.nil_append] at he
      dsimp only at k1 k2 k3 k4 ⊢
      have ha : a < g.n := win_lt h (a := lo) (b := hi) (by rw [he]; simp)
      rw [wr_eq (by omega), ok_bind, wr_eq (by omega), ok_bind, wp_ok]
      refine ⟨by simpa using k1, by simpa using k2, fun x => ?_, fun x => ?_⟩
      · dsimp only
        rw [getD_set]
        by_cases hxa : x = a
        · subst hxa
          rw [if_pos ⟨rfl, by omega⟩, if_pos (by simp)]
        · rw [if_neg (by omega), k3 x]
          simp only [List.mem_append, List.mem_singleton, hxa, or_false]
      · dsimp only
        rw [getD_set]
        by_cases hxa : x = a
        · subst hxa
          rw [if_pos ⟨rfl, by omega⟩, if_pos (by simp)]
        · rw [if_neg (by omega), k4 x]
          simp only [List.mem_append, List.mem_singleton, hxa, or_false]

variable [Add K] [LT K] [DecidableLT K]

theorem processSeq_wp (hwf : g.WF) (hd1 : g.OneDiag) {V : Wins} (h : WinsCore g L cnt V) {P : Params K}
    (hin : P.innerParts ≠ 0) (hsort : ∀ l, (P.sort l).Perm l) (hn : g.n ≤ intMax) {nodeCost : List K}
    (hcost : nodeCost.length = g.n) {l : Nat} (hl : l < cnt) {s : SeqSt K} (hs : SInv g L V l s) {p : Nat}
    (hE : EmInv g L V l p s.emit)
    (hp : ∀ m, m ≤ (V.leaves l).length → m ≤ V.sizes.getD l 0 → p + m < g.n) :
    wp (processSeq P g.n g.p g.i V nodeCost l s) (fun s' => SInv g L V (l + 1) s' ∧
      ∃ m, m ≤ (V.leaves l).length ∧ m ≤ V.sizes.getD l 0 ∧ EmInv g L V (l + 1) (p + m) s'.emit) := by
  obtain ⟨h1, h2, h3⟩ := h.lo_spec hl
  have hO := h.lvl
  have hmem := h.mem_nodes hl
  unfold processSeq
  rw [bounds_eq h hl, ok_bind]
  dsimp only
  rw [wp_bind]
  refine wp_mono (markLower_wp hO (1 : Int) 0 (by omega) hs.mLen) ?_
  rintro m1 ⟨m1l, m1g⟩
  rw [wp_bind, h.height]
  refine wp_mono (markLevels_wp hO (1 : Int) 0 (Nat.le_refl L) m1l) ?_
  rintro m2 ⟨m2l, m2g⟩
  rw [wp_bind]
  have hleaves : (V.leaves l).length ≤ g.n := by
    unfold Wins.leaves
    rw [win_length hO (by omega)]
    have := hO.ptr_le (a := V.lo l + 1) (by omega)
    omega
  refine wp_mono (windowComps_wp hwf hO (d := V.lo l) (c := min (V.lo (l + 1)) L) (by omega) (by omega) hn
    hcost ?_) ?_
  · refine ⟨hs.labLen, m2l, hs.oLen, hs.xiLen, hs.psLen, rfl, by simp, by simp, ?_, ?_, by simp, by simp,
      Nat.le_refl _⟩
    · intro v hv
      have hv' := (hmem v).1 hv
      dsimp only
      rw [if_neg (by simp), m2g v hv'.1, if_neg (by omega), m1g v hv'.1, if_neg (by omega)]
      exact hs.mark v hv'.1 hv'.2.1
    · intro v hv hvW hvd
      have := hO.ntlLt v hv
      have hge : V.lo (l + 1) ≤ V.node2Level.getD v 0 := by
        by_contra hc
        exact hvW ((hmem v).2 ⟨hv, hvd, by omega⟩)
      dsimp only
      rw [m2g v hv, if_pos (by omega)]
  rintro C ⟨hwl, hcc, c3, c4, c5, c6⟩
  rw [wp_bind]
  refine wp_mono (markLower_wp hO (0 : Int) 0 (by omega) c3) ?_
  rintro m3 ⟨m3l, m3g⟩
  rw [wp_bind]
  refine wp_mono (markPairs_wp hO (Nat.le_refl L) m3l hs.vLen) ?_
  rintro ⟨m4, v4⟩ ⟨m4l, v4l, m4g, v4g⟩
  dsimp only at m4l v4l m4g v4g ⊢
  have hmin : min (V.lo l) L = V.lo l := by omega
  have hdeg := hs.deg
  rw [hmin] at hdeg
  have hSmem : ∀ v, v ∈ win V.levelPtr V.levelSet 0 (V.lo l) ↔ v < g.n ∧ V.node2Level.getD v 0 < V.lo l := by
    intro v
    rw [LevelOk.mem_win hO (by omega) (by omega)]
    constructor
    · rintro ⟨a, -, b⟩; exact ⟨a, b⟩
    · rintro ⟨a, b⟩; exact ⟨a, by omega, b⟩
  have happ : win V.levelPtr V.levelSet 0 (min (V.lo (l + 1)) L)
      = win V.levelPtr V.levelSet 0 (V.lo l) ++ V.nodes L l :=
    win_append hO (by omega) (by omega) (by omega)
  rw [wp_bind]
  refine wp_mono (bfs_window hwf hd1 hO (d := V.lo l) (c := min (V.lo (l + 1)) L)
    (by omega) (by omega) (S := win V.levelPtr V.levelSet 0 (V.lo l)) ?_ ?_ hwl hs.dLen hdeg v4l ?_ ?_
    P.debug) ?_
  · intro v hv hc
    have a := (hmem v).1 hv
    have b := (hSmem v).1 hc
    omega
  · intro u v hd _ hu
    exact (hSmem u).2 ⟨(hwf.dep_lt hd).1, hu⟩
  · intro v hv
    have hv' := (hmem v).1 hv
    rw [v4g v hv'.1, if_neg (by omega)]
    exact hs.vis v hv'.1 hv'.2.1
  · intro v hv hvc
    have := hO.ntlLt v hv
    rw [v4g v hv, if_pos (by omega)]
  rintro B ⟨b1, b2, b3, -, b5, b6⟩
  rw [wp_bind]
  refine wp_mono (markLevels_wp hO false true (Nat.le_refl L) b3) ?_
  rintro v5 ⟨v5l, v5g⟩
  rw [wp_bind]
  have hl' : l < V.sizes.length := by rw [h.slen]; exact hl
  have hcc' : C.cc ≤ (V.leaves l).length := hcc
  refine wp_mono (pack_wp (g := g) (n := g.n) (bp := true) hin hsort hl'
    (h.spos _ (List.mem_of_getElem? (getElem?_getD 0 hl'))) c4 hs.nLen (leaves := (V.leaves l).length)
    (by omega) hleaves b2) ?_
  rintro ⟨out, nc, merged⟩ ⟨r1, hG⟩
  dsimp only at r1 hG ⊢
  have hgl := hG.len
  have hgs := hG.size rfl
  have hgv := hG.leaves
  subst hgl
  rw [wp_bind]
  refine wp_mono (emitWindowSeq_wp (n := g.n) ?_ hwl.len (hE.step hwf h hcost hl hG.parts
    (hp _ hgv hgs))) ?_
  · intro x hx
    exact ((hmem x).1 (hG.parts.perm.mem_iff.1 hx)).1
  · rintro ⟨e, lab⟩ ⟨he, hlab⟩
    rw [wp_ok]
    refine ⟨⟨m4l, v5l, hlab, c4, r1, b5, c5, c6, ?_, ?_, ?_⟩, _, hgv, hgs, he⟩
    · intro x hx hlx
      have := hO.ntlLt x hx
      dsimp only
      rw [m4g x hx, if_pos (by omega)]
    · intro x hx hlx
      have := hO.ntlLt x hx
      dsimp only
      rw [v5g x hx, if_pos (by omega)]
    · intro x hx hxs
      rw [happ] at hxs ⊢
      rw [List.mem_append, not_or] at hxs
      exact b6 x hx hxs.1 hxs.2

theorem coarsenSeq_wp (hwf : g.WF) (hd1 : g.OneDiag)
    (h0 : 0 < g.n) (hpath : ∀ v, ¬ g.PathTo (g.n - 1) v) {P : Params K}
    (hin : P.innerParts ≠ 0) (hsort : ∀ l, (P.sort l).Perm l) (hn : g.n ≤ intMax)
    {minDist divRate : Int}
    (hpar : (1 ≤ divRate ∧ 1 ≤ minDist + divRate) ∨ (0 ≤ minDist ∧ ∀ v, ¬ g.PathTo minDist.toNat v))
    {nodeCost : List K} (hcost : nodeCost.length = g.n) (zero : K) {xi0 ps0 : List Nat}
    (hxi : xi0.length = g.n) (hps : ps0.length = g.n) :
    wp (coarsenSeq P g.n g.p g.i minDist divRate nodeCost zero xi0 ps0) (fun s =>
      s.Valid g.n g.Dep ∧ s.nodes.length = g.n) := by
  unfold coarsenSeq
  obtain ⟨⟨cnt, V⟩, hV, L, hW, threads, hH⟩ := wp_iff.1 (windows_wp hwf hd1 h0 hpath P hpar)
  dsimp only at hW hH
  rw [hV, ok_bind, wp_bind]
  refine wp_mono (inDegrees_wp hwf hd1) ?_
  rintro deg ⟨d1, d2⟩
  rw [wp_bind]
  have hlo0 : V.lo 0 = 0 := by unfold Wins.lo; rw [hW.cuts.first]; rfl
  refine wp_mono (forRange_wp' (fun k (s : SeqSt K) => SInv g L V k s ∧ ∃ out : List Nat, out.length = k ∧
      (∀ l, l < cnt → out.getD l 0 ≤ (V.leaves l).length) ∧
      (∀ l, l < cnt → out.getD l 0 ≤ V.sizes.getD l 0) ∧ EmInv g L V k (partsUpTo out k) s.emit)
    (Nat.zero_le cnt) ?_ ?_ (fun _ h => h)) ?_
  · refine ⟨⟨by simp, by simp, by simp, by simp, by simp, d1, hxi, hps, ?_, ?_, ?_⟩, [], rfl, by simp, by simp,
      EmInv.start hW.toWinsCore⟩
    · intro x hx _; exact getD_replicate _ _ _ _ hx
    · intro x hx _; exact getD_replicate _ _ _ _ hx
    · intro x hx _
      rw [hlo0, Nat.zero_min]
      have : win V.levelPtr V.levelSet 0 0 = [] := by simp [win, slice_self]
      rw [this]
      exact d2 x hx
  · rintro k s _ hk ⟨hs, out, o1, o2, o3, o4⟩
    have hget : ∀ (m l : Nat), (out ++ [m]).getD l 0 = if l = k then m else out.getD l 0 := by
      intro m l
      by_cases hlk : l = k
      · subst hlk
        rw [if_pos rfl, getD_append_right _ _ _ (by omega), o1, Nat.sub_self]
        rfl
      · rw [if_neg hlk]
        rcases Nat.lt_or_ge l k with h | h
        · rw [getD_append_left _ _ _ (by omega)]
        · simp only [List.getD_eq_getElem?_getD]
          rw [List.getElem?_eq_none (by simp; omega), List.getElem?_eq_none (by omega)]
    have hb1 : ∀ m, m ≤ (V.leaves k).length → ∀ l, l < cnt → (out ++ [m]).getD l 0 ≤ (V.leaves l).length := by
      intro m hm l hl
      rw [hget]
      split
      · rename_i h; rw [h]; exact hm
      · exact o2 l hl
    have hb2 : ∀ m, m ≤ V.sizes.getD k 0 → ∀ l, l < cnt → (out ++ [m]).getD l 0 ≤ V.sizes.getD l 0 := by
      intro m hm l hl
      rw [hget]
      split
      · rename_i h; rw [h]; exact hm
      · exact o3 l hl
    have hpk : ∀ m, partsUpTo (out ++ [m]) (k + 1) = partsUpTo out k + m := by
      intro m
      rw [partsUpTo_succ, hget, if_pos rfl]
      congr 1
      unfold partsUpTo
      congr 1
      apply List.map_congr_left
      intro l hl
      rw [hget, if_neg (by have := List.mem_range.1 hl; omega)]
    refine wp_mono (processSeq_wp hwf hd1 hW.toWinsCore hin hsort hn hcost hk hs o4 ?_) ?_
    · intro m hm1 hm2
      have h5 := parts_lt hW.toWinsCore (bp := true) (hb1 m hm1) (fun _ => hb2 m hm2) hH (.inl hW.lt) (.inl rfl)
      have h6 := partsUpTo_mono (out ++ [m]) (a := k + 1) (b := cnt) (by omega)
      rw [hpk] at h6
      omega
    · rintro s' ⟨hs', m, hm1, hm2, hm3⟩
      refine ⟨hs', out ++ [m], by simp [o1], hb1 m hm1, hb2 m hm2, ?_⟩
      rw [hpk]
      exact hm3
  · rintro s ⟨-, out, -, -, -, o4⟩
    obtain ⟨he1, he2⟩ := o4.final hW.toWinsCore
    rw [wp_bind]
    refine wp_mono (verifySet_wp P.debug he2 he1) ?_
    intro _ _
    have := hW.cuts.cnt_pos
    dsimp only
    rw [if_neg (by omega), wp_ok]
    exact ⟨he1, he2⟩

end
end Verif.Lbc
