import Verif.Model.LbcCsc
import Verif.Proof.LbcSeqAll
import Verif.Props.MultiLevels

/-! # `get_coarse_levelSet_DAG_CSC`: the windows -/

namespace Verif.Lbc
open Res Csc LevelSet Hdagg

variable {g : Csc} {L cnt : Nat}

/-- The levels of one copy of an acyclic graph. -/
theorem levelOk_of_multi (hwf : g.WF) (hd1 : g.OneDiag) (hdf : g.DiagFirst) (hac : g.Acyclic) :
    ∃ L ptr set ntl, MLevel.build g.n g.p g.i 1 = ok (L, ptr, set) ∧ LevelOk g L ptr set ntl := by
  obtain ⟨L, ptr, set, k, h1, h2, h3, h4, h5, h6, h7, h8, h9, h10⟩ :=
    C87_multi_levels hwf hd1 hdf (K := 1) (by omega)
  obtain ⟨L', ptr', set', e1, -, e3, -, e5, -⟩ :=
    C87_multi_levels_acyclic hwf hd1 hdf hac (K := 1) (by omega)
  rw [h1] at e1
  cases e1
  rw [Nat.one_mul] at *
  choose dep hdep using fun v : {v // v < g.n} => exists_depth hwf hac v.2
  let ntl : List Nat := (List.range g.n).map (fun v => if h : v < g.n then dep ⟨v, h⟩ else 0)
  have hget : ∀ v, v < g.n → g.IsDepth v (ntl.getD v 0) := by
    intro v hv
    have : ntl.getD v 0 = dep ⟨v, hv⟩ := by
      simp [ntl, List.getD_eq_getElem?_getD, hv]
    rw [this]
    exact hdep ⟨v, hv⟩
  have hlt : ∀ v, v < g.n → ntl.getD v 0 < L := by
    intro v hv
    have := h10 _ 0 v (by omega) (hget v hv)
    omega
  have hLn : ∀ l, l ≤ L → l ≤ ptr.getD l 0 := by
    intro l
    induction l with
    | zero => intro _; omega
    | succ l ih =>
      intro hl
      have := ih (by omega)
      have := h5 l (by omega)
      omega
  have hpL : ptr.getD L 0 = g.n := e3.dlast
  have hlev : ∀ l k, l < L → ptr.getD l 0 ≤ k → k < ptr.getD (l + 1) 0 →
      set.getD k 0 < g.n ∧ ntl.getD (set.getD k 0) 0 = l := by
    intro l k hl h11 h12
    have hkn : k < g.n := by
      have := e3.dle (b := l + 1) (by omega)
      omega
    have hg := getElem?_getD 0 (show k < set.length by omega)
    have hx : set.getD k 0 < g.n := List.mem_range.1 (e5.mem_iff.1 (List.mem_of_getElem? hg))
    obtain ⟨_, d, hd, rfl⟩ := (h8 l 0 (set.getD k 0) hl hx).1 ⟨k, (h4.inBlock_iff hl).2 ⟨h11, h12⟩, by
      rw [Nat.mul_zero, Nat.add_zero]; exact hg⟩
    refine ⟨hx, ?_⟩
    have e1 := (hget _ hx).2 _ hd.1
    have e2 := hd.2 _ (hget _ hx).1
    omega
  refine ⟨L, ptr, set, ntl, h1, by omega, h3, by simp [ntl], ?_, e3.d0, hpL, h5, e5, ?_, ?_, ?_, hlt, ?_, ?_⟩
  · have := hLn L (Nat.le_refl _)
    omega
  · intro v hv
    refine ⟨(hget v hv).1, fun hc => ?_⟩
    have := (hget v hv).2 _ hc
    omega
  · intro l k hl h11 h12
    exact (hlev l k hl h11 h12).2
  · intro v hv
    have := (hget v (hv.lt hwf)).2 _ hv
    have := hlt v (hv.lt hwf)
    omega
  · intro hn
    have hL0 : 0 < L := by have := hlt 0 hn; omega
    refine ⟨hL0, ?_⟩
    have := h5 (L - 1) (by omega)
    obtain ⟨a, b⟩ := hlev (L - 1) (ptr.getD (L - 1) 0) (by omega) (Nat.le_refl _) this
    exact ⟨_, b ▸ (hget _ a).1⟩
  · intro l hl
    rw [List.getD_eq_getElem?_getD, List.getElem?_eq_none (by omega)]
    rfl

theorem resetLower_wp {α : Type} {ptr set ntl : List Nat} (h : LevelOk g L ptr set ntl) (b : α) {dfs : Nat}
    (hd : dfs ≤ L) (hL : 0 < L) {v : List α} (hv : v.length = g.n) :
    wp (resetLower ptr set dfs (fun x v => wr v x b) v) (fun v' => v'.length = g.n) := by
  unfold resetLower
  have hpl := h.ptrLen
  rw [rd_getD 0 (by omega), ok_bind, rd_getD 0 (by omega), ok_bind,
    level_loop h (a := dfs - 1) (b := dfs - 1 + 1) (by omega) (by omega)]
  refine wp_mono (marks_wp b b _ v (fun x hx => by rw [hv]; exact win_lt h hx)) ?_
  rintro v' ⟨h2, -⟩
  omega

section
variable {K : Type}

theorem windowsCsc_wp (hwf : g.WF) (hd1 : g.OneDiag) (hdf : g.DiagFirst) (hac : g.Acyclic) (h0 : 0 < g.n)
    (P : Params K) {minDist divRate : Int}
    (hpar : (1 ≤ divRate ∧ 1 ≤ minDist + divRate) ∨ (0 ≤ minDist ∧ ∀ v, ¬ g.PathTo minDist.toNat v)) :
    wp (windowsCsc P g.n g.p g.i minDist divRate) (fun r => ∃ L, WinsCore g L r.1 r.2 ∧
      ∃ threads, HPost L r.2.levelPtr threads minDist r.1 r.2.bound r.2.sizes) := by
  unfold windowsCsc
  obtain ⟨L, ptr, set, ntl, ho, hO⟩ := levelOk_of_multi hwf hd1 hdf hac
  rw [ho, ok_bind]
  dsimp only
  rw [nodeLevels_eq hO, ok_bind, wp_bind]
  have hL0 : 0 < L := (hO.top h0).1
  refine wp_mono (heightPartition_wp P.debug P.innerParts hL0 hO.ptrLen
    (fun i hi => Nat.le_of_lt (hO.strict i hi)) ?_ hO.lN) ?_
  · rcases hpar with h | ⟨h1, h2⟩
    · exact .inr h
    · refine .inl ?_
      by_contra hc
      obtain ⟨v, hv⟩ := (hO.top h0).2
      exact h2 v (hv.le hwf (by omega))
  · intro r hr
    rw [wp_ok]
    exact ⟨L, ⟨hO, rfl, hr.cuts, hr.top, hr.slen, hr.spos⟩, _, hr⟩

variable [Add K] [LT K] [DecidableLT K]

theorem processCsc_wp (hwf : g.WF) (hd1 : g.OneDiag) {V : Wins} (h : WinsCore g L cnt V) {P : Params K}
    (hin : P.innerParts ≠ 0) (hsort : ∀ l, (P.sort l).Perm l) (hn : g.n ≤ intMax) {nodeCost : List K}
    (hcost : nodeCost.length = g.n) {l : Nat} (hl : l < cnt) {s : SeqSt K} (hs : SInv g L V l s) {p : Nat}
    (hE : EmInv g L V l p s.emit)
    (hp : ∀ m, m ≤ (V.leaves l).length → (P.binPack = true → m ≤ V.sizes.getD l 0) → p + m < g.n) :
    wp (processCsc P g.n g.p g.i V nodeCost l s) (fun s' => SInv g L V (l + 1) s' ∧
      ∃ m, m ≤ (V.leaves l).length ∧ (P.binPack = true → m ≤ V.sizes.getD l 0) ∧ EmInv g L V (l + 1) (p + m) s'.emit) := by
  obtain ⟨h1, h2, h3⟩ := h.lo_spec hl
  have hO := h.lvl
  have hmem := h.mem_nodes hl
  unfold processCsc
  rw [bounds_eq h hl, ok_bind]
  dsimp only
  rw [wp_bind]
  refine wp_mono (markLower_wp hO (1 : Int) 0 (by omega) hs.mLen) ?_
  rintro m1 ⟨m1l, m1g⟩
  rw [wp_bind, h.height]
  refine wp_mono (markLevels_wp hO (1 : Int) 0 (Nat.le_refl L) m1l) ?_
  rintro m2 ⟨m2l, m2g⟩
  rw [wp_bind]
  have hleaves : (V.leaves l).length ≤ g.n := by
    unfold Wins.leaves
    rw [win_length hO (by omega)]
    have := hO.ptr_le (a := V.lo l + 1) (by omega)
    omega
  refine wp_mono (windowComps_wp hwf hO (d := V.lo l) (c := min (V.lo (l + 1)) L) (by omega) (by omega) hn
    hcost ?_) ?_
  · refine ⟨hs.labLen, m2l, hs.oLen, hs.xiLen, hs.psLen, rfl, by simp, by simp, ?_, ?_, by simp, by simp,
      Nat.le_refl _⟩
    · intro v hv
      have hv' := (hmem v).1 hv
      dsimp only
      rw [if_neg (by simp), m2g v hv'.1, if_neg (by omega), m1g v hv'.1, if_neg (by omega)]
      exact hs.mark v hv'.1 hv'.2.1
    · intro v hv hvW hvd
      have := hO.ntlLt v hv
      have hge : V.lo (l + 1) ≤ V.node2Level.getD v 0 := by
        by_contra hc
        exact hvW ((hmem v).2 ⟨hv, hvd, by omega⟩)
      dsimp only
      rw [m2g v hv, if_pos (by omega)]
  rintro C ⟨hwl, hcc, c3, c4, c5, c6⟩
  rw [wp_bind]
  refine wp_mono (resetLower_wp hO (0 : Int) (by omega) (by omega) c3) ?_
  rintro m3 m3l
  rw [wp_bind]
  refine wp_mono (markPairs_wp hO (Nat.le_refl L) m3l hs.vLen) ?_
  rintro ⟨m4, v4⟩ ⟨m4l, v4l, m4g, v4g⟩
  dsimp only at m4l v4l m4g v4g ⊢
  have hmin : min (V.lo l) L = V.lo l := by omega
  have hdeg := hs.deg
  rw [hmin] at hdeg
  have hSmem : ∀ v, v ∈ win V.levelPtr V.levelSet 0 (V.lo l) ↔ v < g.n ∧ V.node2Level.getD v 0 < V.lo l := by
    intro v
    rw [LevelOk.mem_win hO (by omega) (by omega)]
    constructor
    · rintro ⟨a, -, b⟩; exact ⟨a, b⟩
    · rintro ⟨a, b⟩; exact ⟨a, by omega, b⟩
  have happ : win V.levelPtr V.levelSet 0 (min (V.lo (l + 1)) L)
      = win V.levelPtr V.levelSet 0 (V.lo l) ++ V.nodes L l :=
    win_append hO (by omega) (by omega) (by omega)
  rw [wp_bind]
  refine wp_mono (bfs_window hwf hd1 hO (d := V.lo l) (c := min (V.lo (l + 1)) L)
    (by omega) (by omega) (S := win V.levelPtr V.levelSet 0 (V.lo l)) ?_ ?_ hwl hs.dLen hdeg v4l ?_ ?_
    P.debug) ?_
  · intro v hv hc
    have a := (hmem v).1 hv
    have b := (hSmem v).1 hc
    omega
  · intro u v hd _ hu
    exact (hSmem u).2 ⟨(hwf.dep_lt hd).1, hu⟩
  · intro v hv
    have hv' := (hmem v).1 hv
    rw [v4g v hv'.1, if_neg (by omega)]
    exact hs.vis v hv'.1 hv'.2.1
  · intro v hv hvc
    have := hO.ntlLt v hv
    rw [v4g v hv, if_pos (by omega)]
  rintro B ⟨b1, b2, b3, -, b5, b6⟩
  rw [wp_bind]
  refine wp_mono (markLevels_wp hO false true (Nat.le_refl L) b3) ?_
  rintro v5 ⟨v5l, v5g⟩
  rw [wp_bind]
  have hl' : l < V.sizes.length := by rw [h.slen]; exact hl
  have hcc' : C.cc ≤ (V.leaves l).length := hcc
  refine wp_mono (pack_wp (g := g) (n := g.n) (bp := P.binPack) hin hsort hl'
    (h.spos _ (List.mem_of_getElem? (getElem?_getD 0 hl'))) c4 hs.nLen (leaves := (V.leaves l).length)
    (by omega) hleaves b2) ?_
  rintro ⟨out, nc, merged⟩ ⟨r1, hG⟩
  dsimp only at r1 hG ⊢
  have hgl := hG.len
  have hgs := hG.size
  have hgv := hG.leaves
  subst hgl
  rw [wp_bind]
  refine wp_mono (emitWindowSeq_wp (n := g.n) ?_ hwl.len (hE.step hwf h hcost hl hG.parts
    (hp _ hgv hgs))) ?_
  · intro x hx
    exact ((hmem x).1 (hG.parts.perm.mem_iff.1 hx)).1
  · rintro ⟨e, lab⟩ ⟨he, hlab⟩
    rw [wp_ok]
    refine ⟨⟨m4l, v5l, hlab, c4, r1, b5, c5, c6, ?_, ?_, ?_⟩, _, hgv, hgs, he⟩
    · intro x hx hlx
      have := hO.ntlLt x hx
      dsimp only
      rw [m4g x hx, if_pos (by omega)]
    · intro x hx hlx
      have := hO.ntlLt x hx
      dsimp only
      rw [v5g x hx, if_pos (by omega)]
    · intro x hx hxs
      rw [happ] at hxs ⊢
      rw [List.mem_append, not_or] at hxs
      exact b6 x hx hxs.1 hxs.2

theorem coarsenCsc_wp (hwf : g.WF) (hd1 : g.OneDiag)
    (hdf : g.DiagFirst) (hac : g.Acyclic) {P : Params K}
    (hin : P.innerParts ≠ 0) (hsort : ∀ l, (P.sort l).Perm l) (hn : g.n ≤ intMax)
    {minDist divRate : Int}
    (hpar : (1 ≤ divRate ∧ 1 ≤ minDist + divRate) ∨ (0 ≤ minDist ∧ ∀ v, ¬ g.PathTo minDist.toNat v))
    (hbig : 3 ≤ g.n ∨ (g.n = 2 ∧ (minDist ≠ 1 ∨ ∀ u v, ¬ g.Dep u v)))
    (hpack : P.binPack = true ∨ (2 ≤ minDist ∧ ∃ u v, g.Dep u v)) {nodeCost : List K} (hcost : nodeCost.length = g.n) (zero : K) {xi0 ps0 : List Nat}
    (hxi : xi0.length = g.n) (hps : ps0.length = g.n) :
    wp (coarsenCsc P g.n g.p g.i minDist divRate nodeCost zero xi0 ps0) (fun s =>
      s.Valid g.n g.Dep ∧ s.nodes.length = g.n) := by
  unfold coarsenCsc
  have h0 : 0 < g.n := by omega
  obtain ⟨⟨cnt, V⟩, hV, L, hW, threads, hH⟩ := wp_iff.1 (windowsCsc_wp hwf hd1 hdf hac h0 P hpar)
  dsimp only at hW hH
  rw [hV, ok_bind, wp_bind]
  refine wp_mono (inDegrees_wp hwf hd1) ?_
  rintro deg ⟨d1, d2⟩
  rw [wp_bind]
  have hbig' : L < g.n ∨ 2 ≤ g.n ∧ (3 ≤ g.n ∨ minDist ≠ 1) := by
    rcases hbig with h | ⟨h, h' | h'⟩
    · exact .inr ⟨by omega, .inl h⟩
    · exact .inr ⟨by omega, .inr h'⟩
    · refine .inl ?_
      obtain ⟨v, hv⟩ := (hW.lvl.top h0).2
      by_contra hc
      obtain ⟨u, hu, hd⟩ := pathTo_succ.1 (hv.le hwf (show 0 + 1 ≤ L - 1 by omega))
      exact h' _ _ hd
  have hpack' : P.binPack = true ∨ (2 ≤ minDist ∧ 2 ≤ L) := by
    rcases hpack with h | ⟨h1, u, v, hd⟩
    · exact .inl h
    · refine .inr ⟨h1, ?_⟩
      have := LevelOk.dep_lt hwf hW.lvl hd
      have := hW.lvl.ntlLt v (hwf.dep_lt hd).2
      omega
  have hlo0 : V.lo 0 = 0 := by unfold Wins.lo; rw [hW.cuts.first]; rfl
  refine wp_mono (forRange_wp' (fun k (s : SeqSt K) => SInv g L V k s ∧ ∃ out : List Nat, out.length = k ∧
      (∀ l, l < cnt → out.getD l 0 ≤ (V.leaves l).length) ∧
      (P.binPack = true → ∀ l, l < cnt → out.getD l 0 ≤ V.sizes.getD l 0) ∧ EmInv g L V k (partsUpTo out k) s.emit)
    (Nat.zero_le cnt) ?_ ?_ (fun _ h => h)) ?_
  · refine ⟨⟨by simp, by simp, by simp, by simp, by simp, d1, hxi, hps, ?_, ?_, ?_⟩, [], rfl, by simp, by simp,
      EmInv.start hW⟩
    · intro x hx _; exact getD_replicate _ _ _ _ hx
    · intro x hx _; exact getD_replicate _ _ _ _ hx
    · intro x hx _
      rw [hlo0, Nat.zero_min]
      have : win V.levelPtr V.levelSet 0 0 = [] := by simp [win, slice_self]
      rw [this]
      exact d2 x hx
  · rintro k s _ hk ⟨hs, out, o1, o2, o3, o4⟩
    have hget : ∀ (m l : Nat), (out ++ [m]).getD l 0 = if l = k then m else out.getD l 0 := by
      intro m l
      by_cases hlk : l = k
      · subst hlk
        rw [if_pos rfl, getD_append_right _ _ _ (by omega), o1, Nat.sub_self]
        rfl
      · rw [if_neg hlk]
        rcases Nat.lt_or_ge l k with h | h
        · rw [getD_append_left _ _ _ (by omega)]
        · simp only [List.getD_eq_getElem?_getD]
          rw [List.getElem?_eq_none (by simp; omega), List.getElem?_eq_none (by omega)]
    have hb1 : ∀ m, m ≤ (V.leaves k).length → ∀ l, l < cnt → (out ++ [m]).getD l 0 ≤ (V.leaves l).length := by
      intro m hm l hl
      rw [hget]
      split
      · rename_i h; rw [h]; exact hm
      · exact o2 l hl
    have hb2 : ∀ m, (P.binPack = true → m ≤ V.sizes.getD k 0) → P.binPack = true → ∀ l, l < cnt → (out ++ [m]).getD l 0 ≤ V.sizes.getD l 0 := by
      intro m hm hb l hl
      rw [hget]
      split
      · rename_i h; rw [h]; exact hm hb
      · exact o3 hb l hl
    have hpk : ∀ m, partsUpTo (out ++ [m]) (k + 1) = partsUpTo out k + m := by
      intro m
      rw [partsUpTo_succ, hget, if_pos rfl]
      congr 1
      unfold partsUpTo
      congr 1
      apply List.map_congr_left
      intro l hl
      rw [hget, if_neg (by have := List.mem_range.1 hl; omega)]
    refine wp_mono (processCsc_wp hwf hd1 hW hin hsort hn hcost hk hs o4 ?_) ?_
    · intro m hm1 hm2
      have h5 := parts_lt hW (bp := P.binPack) (hb1 m hm1) (hb2 m hm2) hH hbig' hpack'
      have h6 := partsUpTo_mono (out ++ [m]) (a := k + 1) (b := cnt) (by omega)
      rw [hpk] at h6
      omega
    · rintro s' ⟨hs', m, hm1, hm2, hm3⟩
      refine ⟨hs', out ++ [m], by simp [o1], hb1 m hm1, hb2 m hm2, ?_⟩
      rw [hpk]
      exact hm3
  · rintro s ⟨-, out, -, -, -, o4⟩
    obtain ⟨he1, he2⟩ := o4.final hW
    have := hW.cuts.cnt_pos
    dsimp only
    rw [if_neg (by omega), wp_ok]
    exact ⟨he1, he2⟩

end
end Verif.Lbc
