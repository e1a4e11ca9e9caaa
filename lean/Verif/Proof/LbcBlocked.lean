import Verif.Proof.BlockBfs
import Verif.Proof.BlockLevels
import Verif.Proof.LbcTree

/-! # The blocked LBC inspector -/

namespace Verif.Blocked
open Res Csc Lbc BlockCsc LevelSet Hdagg

variable {M : BlockCsc} {K : Type} [Add K] [LT K] [DecidableLT K] {L cnt : Nat}

omit [Add K] [LT K] [DecidableLT K] in
/-- Only the first parts are copied. -/
theorem emitWindowSeq_take (nodeCost : List K) (l out : Nat) (merged : List (List Nat)) (e : Emit) (lab : List Int) :
    emitWindowSeq nodeCost l out merged e lab = emitWindowSeq nodeCost l out (merged.take out) e lab := by
  unfold emitWindowSeq
  refine bind_congr fun a => bind_congr fun lp => ?_
  refine forRange_congr (fun i _ hi s => ?_) _
  have : rd (merged.take out) i = rd merged i := by
    unfold rd
    rw [List.getElem?_take, if_pos hi]
  rw [this]

theorem pack_wp {P : Params K} (hin : 1 ≤ P.innerParts) (hsort : ∀ l, (P.sort l).Perm l)
    {lists : List (List Nat)} {outCost newOutCost : List K} {sizes : List Nat} {l : Nat}
    (hl : l < sizes.length) (hsz : 1 ≤ sizes.getD l 0) (hszi : (sizes.getD l 0 : Int) ≤ P.innerParts)
    {n : Nat} (ho : outCost.length = n)
    (hno : newOutCost.length = n) {leaves : Nat} (hlv : lists.length ≤ leaves) (hln : leaves ≤ n)
    {g : Csc} {W : List Nat} (hW : WinParts g.Dep W lists) :
    wp (pack P lists outCost newOutCost sizes l) (fun r => r.2.1.length = n ∧
      Good g W leaves P.innerParts.toNat true r.1 (r.2.2.take r.1)) := by
  unfold pack
  rw [if_neg (by omega), if_neg (by omega)]
  split
  · rename_i hc
    rw [rd_getD 0 hl, ok_bind]
    obtain ⟨size, hsize⟩ : ∃ x, x = sizes.getD l 0 := ⟨_, rfl⟩
    rw [← hsize] at hsz hszi ⊢
    obtain ⟨cost', merged', order, h1, h2, h3⟩ := C34_worst_fit P.big hsort (parts := lists)
      (inCost := outCost) (outCost := newOutCost) (merged := List.replicate P.innerParts.toNat [])
      (bins := size) (by omega) (by omega) (by simp; omega) (by omega)
    rw [h1, ok_bind]
    dsimp only
    rw [if_neg (by omega), wp_ok]
    dsimp only
    have hmap : (outCost.zip lists).map Prod.snd = lists := List.map_snd_zip (by omega)
    have hml : merged'.length = P.innerParts.toNat := by rw [h3.mlen]; simp
    obtain ⟨bin, b1, b2, b3, -⟩ := h3.packed
    have hrest : (merged'.drop size).flatten = [] := by
      rw [List.flatten_eq_nil_iff]
      intro m hm
      obtain ⟨k, hk⟩ := List.mem_iff_getElem?.1 hm
      rw [List.getElem?_drop] at hk
      have hk2 := (List.getElem?_eq_some_iff.1 hk).1
      have := b3 (size + k) [] (by rw [List.getElem?_replicate, if_pos (by omega)])
      rw [this] at hk
      have e : inBin bin order (size + k) = [] := by
        unfold inBin
        rw [List.map_eq_nil_iff, List.filter_eq_nil_iff]
        intro a ha
        have := b2 _ (List.of_mem_zip ha).2
        simp only [beq_iff_eq]
        omega
      rw [e] at hk
      simpa using hk.symm
    refine ⟨by rw [h3.clen]; exact hno, by rw [List.length_take]; omega, ⟨?_, ?_⟩, by omega,
      fun _ => by omega⟩
    · have e : (merged'.take size).flatten = merged'.flatten := by
        conv_rhs => rw [← List.take_append_drop size merged', List.flatten_append, hrest, List.append_nil]
      rw [e]
      refine (h3.flatten (by simp; omega)).trans ?_
      have h4 : (List.replicate P.innerParts.toNat ([] : List Nat)).flatten = [] := by simp
      rw [h4, List.nil_append]
      refine (h2.flatMap_right _).trans ?_
      rw [List.flatMap_def, hmap]
      exact hW.perm
    · intro u v hd hu hv
      obtain ⟨p, hp, hsub⟩ := hW.together u v hd hu hv
      obtain ⟨t, ht, rfl⟩ : ∃ t ∈ order, t.2 = p := by
        rw [← hmap] at hp
        obtain ⟨t, h5, h6⟩ := List.mem_map.1 hp
        exact ⟨t, h2.mem_iff.2 h5, h6⟩
      obtain ⟨b, hb, hbm⟩ := mem_inBin b1 ht
      have hb' := b2 b hb
      have := b3 b [] (by rw [List.getElem?_replicate, if_pos (by omega)])
      refine ⟨[] ++ (inBin bin order b).flatMap Prod.snd,
        List.mem_of_getElem? (i := b) (l := merged'.take size) ?_, hsub.trans ?_⟩
      · rw [List.getElem?_take, if_pos hb']; exact this
      · rw [List.nil_append, List.flatMap_def]
        exact List.sublist_flatten_of_mem (List.mem_map.2 ⟨t, hbm, rfl⟩)
  · rename_i hc
    rw [wp_ok]
    dsimp only
    rw [List.take_length]
    exact ⟨hno, rfl, hW, hlv, fun _ => by omega⟩

theorem bfs_eq (debug : Bool) (lab : List Int) (ptr set : List Nat) (lev : Nat) (s : Bfs) :
    bfs debug M lab ptr set lev s = bfsWith debug M.graph.n lab (bfsPop M lab) ptr set lev s := rfl

theorem process_wp (h : M.WF) (hcm : M.Comparable) {V : Wins} (hW : WinsCore M.graph L cnt V) {P : Params K}
    (hin : 1 ≤ P.innerParts) (hszi : ∀ x ∈ V.sizes, (x : Int) ≤ P.innerParts)
    (hsort : ∀ l, (P.sort l).Perm l) (hn : M.n ≤ intMax) {nodeCost : List K}
    (hcost : nodeCost.length = M.n) {l : Nat} (hl : l < cnt) {s : SeqSt K} (hs : SInv M.graph L V l s) {p : Nat}
    (hE : EmInv M.graph L V l p s.emit)
    (hp : ∀ m, m ≤ (V.leaves l).length → m ≤ P.innerParts.toNat → p + m < M.n) :
    wp (process P M V nodeCost l s) (fun s' => SInv M.graph L V (l + 1) s' ∧
      ∃ m, m ≤ (V.leaves l).length ∧ m ≤ P.innerParts.toNat ∧ EmInv M.graph L V (l + 1) (p + m) s'.emit) := by
  have hwf := h.graph
  obtain ⟨h1, h2, h3⟩ := hW.lo_spec hl
  have hO := hW.lvl
  have hmem := hW.mem_nodes hl
  unfold process
  rw [bounds_eq hW hl, ok_bind]
  dsimp only
  rw [wp_bind]
  refine wp_mono (markLower_wp hO (1 : Int) 0 (by omega) hs.mLen) ?_
  rintro m1 ⟨m1l, m1g⟩
  rw [wp_bind, hW.height]
  refine wp_mono (markLevels_wp hO (1 : Int) 0 (Nat.le_refl L) m1l) ?_
  rintro m2 ⟨m2l, m2g⟩
  rw [wp_bind]
  have hleaves : (V.leaves l).length ≤ M.n := by
    unfold Wins.leaves
    rw [win_length hO (by omega)]
    have := hO.ptr_le (a := V.lo l + 1) (by omega)
    rw [graph_n] at this
    omega
  refine wp_mono (windowComps_wp h hcm hO (d := V.lo l) (c := min (V.lo (l + 1)) L) (by omega) (by omega) hn
    hcost (s := ⟨s.lab, m2, s.outCost, 0, s.xi, s.ps, List.replicate M.n false⟩) ?_) ?_
  · refine ⟨hs.labLen, m2l, hs.oLen, hs.xiLen, hs.psLen, rfl, by simp, by simp, ?_, ?_, by simp, by simp,
      Nat.le_refl _⟩
    · intro v hv
      have hv' := (hmem v).1 hv
      dsimp only
      rw [if_neg (by simp), m2g v hv'.1, if_neg (by omega), m1g v hv'.1, if_neg (by omega)]
      exact hs.mark v hv'.1 hv'.2.1
    · intro v hv hvW hvd
      have := hO.ntlLt v hv
      have hge : V.lo (l + 1) ≤ V.node2Level.getD v 0 := by
        by_contra hc
        exact hvW ((hmem v).2 ⟨hv, hvd, by omega⟩)
      dsimp only
      rw [m2g v hv, if_pos (by omega)]
  rintro _ ⟨C, rfl, hwl, hcc, c3, c4, c5, c6⟩
  unfold toB
  dsimp only
  rw [Int.toNat_natCast, wp_bind]
  refine wp_mono (markLower_wp hO (0 : Int) 0 (by omega) c3) ?_
  rintro m3 ⟨m3l, m3g⟩
  rw [wp_bind]
  refine wp_mono (markPairs_wp hO (Nat.le_refl L) m3l hs.vLen) ?_
  rintro ⟨m4, v4⟩ ⟨m4l, v4l, m4g, v4g⟩
  dsimp only at m4l v4l m4g v4g ⊢
  have hmin : min (V.lo l) L = V.lo l := by omega
  have hdeg := hs.deg
  rw [hmin] at hdeg
  have hSmem : ∀ v, v ∈ win V.levelPtr V.levelSet 0 (V.lo l) ↔ v < M.n ∧ V.node2Level.getD v 0 < V.lo l := by
    intro v
    rw [LevelOk.mem_win hO (by omega) (by omega)]
    constructor
    · rintro ⟨a, -, b⟩; exact ⟨a, b⟩
    · rintro ⟨a, b⟩; exact ⟨a, by omega, b⟩
  have happ : win V.levelPtr V.levelSet 0 (min (V.lo (l + 1)) L)
      = win V.levelPtr V.levelSet 0 (V.lo l) ++ V.nodes L l :=
    win_append hO (by omega) (by omega) (by omega)
  rw [wp_bind, bfs_eq]
  refine wp_mono (bfsWith_window hwf hO (d := V.lo l) (c := min (V.lo (l + 1)) L)
    (by omega) (by omega) (popOk h C.lab) (S := win V.levelPtr V.levelSet 0 (V.lo l)) ?_ ?_ hwl hs.dLen hdeg v4l ?_ ?_
    P.debug) ?_
  · intro v hv hc
    have a := (hmem v).1 hv
    have b := (hSmem v).1 hc
    omega
  · intro u v hd _ hu
    exact (hSmem u).2 ⟨(hwf.dep_lt hd).1, hu⟩
  · intro v hv
    have hv' := (hmem v).1 hv
    rw [v4g v hv'.1, if_neg (by omega)]
    exact hs.vis v hv'.1 hv'.2.1
  · intro v hv hvc
    have := hO.ntlLt v hv
    rw [v4g v hv, if_pos (by omega)]
  rintro B ⟨b1, b2, b3, -, b5, b6⟩
  rw [wp_bind]
  refine wp_mono (markLevels_wp hO false true (Nat.le_refl L) b3) ?_
  rintro v5 ⟨v5l, v5g⟩
  rw [wp_bind]
  have hl' : l < V.sizes.length := by rw [hW.slen]; exact hl
  have hsm := List.mem_of_getElem? (getElem?_getD 0 hl')
  have hcc' : C.cc ≤ (V.leaves l).length := hcc
  refine wp_mono (pack_wp (g := M.graph) (n := M.n) hin hsort hl'
    (hW.spos _ hsm) (hszi _ hsm) c4 hs.nLen (leaves := (V.leaves l).length)
    (by omega) hleaves b2) ?_
  rintro ⟨out, nc, merged⟩ ⟨r1, hG⟩
  dsimp only at r1 hG ⊢
  have hgl := hG.len
  have hgs := hG.size rfl
  have hgv := hG.leaves
  rw [wp_bind, emitWindowSeq_take]
  generalize merged.take out = parts at hG hgl ⊢
  subst hgl
  refine wp_mono (emitWindowSeq_wp (n := M.n) ?_ hwl.len (hE.step hwf hW hcost hl hG.parts
    (hp _ hgv hgs))) ?_
  · intro x hx
    exact ((hmem x).1 (hG.parts.perm.mem_iff.1 hx)).1
  · rintro ⟨e, lab⟩ ⟨he, hlab⟩
    rw [wp_ok]
    refine ⟨⟨m4l, v5l, hlab, c4, r1, b5, c5, c6, ?_, ?_, ?_⟩, _, hgv, hgs, he⟩
    · intro x hx hlx
      have := hO.ntlLt x hx
      dsimp only
      rw [m4g x hx, if_pos (by omega)]
    · intro x hx hlx
      have := hO.ntlLt x hx
      dsimp only
      rw [v5g x hx, if_pos (by omega)]
    · intro x hx hxs
      rw [happ] at hxs ⊢
      rw [List.mem_append, not_or] at hxs
      exact b6 x hx hxs.1 hxs.2

/-- The number of bins of the windows behind the last one is not used. -/
theorem process_take (P : Params K) (M : BlockCsc) (V : Wins) (nodeCost : List K) {l : Nat}
    (hl : l < cnt) (s : SeqSt K) :
    process P M V nodeCost l s = process P M { V with sizes := V.sizes.take cnt } nodeCost l s := by
  have hrd : rd (V.sizes.take cnt) l = rd V.sizes l := by
    unfold rd
    rw [List.getElem?_take, if_pos hl]
  unfold process pack
  dsimp only
  rw [hrd]

/-! ### The inspector -/

omit [Add K] [LT K] [DecidableLT K] in
theorem windows_wp (h : M.WF) (ha : M.Acyclic) (h0 : 0 < M.n) (P : Params K) {slack : Nat → List Int}
    (hsl : ∀ k, ∃ x ∈ slack k, x ≠ 1) (minDist divRate : Int) :
    wp (windows P M slack minDist divRate) (fun r =>
      LevelOk M.graph r.2.height r.2.levelPtr r.2.levelSet r.2.node2Level ∧
      LbcTree.HOut r.2.height minDist P.innerParts r.1 r.2.bound r.2.sizes) := by
  unfold windows
  rw [wp_bind]
  refine wp_mono (buildLevelSet_wp h ha P.debug hsl) ?_
  rintro ⟨L, ptr, set⟩ ⟨ntl, hO⟩
  dsimp only at hO ⊢
  have hnl : nodeLevels L ptr set M.n = ok ntl := nodeLevels_eq hO
  rw [hnl, ok_bind, wp_bind]
  have hpl := hO.ptrLen
  refine wp_mono (LbcTree.heightPartition_wp P.debug P.innerParts minDist divRate (hO.top h0).1
    (by omega) (fun i hi => Nat.le_of_lt (hO.strict i hi))) ?_
  rintro ⟨c, b, s⟩ ho
  rw [wp_ok]
  exact ⟨hO, ho⟩

/-- The parts up to a window fit into the array. -/
theorem parts_fit {V : Wins} {g : Csc} (h : WinsCore g L cnt V) {minDist inner : Int} {sizes : List Nat}
    (ho : LbcTree.HOut L minDist inner cnt V.bound sizes)
    (hg : 2 ≤ minDist ∨ inner ≤ 1 ∨ L ≤ 2) (hn : 2 ≤ L ∨ inner.toNat < g.n) {k p m : Nat} (hk : k < cnt)
    (hp : p ≤ V.levelPtr.getD (min (V.lo k) L) 0) (hm : m ≤ (V.leaves k).length) (hm2 : m ≤ inner.toNat) :
    p + m < g.n ∧ p + m ≤ V.levelPtr.getD (min (V.lo (k + 1)) L) 0 := by
  obtain ⟨h1, h2, h3⟩ := h.lo_spec hk
  have hO := h.lvl
  have hlen : (V.leaves k).length = V.levelPtr.getD (V.lo k + 1) 0 - V.levelPtr.getD (V.lo k) 0 := by
    unfold Wins.leaves
    rw [win_length hO (by omega)]
  have hup := hO.ptr_mono (a := V.lo k) (b := V.lo k + 1) (by omega) (by omega)
  have hup2 := hO.ptr_mono (a := V.lo k + 1) (b := min (V.lo (k + 1)) L) (by omega) (by omega)
  rw [Nat.min_eq_left (by omega)] at hp
  refine ⟨?_, by omega⟩
  have hLn := hO.ptrL
  rcases Nat.lt_or_ge (V.lo k + 1) L with hlt | hge
  · have := hO.strict (V.lo k + 1) hlt
    have := hO.ptr_mono (a := V.lo k + 1 + 1) (b := L) (by omega) (by omega)
    omega
  · have hmono := h.lo_mono (a := k) (b := cnt - 1) (by omega) (by omega)
    have h1c : cnt = 1 → p + m < g.n := by
      intro hc
      subst hc
      obtain rfl : k = 0 := by omega
      have : V.lo 0 = 0 := by unfold Wins.lo; rw [h.cuts.first]; rfl
      rw [this, hO.ptr0] at hp
      omega
    by_cases hL2 : L ≤ 2
    · exact h1c (ho.small hL2).1
    · by_cases hi : inner ≤ 1
      · exact h1c (ho.one hi)
      · have hc1 : 1 < cnt := by
          by_contra hc
          have : cnt = 1 := by have := h.cuts.cnt_pos; omega
          subst this
          obtain rfl : k = 0 := by omega
          have : V.lo 0 = 0 := by unfold Wins.lo; rw [h.cuts.first]; rfl
          omega
        have hd := ho.dist hc1
        have : (V.bound.getD (cnt - 1) 0).toNat = V.lo (cnt - 1) := rfl
        omega

theorem coarsen_wp (h : M.WF) (ha : M.Acyclic) (hcm : M.Comparable) (h0 : 0 < M.n) {P : Params K}
    (hin : 1 ≤ P.innerParts) (hsort : ∀ l, (P.sort l).Perm l) (hn : M.n ≤ intMax)
    {slack : Nat → List Int} (hsl : ∀ k, ∃ x ∈ slack k, x ≠ 1)
    {minDist : Int} (divRate : Int)
    (hg : 2 ≤ minDist ∨ P.innerParts ≤ 1 ∨ ∀ u v w, M.Dep u v → ¬ M.Dep v w)
    (hfit : (∃ u v, M.Dep u v) ∨ P.innerParts < M.n)
    {nodeCost : List K} (hc : nodeCost.length = M.n) (zero : K)
    {xi0 ps0 : List Nat} (hxi : xi0.length = M.n) (hps : ps0.length = M.n) :
    wp (coarsen P M slack minDist divRate nodeCost zero xi0 ps0) (fun s =>
      s.Valid M.n M.Dep ∧ s.nodes.length = M.n) := by
  have hwf := h.graph
  unfold coarsen
  rw [wp_bind]
  refine wp_mono (windows_wp h ha h0 P hsl minDist divRate) ?_
  rintro ⟨cnt, V⟩ ⟨hV, hH⟩
  dsimp only at hV hH ⊢
  rw [wp_bind]
  refine wp_mono (inDegrees_wp h) ?_
  rintro deg ⟨d1, d2⟩
  have hg' : 2 ≤ minDist ∨ P.innerParts ≤ 1 ∨ V.height ≤ 2 := by
    rcases hg with hg | hg | hg
    · exact .inl hg
    · exact .inr (.inl hg)
    · refine .inr (.inr ?_)
      obtain ⟨v, hv⟩ := (hV.top h0).2
      by_contra hc
      obtain ⟨u, hu, hd⟩ := pathTo_succ.1 (hv.le hwf (show 0 + 1 + 1 ≤ V.height - 1 by omega))
      obtain ⟨w, _, hd2⟩ := pathTo_succ.1 hu
      exact hg _ _ _ (h.dep_iff.1 hd2) (h.dep_iff.1 hd)
  have hfit' : 2 ≤ V.height ∨ P.innerParts.toNat < M.graph.n := by
    rcases hfit with ⟨u, v, hd⟩ | hf
    · left
      have hd' := h.dep_iff.2 hd
      have := LevelOk.dep_lt hwf hV hd'
      have := hV.ntlLt v (hwf.dep_lt hd').2
      omega
    · right
      rw [graph_n]
      omega
  have hW : WinsCore M.graph V.height cnt { V with sizes := V.sizes.take cnt } :=
    ⟨hV, rfl, hH.cuts, hH.top, by simpa using hH.slen,
      fun x hx => (hH.spos x (List.mem_of_mem_take hx)).1⟩
  have hszi : ∀ x ∈ V.sizes.take cnt, (x : Int) ≤ P.innerParts := by
    intro x hx
    have := (hH.spos x (List.mem_of_mem_take hx)).2
    omega
  have hlo0 : V.lo 0 = 0 := by unfold Wins.lo; rw [hH.cuts.first]; rfl
  rw [wp_bind]
  refine wp_mono (forRange_wp' (fun k (s : SeqSt K) =>
      SInv M.graph V.height { V with sizes := V.sizes.take cnt } k s ∧ ∃ p,
      p ≤ V.levelPtr.getD (min (V.lo k) V.height) 0 ∧
      EmInv M.graph V.height { V with sizes := V.sizes.take cnt } k p s.emit)
    (Nat.zero_le cnt) ?_ ?_ (fun _ h => h)) ?_
  · refine ⟨⟨by simp [graph_n], by simp [graph_n], by simp [graph_n], by simp [graph_n], by simp [graph_n], d1, hxi, hps, ?_, ?_, ?_⟩, 0, Nat.zero_le _,
      EmInv.start hW⟩
    · intro x hx _; exact getD_replicate _ _ _ _ hx
    · intro x hx _; exact getD_replicate _ _ _ _ hx
    · intro x hx _
      change deg.getD x 0 = 1 + (M.graph.remIn (win V.levelPtr V.levelSet 0 (min (V.lo 0) V.height)) x : Int)
      rw [hlo0, Nat.zero_min]
      have : win V.levelPtr V.levelSet 0 0 = [] := by simp [win, slice_self]
      rw [this]
      exact d2 x hx
  · rintro k s _ hk ⟨hs, p, hp, hE⟩
    rw [process_take P M V nodeCost hk s]
    refine wp_mono (process_wp h hcm hW hin hszi hsort hn hc hk hs hE
      (fun m hm1 hm2 => (parts_fit hW hH hg' hfit' hk hp hm1 hm2).1)) ?_
    rintro s' ⟨hs', m, hm1, hm2, hE'⟩
    exact ⟨hs', p + m, (parts_fit hW hH hg' hfit' hk hp hm1 hm2).2, hE'⟩
  · rintro s ⟨-, p, -, hE⟩
    obtain ⟨he1, he2⟩ := hE.final hW
    rw [wp_bind]
    refine wp_mono (verifySet_wp P.debug he2 he1) (fun _ _ => ?_)
    rw [wp_ok]
    refine ⟨?_, he2⟩
    have hdep : M.graph.Dep = M.Dep := by
      funext u v
      exact propext h.dep_iff
    rw [← hdep]
    exact he1

end Verif.Blocked
