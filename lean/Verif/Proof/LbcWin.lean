import Verif.Proof.LbcLoops
import Verif.Props.Bins

/-! # One window of LBC -/

namespace Verif.Lbc
open Res Csc LevelSet Hdagg

variable {g : Csc} {L : Nat} {ptr set ntl : List Nat}

/-- The nodes `W` distributed over parts: each once, and dependent nodes in the same part, in
order. -/
structure WinParts (dep : Nat → Nat → Prop) (W : List Nat) (parts : List (List Nat)) : Prop where
  perm : parts.flatten.Perm W
  together : ∀ u v, dep u v → u ∈ W → v ∈ W → ∃ p ∈ parts, [u, v].Sublist p

/-- The nodes that are not in the window. -/
def outside (g : Csc) (W : List Nat) : List Nat := (List.range g.n).filter (fun v => decide (v ∉ W))

theorem mem_outside {W : List Nat} {v : Nat} : v ∈ outside g W ↔ v < g.n ∧ v ∉ W := by
  simp [outside]

/-- Labels of the nodes of a window: in range, equal for dependent nodes. -/
structure WinLabels (g : Csc) (W : List Nat) (cc : Nat) (lab : List Int) : Prop where
  len : lab.length = g.n
  range : ∀ v ∈ W, 0 ≤ lab.getD v 0 ∧ lab.getD v 0 < cc
  same : ∀ u v, g.Dep u v → u ∈ W → v ∈ W → lab.getD u 0 = lab.getD v 0

theorem winParts_of_bfs {S W : List Nat} {cc : Nat} {lab : List Int} {s0 s : Bfs} {ord : List Nat}
    (hl : WinLabels g W cc lab) (hs : s0.parts = List.replicate cc [])
    (h : BfsPost g S W lab s0 ord s) : s.parts.length = cc ∧ WinParts g.Dep W s.parts := by
  have hlen : s.parts.length = cc := by rw [h.partsLen, hs]; simp
  have hget : ∀ q, q < cc → s.parts[q]? = some (ord.filter (fun v => decide (key lab v = q))) := by
    intro q hq
    rw [Hdagg.getElem?_getD [] (by omega), h.parts, hs, getD_replicate _ _ _ _ hq, List.nil_append]
    congr 1
    apply List.filter_congr
    intro v hv
    have := (hl.range v (h.perm.mem_iff.1 hv)).1
    unfold key
    by_cases h1 : lab.getD v 0 = (q : Int)
    · rw [h1]; simp
    · have : ¬ (lab.getD v 0).toNat = q := by omega
      rw [decide_eq_false h1, decide_eq_false this]
  have hflat : s.parts.flatten = bucket cc (key lab) ord := by
    have : s.parts = (List.range cc).map (fun q => ord.filter (fun v => decide (key lab v = q))) := by
      apply List.ext_getElem?
      intro q
      rcases Nat.lt_or_ge q cc with hq | hq
      · rw [hget q hq, List.getElem?_map, List.getElem?_range hq]; rfl
      · rw [List.getElem?_eq_none (by omega), List.getElem?_eq_none (by simpa using hq)]
    rw [this, bucket, List.flatMap_def]
  have hk : ∀ v ∈ ord, key lab v < cc := by
    intro v hv
    have := hl.range v (h.perm.mem_iff.1 hv)
    unfold key
    omega
  refine ⟨hlen, ?_, ?_⟩
  · rw [hflat]
    exact (bucket_perm hk).trans h.perm
  · intro u v hd hu hv
    refine ⟨_, List.mem_of_getElem? (hget (key lab u) (hk u (h.perm.mem_iff.2 hu))), ?_⟩
    have h1 := (h.topo u v hu hv hd).filter (fun w => decide (key lab w = key lab u))
    have h2 : key lab v = key lab u := by unfold key; rw [hl.same u v hd hu hv]
    simpa [h2] using h1

/-! ### Packing -/

theorem mem_inBin {K : Type} {bin : List Nat} {l : List (K × List Nat)} {t : K × List Nat}
    (hlen : bin.length = l.length) (ht : t ∈ l) : ∃ b ∈ bin, t ∈ inBin bin l b := by
  induction l generalizing bin with
  | nil => simp at ht
  | cons a l ih =>
    cases bin with
    | nil => simp at hlen
    | cons b bin =>
      rcases List.mem_cons.1 ht with rfl | ht
      · exact ⟨b, by simp, by simp [inBin]⟩
      · obtain ⟨b', h1, h2⟩ := ih (by simpa using hlen) ht
        refine ⟨b', by simp [h1], ?_⟩
        unfold inBin at h2 ⊢
        rw [List.zip_cons_cons, List.filter_cons]
        split
        · exact List.mem_cons_of_mem _ h2
        · exact h2

section
variable {K : Type} [Add K] [LT K] [DecidableLT K]

/-- What is known of the packed parts. -/
structure Good (g : Csc) (W : List Nat) (leaves size : Nat) (binPack : Bool) (out : Nat)
    (merged : List (List Nat)) : Prop where
  len : merged.length = out
  parts : WinParts g.Dep W merged
  leaves : out ≤ leaves
  size : binPack = true → out ≤ size

theorem pack_wp {P : Params K} (hin : P.innerParts ≠ 0) (hsort : ∀ l, (P.sort l).Perm l)
    {bp : Bool} {lists : List (List Nat)} {outCost newOutCost : List K} {sizes : List Nat} {l : Nat}
    (hl : l < sizes.length) (hsz : 1 ≤ sizes.getD l 0) {n : Nat} (ho : outCost.length = n)
    (hno : newOutCost.length = n) {leaves : Nat} (hlv : lists.length ≤ leaves) (hln : leaves ≤ n)
    {W : List Nat} (hW : WinParts g.Dep W lists) :
    wp (pack P bp lists outCost newOutCost sizes l) (fun r => r.2.1.length = n ∧
      Good g W leaves (sizes.getD l 0) bp r.1 r.2.2) := by
  unfold pack
  rw [if_neg hin, rd_getD 0 hl, ok_bind]
  split
  · rename_i hc
    obtain ⟨cost', merged', order, h1, h2, h3⟩ := C34_worst_fit P.big hsort (parts := lists)
      (inCost := outCost) (outCost := newOutCost) (merged := List.replicate (sizes.getD l 0) [])
      (bins := sizes.getD l 0) (by omega) (by omega) (by simp) (by omega)
    rw [h1, wp_ok]
    have hmap : (outCost.zip lists).map Prod.snd = lists := List.map_snd_zip (by omega)
    refine ⟨by rw [h3.clen]; exact hno, by rw [h3.mlen]; simp, ⟨?_, ?_⟩, by dsimp only; omega,
      fun _ => Nat.le_refl _⟩
    · refine (h3.flatten (by simp)).trans ?_
      have h4 : (List.replicate (sizes.getD l 0) ([] : List Nat)).flatten = [] := by simp
      rw [h4, List.nil_append]
      refine (h2.flatMap_right _).trans ?_
      rw [List.flatMap_def, hmap]
      exact hW.perm
    · intro u v hd hu hv
      obtain ⟨p, hp, hsub⟩ := hW.together u v hd hu hv
      obtain ⟨t, ht, rfl⟩ : ∃ t ∈ order, t.2 = p := by
        rw [← hmap] at hp
        obtain ⟨t, h5, h6⟩ := List.mem_map.1 hp
        exact ⟨t, h2.mem_iff.2 h5, h6⟩
      obtain ⟨bin, b1, b2, b3, -⟩ := h3.packed
      obtain ⟨b, hb, hbm⟩ := mem_inBin b1 ht
      have hb' := b2 b hb
      have := b3 b [] (by rw [List.getElem?_replicate, if_pos hb'])
      refine ⟨_, List.mem_of_getElem? this, hsub.trans ?_⟩
      rw [List.nil_append, List.flatMap_def]
      exact List.sublist_flatten_of_mem (List.mem_map.2 ⟨t, hbm, rfl⟩)
  · rename_i hc
    rw [wp_ok]
    exact ⟨hno, rfl, hW, hlv, fun hb => by dsimp only; by_contra hn; exact hc ⟨hb, by omega⟩⟩

/-! ### Costs of the components -/

omit [LT K] [DecidableLT K] in
theorem ccCosts_wp {nodes : List Nat} {lab : List Int} {nodeCost outCost : List K} {n m : Nat}
    (hlab : lab.length = n) (hcost : nodeCost.length = n) (hout : outCost.length = n) (hmn : m ≤ n)
    (hnodes : ∀ u ∈ nodes, u < n) (hr : ∀ u ∈ nodes, 0 ≤ lab.getD u 0 ∧ lab.getD u 0 < m) :
    wp (ccCosts nodes lab nodeCost outCost) (fun r => r.1.length = n ∧ r.2 ≤ m ∧
      ∀ u ∈ nodes, lab.getD u 0 < r.2) := by
  unfold ccCosts
  have key := forEach_wp (fun p (r : List K × Int) => r.1.length = n ∧ r.2 ≤ m ∧
    ∀ u ∈ p, lab.getD u 0 < r.2) (f := fun u (s : List K × Int) => do
    let c ← rd lab u
    let o ← rdZ s.1 c
    let w ← rd nodeCost u
    let out ← wrZ s.1 c (o + w)
    ok (out, max s.2 (c + 1))) nodes [] (outCost, -1) ⟨hout, by dsimp only; omega, by simp⟩ ?_
  · simpa using key
  · rintro p u q ⟨r1, r2⟩ he ⟨h1, h2, h3⟩
    dsimp only at h1 h2 h3 ⊢
    have hu : u ∈ nodes := by rw [← List.nil_append nodes, he]; simp
    have h4 := hnodes u hu
    have h5 := hr u hu
    obtain ⟨c, hc⟩ : ∃ c : Nat, lab.getD u 0 = c := ⟨(lab.getD u 0).toNat, by omega⟩
    rw [hc] at h5
    rw [rd_getD 0 (by omega), ok_bind, hc]
    unfold rdZ wrZ
    rw [if_neg (by omega), Int.toNat_natCast, rd_eq (by omega), ok_bind, rd_eq (by omega), ok_bind,
      if_neg (by omega), wr_eq (by omega), ok_bind, wp_ok]
    refine ⟨by simpa using h1, by omega, ?_⟩
    intro w hw
    rcases List.mem_append.1 hw with hw | hw
    · have := h3 w hw; omega
    · rw [List.mem_singleton] at hw
      subst hw
      omega

end

/-! ### The search in a window -/

theorem leaf_iff (h : LevelOk g L ptr set ntl) {d c v : Nat} (hdc : d < c) (hc : c ≤ L) :
    v ∈ win ptr set d (d + 1) ↔ v ∈ win ptr set d c ∧ ntl.getD v 0 = d := by
  rw [LevelOk.mem_win h (by omega) (by omega), LevelOk.mem_win h (by omega) hc]
  constructor
  · rintro ⟨h1, h2, h3⟩; exact ⟨⟨h1, h2, by omega⟩, by omega⟩
  · rintro ⟨⟨h1, h2, h3⟩, h4⟩; exact ⟨h1, h2, by omega⟩

/-- The search finds the nodes of the window `d .. c-1`.  `S` are the nodes counted as done. -/
theorem bfsWith_window (hwf : g.WF) (h : LevelOk g L ptr set ntl) {d c : Nat}
    (hdc : d < c) (hc : c ≤ L) {lab : List Int} {pop : Bfs → Res Bfs} (hpop : PopOk g lab pop) {S : List Nat} (hS : ∀ v ∈ win ptr set d c, v ∉ S)
    (hpred : ∀ u v, g.Dep u v → v ∈ win ptr set d c → ntl.getD u 0 < d → u ∈ S)
    {cc : Nat} (hl : WinLabels g (win ptr set d c) cc lab)
    {visited : List Bool} {deg : List Int} (hdl : deg.length = g.n)
    (hdeg : ∀ x, x < g.n → x ∉ S → deg.getD x 0 = 1 + (g.remIn S x : Int))
    (hvl : visited.length = g.n) (hvis : ∀ v ∈ win ptr set d c, visited.getD v true = false)
    (hout : ∀ v, v < g.n → c ≤ ntl.getD v 0 → visited.getD v true = true) (debug : Bool) :
    wp (bfsWith debug g.n lab pop ptr set d ⟨[], visited, deg, List.replicate cc []⟩)
      (fun s => s.parts.length = cc ∧ WinParts g.Dep (win ptr set d c) s.parts ∧
        s.visited.length = g.n ∧
        (∀ x, s.visited.getD x true = (visited.getD x true || decide (x ∈ win ptr set d c))) ∧
        s.deg.length = g.n ∧
        ∀ x, x < g.n → x ∉ S → x ∉ win ptr set d c →
          s.deg.getD x 0 = 1 + (g.remIn (S ++ win ptr set d c) x : Int)) := by
  have hn := h.lN
  have hpl := h.ptrLen
  have hmem : ∀ v, v ∈ win ptr set d c ↔ v < g.n ∧ d ≤ ntl.getD v 0 ∧ ntl.getD v 0 < c :=
    LevelOk.mem_win h (by omega) hc
  have hpre : BfsPre g S (win ptr set d c) ((set.drop (ptr.getD d 0)).take
      (ptr.getD (d + 1) 0 - ptr.getD d 0)) lab ⟨[], visited, deg, List.replicate cc []⟩ := by
    change BfsPre g S _ (win ptr set d (d + 1)) lab _
    refine ⟨?_, LevelOk.win_nodup h _ _, LevelOk.win_nodup h _ _, ?_, ?_, ?_, hl.len, ?_, rfl, hdl,
      hdeg, hvl, hvis, ?_⟩
    · exact fun v hv => ⟨((hmem v).1 hv).1, hS v hv⟩
    · intro v hv
      obtain ⟨h1, h2⟩ := (leaf_iff h hdc hc).1 hv
      refine ⟨h1, remIn_eq_zero.2 fun u hu => hpred u v hu h1 ?_⟩
      have := LevelOk.dep_lt hwf h hu
      omega
    · intro v hv hvl hr
      have hv' := (hmem v).1 hv
      have hne : ntl.getD v 0 ≠ d := fun he => hvl ((leaf_iff h hdc hc).2 ⟨hv, he⟩)
      obtain ⟨u, hu, hul⟩ := LevelOk.pred hwf h hv'.1 (by omega)
      have hum : u ∈ win ptr set d c := (hmem u).2 ⟨(hwf.dep_lt hu).1, by omega, by omega⟩
      exact hS u hum (remIn_eq_zero.1 hr u hu)
    · intro u v hu hv
      by_cases h1 : ntl.getD u 0 < d
      · exact .inl (hpred u v hu hv h1)
      · have := LevelOk.dep_lt hwf h hu
        have := ((hmem v).1 hv).2.2
        exact .inr ((hmem u).2 ⟨(hwf.dep_lt hu).1, by omega, by omega⟩)
    · intro v hv
      simpa using hl.range v hv
    · intro u hu x hx hxW
      have hu' := (hmem u).1 hu
      have hxn := hwf.range u hu'.1 x hx
      apply hout x hxn
      by_contra hlt
      have hne : u ≠ x := by rintro rfl; exact hxW hu
      have := LevelOk.dep_lt hwf h (u := u) (v := x) ⟨hu'.1, hx, hne⟩
      exact hxW ((hmem x).2 ⟨hxn, by omega, by omega⟩)
  have hle := h.ptr_le (a := d + 1) (by omega)
  refine wp_mono (bfsWith_wp hpop (by omega) (h.strict d (by omega)).le (by rw [h.setLen]; exact hle)
    hpre (fun v => ntl.getD v 0) (fun u v hu => LevelOk.dep_lt hwf h hu) debug) ?_
  rintro s ⟨ord, ho⟩
  obtain ⟨h1, h2⟩ := winParts_of_bfs hl rfl ho
  exact ⟨h1, h2, ho.visLen, ho.vis, ho.degLen, ho.deg⟩

theorem bfs_window (hwf : g.WF) (hd1 : g.OneDiag) (h : LevelOk g L ptr set ntl) {d c : Nat}
    (hdc : d < c) (hc : c ≤ L) {S : List Nat} (hS : ∀ v ∈ win ptr set d c, v ∉ S)
    (hpred : ∀ u v, g.Dep u v → v ∈ win ptr set d c → ntl.getD u 0 < d → u ∈ S)
    {cc : Nat} {lab : List Int} (hl : WinLabels g (win ptr set d c) cc lab)
    {visited : List Bool} {deg : List Int} (hdl : deg.length = g.n)
    (hdeg : ∀ x, x < g.n → x ∉ S → deg.getD x 0 = 1 + (g.remIn S x : Int))
    (hvl : visited.length = g.n) (hvis : ∀ v ∈ win ptr set d c, visited.getD v true = false)
    (hout : ∀ v, v < g.n → c ≤ ntl.getD v 0 → visited.getD v true = true) (debug : Bool) :
    wp (bfs debug g.n g.p g.i lab ptr set d ⟨[], visited, deg, List.replicate cc []⟩)
      (fun s => s.parts.length = cc ∧ WinParts g.Dep (win ptr set d c) s.parts ∧
        s.visited.length = g.n ∧
        (∀ x, s.visited.getD x true = (visited.getD x true || decide (x ∈ win ptr set d c))) ∧
        s.deg.length = g.n ∧
        ∀ x, x < g.n → x ∉ S → x ∉ win ptr set d c →
          s.deg.getD x 0 = 1 + (g.remIn (S ++ win ptr set d c) x : Int)) :=
  bfsWith_window hwf h hdc hc (popOk_bfsPop hwf hd1 lab) hS hpred hl hdl hdeg hvl hvis hout debug

end Verif.Lbc
