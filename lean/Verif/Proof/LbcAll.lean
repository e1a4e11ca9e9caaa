import Verif.Proof.LbcEmit

/-! # The parallel LBC inspector: counting the parts, and everything together -/

namespace Verif.Lbc
open Res Csc LevelSet Hdagg

variable {g : Csc} {L cnt : Nat}

theorem partSize_le (threads size : Int) : (partSize threads size : Int) ≤ max 1 size := by
  unfold partSize
  split
  · omega
  · split <;> omega

theorem parts_lt {V : Wins} (h : WinsCore g L cnt V) {bp : Bool} {out : List Nat}
    (hleaves : ∀ l, l < cnt → out.getD l 0 ≤ (V.leaves l).length)
    (hsizes : bp = true → ∀ l, l < cnt → out.getD l 0 ≤ V.sizes.getD l 0) {threads minDist : Int}
    (hH : HPost L V.levelPtr threads minDist cnt V.bound V.sizes)
    (hbig : L < g.n ∨ 2 ≤ g.n ∧ (3 ≤ g.n ∨ minDist ≠ 1))
    (hpack : bp = true ∨ (2 ≤ minDist ∧ 2 ≤ L)) : partsUpTo out cnt < g.n := by
  have hO := h.lvl
  let P : Nat → Nat := fun l => V.levelPtr.getD (min (V.lo l) L) 0
  have hlo0 : V.lo 0 = 0 := by unfold Wins.lo; rw [h.cuts.first]; rfl
  have hblock : ∀ l, l < cnt → out.getD l 0 + V.levelPtr.getD (V.lo l) 0 ≤ V.levelPtr.getD (V.lo l + 1) 0 ∧
      V.levelPtr.getD (V.lo l + 1) 0 ≤ P (l + 1) ∧ P l = V.levelPtr.getD (V.lo l) 0 := by
    intro l hl
    obtain ⟨h1, h2, h3⟩ := h.lo_spec hl
    refine ⟨?_, hO.ptr_mono (by omega) (by omega), ?_⟩
    · have h4 := hleaves l hl
      unfold Wins.leaves at h4
      rw [win_length hO (by omega)] at h4
      have h5 := hO.ptr_mono (a := V.lo l) (b := V.lo l + 1) (by omega) (by omega)
      omega
    · show V.levelPtr.getD (min (V.lo l) L) 0 = _
      rw [Nat.min_eq_left (by omega)]
  have hle : ∀ k, k ≤ cnt → partsUpTo out k ≤ P k ∧
      (partsUpTo out k = P k → ∀ l, l < k → out.getD l 0 + V.levelPtr.getD (V.lo l) 0 = P (l + 1)) := by
    intro k
    induction k with
    | zero =>
      intro _
      exact ⟨by simp [partsUpTo], by intro _ l hl; omega⟩
    | succ k ih =>
      intro hk
      obtain ⟨h1, h2⟩ := ih (by omega)
      obtain ⟨h3, h4, h5⟩ := hblock k (by omega)
      rw [partsUpTo_succ]
      refine ⟨by omega, ?_⟩
      intro he l hl
      rcases Nat.lt_or_ge l k with h6 | h6
      · exact h2 (by omega) l h6
      · obtain rfl : l = k := by omega
        omega
  have hPc : P cnt = g.n := by
    have : min (V.lo cnt) L = L := by
      have := h.cuts.last
      unfold Wins.lo
      omega
    show V.levelPtr.getD (min (V.lo cnt) L) 0 = _
    rw [this]
    exact hO.ptrL
  obtain ⟨h1, h2⟩ := hle cnt (Nat.le_refl _)
  rw [hPc] at h1 h2
  by_contra hc
  have hno := h2 (by omega)
  have hcp := h.cuts.cnt_pos
  have hsingle : ∀ l, l < cnt → min (V.lo (l + 1)) L = V.lo l + 1 := by
    intro l hl
    obtain ⟨a1, a2, a3⟩ := h.lo_spec hl
    obtain ⟨b1, b2, b3⟩ := hblock l hl
    have := hno l hl
    by_contra hne
    have h3 := hO.strict (V.lo l + 1) (by omega)
    have h4 := hO.ptr_mono (a := V.lo l + 1 + 1) (b := min (V.lo (l + 1)) L) (by omega) (by omega)
    change V.levelPtr.getD (V.lo l + 1 + 1) 0 ≤ P (l + 1) at h4
    omega
  have hlo : ∀ l, l < cnt → V.lo l = l := by
    intro l
    induction l with
    | zero => intro _; exact hlo0
    | succ l ih =>
      intro hl
      have h3 := ih (by omega)
      have h4 := hsingle l (by omega)
      have h5 := (h.lo_spec hl).1
      omega
  have hcL : cnt = L := by
    have h3 := hsingle (cnt - 1) (by omega)
    have h4 := hlo (cnt - 1) (by omega)
    rw [Nat.sub_add_cancel hcp] at h3
    have h5 : L ≤ V.lo cnt := by
      have := h.cuts.last
      unfold Wins.lo
      omega
    omega
  have hsz : ∀ l, l < cnt → levelSize V.levelPtr l = out.getD l 0 := by
    intro l hl
    have h3 := hno l hl
    have h4 := hsingle l hl
    have h5 := hlo l hl
    change out.getD l 0 + V.levelPtr.getD (V.lo l) 0 = V.levelPtr.getD (min (V.lo (l + 1)) L) 0 at h3
    rw [h4, h5] at h3
    unfold levelSize
    omega
  have hn := hO.lN
  have hp0 := hO.ptr0
  have hpL := hO.ptrL
  rcases hpack with hbp | ⟨hm, hL2⟩
  · have hsize : ∀ l, l < cnt → levelSize V.levelPtr l ≤ V.sizes.getD l 0 := by
      intro l hl
      rw [hsz l hl]
      have := hsizes hbp l hl
      omega
    have hlast := hsize (cnt - 1) (by omega)
    rw [hH.slast] at hlast
    have hpos : ∀ l, l < L → 1 ≤ levelSize V.levelPtr l := by
      intro l hl
      have := hO.strict l hl
      unfold levelSize
      omega
    rcases hH.tail with h3 | ⟨l, h3, h4, h5⟩ | ⟨h3, h4, h5⟩
    · have h6 : L = 1 := by omega
      rw [h3] at hlast
      unfold levelSize at hlast
      rw [h6] at hpL
      simp only [Nat.sub_self, Nat.zero_add] at hlast
      omega
    · have h6 := hlo (cnt - 1) (by omega)
      unfold Wins.lo at h6
      have h7 := h.nonneg (l := cnt - 1) (by omega)
      obtain rfl : l = cnt - 1 := by omega
      have := hpos (cnt - 1) (by omega)
      omega
    · have h6 := hlo 1 (by omega)
      unfold Wins.lo at h6
      rw [h4] at h6
      have h7 : minDist = 1 := by omega
      have h8 := hsize 0 (by omega)
      rw [h5, h7] at h8
      have h9 := partSize_le threads (levelSize V.levelPtr 0 / 2)
      have h10 : levelSize V.levelPtr 0 ≤ (partSize threads (levelSize V.levelPtr 0 / 2) : Nat) := h8
      have h11 := hpos 0 (by omega)
      have h12 : levelSize V.levelPtr 0 = 1 := by omega
      rw [h3] at hlast
      have h13 : L = 2 := by omega
      rw [h13] at hpL
      have h14 : levelSize V.levelPtr 1 ≤ 1 := hlast
      have h15 : ((V.levelPtr.getD 1 0 : Nat) : Int) - (V.levelPtr.getD 0 0 : Nat) = 1 := h12
      have h16 : ((V.levelPtr.getD 2 0 : Nat) : Int) - (V.levelPtr.getD 1 0 : Nat) ≤ 1 := h14
      omega
  · have h3 := hH.one (by omega)
    have h4 : min (V.lo 1) L = V.lo 0 + 1 := hsingle 0 (by omega)
    rw [hlo0] at h4
    unfold Wins.lo at h4
    omega

theorem windows_wp {K : Type} (hwf : g.WF) (hd1 : g.OneDiag) (h0 : 0 < g.n)
    (hpath : ∀ v, ¬ g.PathTo (g.n - 1) v) (P : Params K) {minDist divRate : Int}
    (hpar : (1 ≤ divRate ∧ 1 ≤ minDist + divRate) ∨ (0 ≤ minDist ∧ ∀ v, ¬ g.PathTo minDist.toNat v)) :
    wp (windows P g.n g.p g.i minDist divRate) (fun r => ∃ L, WinsOk g L r.1 r.2 ∧
      ∃ threads, HPost L r.2.levelPtr threads minDist r.1 r.2.bound r.2.sizes) := by
  unfold windows
  obtain ⟨o, ho, ⟨L, hL, hO⟩ | ⟨-, v, hv⟩⟩ := buildLevelSet_ok hwf hd1
  · rw [ho, ok_bind, hL, Int.toNat_natCast, nodeLevels_eq hO, ok_bind, wp_bind]
    have hL0 : 0 < L := (hO.top h0).1
    have hLn : L < g.n := by rcases (buildLevelSet_full hwf hd1 ho hL).1 with h | h <;> omega
    refine wp_mono (heightPartition_wp P.debug P.innerParts hL0 hO.ptrLen
      (fun i hi => Nat.le_of_lt (hO.strict i hi)) ?_ (by omega)) ?_
    · rcases hpar with h | ⟨h1, h2⟩
      · exact .inr h
      · refine .inl ?_
        by_contra hc
        obtain ⟨v, hv⟩ := (hO.top h0).2
        exact h2 v (hv.le hwf (by omega))
    · intro r hr
      rw [wp_ok]
      exact ⟨L, ⟨⟨hO, rfl, hr.cuts, hr.top, hr.slen, hr.spos⟩, hLn, by
        have := (buildLevelSet_full hwf hd1 ho hL).2
        dsimp only; omega⟩, _, hr⟩
  · exact absurd hv (hpath v)

theorem assign_done {K : Type} [Add K] [LT K] [DecidableLT K] (hwf : g.WF) (hd1 : g.OneDiag) {V : Wins}
    (h : WinsOk g L cnt V) {P : Params K}
    (hP : ParamsOk P) {nodeCost : List K} (hcost : nodeCost.length = g.n)
    {t : Bool} (hT : t = true → ∀ l, l < cnt → CCFinish g V L P l) (zero : K)
    {lab0 : List Int} (hlab : lab0.length = g.n) {tss : List (List Nat)}
    (hws : ∀ ts ∈ tss, ∀ l ∈ ts, l < cnt) (hinc : ∀ ts ∈ tss, ts.Pairwise (· < ·)) {D : List Nat} {sh : Shared}
    (hsh : Done g V L cnt P.binPack D sh) :
    wpm t (forEach tss (runThread P g.n g.p g.i V nodeCost zero lab0 false) sh)
      (Done g V L cnt P.binPack (D ++ tss.flatten)) := by
  have key := forEach_wpm (t := t) (fun p sh => Done g V L cnt P.binPack (D ++ p.flatten) sh)
    (f := runThread P g.n g.p g.i V nodeCost zero lab0 false) tss [] sh (by simpa using hsh) ?_
  · simpa using key
  · intro p ts q sh he hD
    rw [List.nil_append] at he
    have hm : ts ∈ tss := by rw [he]; simp
    refine wpm_mono (runThread_wpm hwf hd1 h hP hcost hT false zero hlab (hws ts hm) (hinc ts hm) hD) ?_
    intro sh' hD'
    simpa using hD'

theorem Done.congr {V : Wins} {bp : Bool} {D D' : List Nat} {sh : Shared} (h : Done g V L cnt bp D sh)
    (hs : ∀ l ∈ D', l ∈ D) : Done g V L cnt bp D' sh :=
  ⟨h.1, h.2.1, fun l hl => h.2.2 l (hs l hl)⟩

/-- How the windows are given to the threads: each window once, each thread in increasing order. -/
def Assigns (assign : List Nat → List (List Nat)) : Prop :=
  ∀ ws, (assign ws).flatten.Perm ws ∧ ∀ ts ∈ assign ws, ts.Sublist ws

theorem makePartitions_wpm {K : Type} [Add K] [LT K] [DecidableLT K] (hwf : g.WF) (hd1 : g.OneDiag)
    {V : Wins} (h : WinsOk g L cnt V) {P : Params K} (hP : ParamsOk P) {nodeCost : List K}
    (hcost : nodeCost.length = g.n) {t : Bool} (hT : t = true → ∀ l, l < cnt → CCFinish g V L P l)
    (zero : K) {lab0 : List Int} (hlab : lab0.length = g.n) {assign : List Nat → List (List Nat)}
    (hassign : Assigns assign) {threads minDist : Int}
    (hH : HPost L V.levelPtr threads minDist cnt V.bound V.sizes)
    (hpack : P.binPack = true ∨ (2 ≤ minDist ∧ 2 ≤ L)) :
    wpm t (makePartitions P g.n g.p g.i V cnt nodeCost zero lab0 assign (Emit.start g.n)) (fun e =>
        Sched.Valid ⟨cnt, e.levelPtr, e.partPtr, e.nodes⟩ g.n g.Dep ∧ e.nodes.length = g.n) := by
  unfold makePartitions
  rw [wpm_bind]
  refine wpm_of_wp (wp_mono (classify_wp h) ?_)
  rintro ⟨big, small⟩ ⟨b1, b2, b3, b4, b5⟩
  dsimp only at b1 b2 b3 b4 b5 ⊢
  rw [wpm_bind]
  refine wpm_mono (runThread_wpm hwf hd1 h hP hcost hT true zero hlab b3 b1 (D := [])
    ⟨by simp, by simp, by simp⟩) ?_
  intro sh hD
  rw [List.nil_append] at hD
  rw [wpm_bind]
  obtain ⟨ha1, ha2⟩ := hassign small
  refine wpm_mono (assign_done hwf hd1 h hP hcost hT zero hlab (tss := assign small)
    (fun ts hts l hl => b4 l ((ha2 ts hts).subset hl)) (fun ts hts => b2.sublist (ha2 ts hts)) hD) ?_
  intro sh' hD'
  have hall : Done g V L cnt P.binPack (List.range cnt) sh' := by
    refine hD'.congr ?_
    intro l hl
    rw [List.mem_append]
    rcases b5 l (List.mem_range.1 hl) with hb | hb
    · exact .inl hb
    · exact .inr (ha1.mem_iff.2 hb)
  exact wpm_of_wp (emit_wp hwf h.toWinsCore hall hcost (parts_lt h.toWinsCore (fun l hl => (hall.2.2 l (List.mem_range.2 hl)).leaves)
    (fun hb l hl => (hall.2.2 l (List.mem_range.2 hl)).size hb) hH (.inl h.lt) hpack))

theorem coarsenParallel_wpm {K : Type} [Add K] [LT K] [DecidableLT K] (hwf : g.WF) (hd1 : g.OneDiag)
    (h0 : 0 < g.n) (hpath : ∀ v, ¬ g.PathTo (g.n - 1) v) {P : Params K} (hP : ParamsOk P)
    {minDist divRate : Int}
    (hpar : (1 ≤ divRate ∧ 1 ≤ minDist + divRate) ∨ (0 ≤ minDist ∧ ∀ v, ¬ g.PathTo minDist.toNat v))
    (hpack : P.binPack = true ∨ (2 ≤ minDist ∧ ∃ u v, g.Dep u v)) {nodeCost : List K}
    (hcost : nodeCost.length = g.n) (zero : K) {lab0 : List Int} (hlab : lab0.length = g.n)
    {assign : List Nat → List (List Nat)} (hassign : Assigns assign) {t : Bool}
    (hT : t = true → ∀ cnt V L, windows P g.n g.p g.i minDist divRate = ok (cnt, V) →
      WinsOk g L cnt V → ∀ l, l < cnt → CCFinish g V L P l) :
    wpm t (coarsenParallel P g.n g.p g.i minDist divRate nodeCost zero lab0 assign)
      (fun s => s.Valid g.n g.Dep) := by
  unfold coarsenParallel
  obtain ⟨⟨cnt, V⟩, hV, L, hW, threads, hH⟩ := wp_iff.1 (windows_wp hwf hd1 h0 hpath P hpar)
  dsimp only at hW hH
  rw [hV, ok_bind, wpm_bind]
  refine wpm_mono (makePartitions_wpm hwf hd1 hW hP hcost (fun ht => hT ht cnt V L hV hW) zero hlab
    hassign hH ?_) ?_
  · rcases hpack with h | ⟨h1, u, v, hd⟩
    · exact .inl h
    · refine .inr ⟨h1, ?_⟩
      have := LevelOk.dep_lt hwf hW.lvl hd
      have := hW.lvl.ntlLt v (hwf.dep_lt hd).2
      omega
  · rintro e ⟨he1, he2⟩
    rw [wpm_bind]
    refine wpm_of_wp (wp_mono (verifySet_wp P.debug he2 he1) ?_)
    intro _ _
    have := hW.cuts.cnt_pos
    dsimp only
    rw [if_neg (by omega), wpm_ok]
    exact he1

end Verif.Lbc
