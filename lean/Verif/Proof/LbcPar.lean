import Verif.Proof.LbcWin
import Verif.Props.Height

/-! # The threads of `make_partitions_parallel` -/

namespace Verif.Lbc
open Res Csc LevelSet Hdagg CC

variable {g : Csc} {L cnt : Nat}

/-- The level set and the windows of a call. -/
structure WinsCore (g : Csc) (L cnt : Nat) (V : Wins) : Prop where
  lvl : LevelOk g L V.levelPtr V.levelSet V.node2Level
  height : V.height = L
  cuts : LevelCuts L cnt V.bound
  top : V.bound.getD cnt 0 ≤ (L : Int) + 1
  slen : V.sizes.length = cnt
  spos : ∀ x ∈ V.sizes, 1 ≤ x

/-- `WinsCore` for the level set of `build_levelSet_CSC`. -/
structure WinsOk (g : Csc) (L cnt : Nat) (V : Wins) : Prop extends WinsCore g L cnt V where
  lt : L < g.n
  long : L + 1 < V.levelPtr.length

/-- First level of window `l`. -/
def Wins.lo (V : Wins) (l : Nat) : Nat := (V.bound.getD l 0).toNat

/-- Nodes of window `l`. -/
def Wins.nodes (V : Wins) (L l : Nat) : List Nat :=
  win V.levelPtr V.levelSet (V.lo l) (min (V.lo (l + 1)) L)

/-- Nodes of the first level of window `l`. -/
def Wins.leaves (V : Wins) (l : Nat) : List Nat :=
  win V.levelPtr V.levelSet (V.lo l) (V.lo l + 1)

theorem WinsCore.nonneg {V : Wins} (h : WinsCore g L cnt V) {l : Nat} (hl : l ≤ cnt) :
    0 ≤ V.bound.getD l 0 := by
  have := h.cuts.mono (a := 0) (b := l) (by omega) hl
  rw [h.cuts.first] at this
  exact this

theorem WinsCore.lo_spec {V : Wins} (h : WinsCore g L cnt V) {l : Nat} (hl : l < cnt) :
    V.lo l < L ∧ V.lo l < V.lo (l + 1) ∧ V.lo (l + 1) ≤ L + 1 := by
  have h0 := h.nonneg (l := l) (by omega)
  have h1 := h.nonneg (l := l + 1) (by omega)
  have h2 := h.cuts.inc l hl
  have h3 := h.cuts.inner l hl
  have h4 := h.cuts.mono (a := l + 1) (b := cnt) (by omega) (Nat.le_refl _)
  have h5 := h.top
  unfold Wins.lo
  omega

theorem WinsCore.lo_mono {V : Wins} (h : WinsCore g L cnt V) {a b : Nat} (hab : a ≤ b) (hb : b ≤ cnt) :
    V.lo a ≤ V.lo b := by
  have := h.cuts.mono hab hb
  unfold Wins.lo
  omega

theorem bounds_eq {V : Wins} (h : WinsCore g L cnt V) {l : Nat} (hl : l < cnt) :
    bounds V.bound l = ok (V.lo l, V.lo (l + 1)) := by
  have h0 := h.nonneg (l := l) (by omega)
  have h1 := h.nonneg (l := l + 1) (by omega)
  have h2 := h.cuts.len
  unfold bounds
  rw [rd_getD 0 (by omega), ok_bind, rd_getD 0 (by omega), ok_bind, if_neg (by omega)]
  rfl

theorem WinsCore.mem_nodes {V : Wins} (h : WinsCore g L cnt V) {l : Nat} (hl : l < cnt) (v : Nat) :
    v ∈ V.nodes L l ↔ v < g.n ∧ V.lo l ≤ V.node2Level.getD v 0 ∧
      V.node2Level.getD v 0 < V.lo (l + 1) := by
  obtain ⟨h1, h2, h3⟩ := h.lo_spec hl
  unfold Wins.nodes
  rw [LevelOk.mem_win h.lvl (by omega) (by omega)]
  constructor
  · rintro ⟨h4, h5, h6⟩; exact ⟨h4, h5, by omega⟩
  · rintro ⟨h4, h5, h6⟩
    have := h.lvl.ntlLt v h4
    exact ⟨h4, h5, by omega⟩

theorem WinsCore.window {V : Wins} (h : WinsCore g L cnt V) {l : Nat} (hl : l < cnt) :
    Window g V.node2Level (V.lo l) (V.lo (l + 1)) (V.nodes L l) :=
  ⟨h.lvl.ntlLen, LevelOk.win_nodup h.lvl _ _, h.mem_nodes hl⟩

section
variable {K : Type} [Add K] [LT K] [DecidableLT K]

/-- The arrays of a thread that has not yet touched the levels from `B` on. -/
structure PvOk (g : Csc) (ntl : List Nat) (B : Nat) (pv : Priv K) : Prop where
  vlen : pv.visited.length = g.n
  llen : pv.lab.length = g.n
  olen : pv.outCost.length = g.n
  nlen : pv.newOutCost.length = g.n
  vis : ∀ x, x < g.n → pv.visited.getD x true = true → ntl.getD x 0 < B

/-- What the arbitrary parts of the parameters have to satisfy. -/
structure ParamsOk (P : Params K) : Prop where
  inner : P.innerParts ≠ 0
  sort : ∀ l, (P.sort l).Perm l
  lost : ∀ l c, (P.lost l c).length = c.length

/-- Every component computation of window `l` comes to its end. -/
def CCFinish (g : Csc) (V : Wins) (L : Nat) (P : Params K) (l : Nat) : Prop :=
  ∀ lab : List Int, lab.length = g.n →
    parallelCC g.p g.i (V.lo l) (V.lo (l + 1)) V.node2Level (V.nodes L l) lab (P.sched l lab) ≠ nofuel

theorem labels_lt_leaves (hwf : g.WF) {V : Wins} (h : WinsCore g L cnt V) {l : Nat} (hl : l < cnt)
    {lab : List Int} (hL : Labels g (V.nodes L l) lab) {u : Nat} (hu : u ∈ V.nodes L l) :
    0 ≤ lab.getD u 0 ∧ lab.getD u 0 < (V.leaves l).length := by
  obtain ⟨h1, h2, h3⟩ := h.lo_spec hl
  have hnonneg : 0 ≤ lab.getD u 0 := by
    obtain ⟨k, hk⟩ := List.mem_iff_getElem?.1 hu
    have := hL.range k (List.getElem?_eq_some_iff.1 hk).1
    rw [List.getD_eq_getElem?_getD (l := V.nodes L l), hk, Option.getD_some] at this
    exact this.1
  refine ⟨hnonneg, ?_⟩
  have hum := (h.mem_nodes hl u).1 hu
  obtain ⟨w, hw, hcon⟩ := LevelOk.conn_below hwf h.lvl (lb := V.lo l) (c := V.lo l + 1)
    (c' := min (V.lo (l + 1)) L) (by omega) (by omega) (by omega) (V.node2Level.getD u 0 - V.lo l) u
    (by omega) hu
  have hwW : w ∈ V.nodes L l := (leaf_iff h.lvl (by omega) (by omega)).1 hw |>.1
  have heq := (hL.conn w hwW u hu).2 hcon
  obtain ⟨k, hk⟩ := List.mem_iff_getElem?.1 hw
  have hkl := (List.getElem?_eq_some_iff.1 hk).1
  have happ : V.nodes L l = V.leaves l ++ win V.levelPtr V.levelSet (V.lo l + 1)
      (min (V.lo (l + 1)) L) := win_append h.lvl (by omega) (by omega) (by omega)
  have hk' : (V.nodes L l)[k]? = some w := by
    rw [happ, List.getElem?_append_left (show k < (V.leaves l).length from hkl)]; exact hk
  have := hL.range k (List.getElem?_eq_some_iff.1 hk').1
  rw [List.getD_eq_getElem?_getD (l := V.nodes L l), hk', Option.getD_some] at this
  have hkl' : k < (V.leaves l).length := hkl
  omega

theorem process_wpm (hwf : g.WF) (hd1 : g.OneDiag) {V : Wins} (h : WinsOk g L cnt V) {P : Params K}
    (hP : ParamsOk P) {nodeCost : List K} (hcost : nodeCost.length = g.n) {l : Nat} (hl : l < cnt)
    {t : Bool} (hT : t = true → CCFinish g V L P l) (large : Bool) {B : Nat} (hB : B ≤ V.lo l)
    {pv : Priv K} (hpv : PvOk g V.node2Level B pv) :
    wpm t (process P g.n g.p g.i V nodeCost large l pv) (fun r =>
      PvOk g V.node2Level (V.lo (l + 1)) r.1 ∧
      Good g (V.nodes L l) (V.leaves l).length (V.sizes.getD l 0) P.binPack r.2.1 r.2.2) := by
  obtain ⟨h1, h2, h3⟩ := h.lo_spec hl
  have hO := h.lvl
  have hmem := h.mem_nodes hl
  unfold process
  rw [bounds_eq h.toWinsCore hl, ok_bind, wpm_bind]
  refine wpm_of_wp (wp_mono (windowInit_wp hwf hO h.long (by omega) (by omega) h3) ?_)
  rintro ⟨nodes, deg⟩ ⟨hn, hdl, hdeg⟩
  dsimp only at hn hdl hdeg ⊢
  change nodes = V.nodes L l at hn
  subst hn
  rw [wpm_bind]
  refine wpm_mono (wpm_of_wpl ((parallelCC_spec hwf (h.window hl) hpv.llen).1 (P.sched l pv.lab))
    (fun ht => hT ht pv.lab hpv.llen)) ?_
  rintro lab ⟨hL, -⟩
  have hlt := fun u (hu : u ∈ V.nodes L l) => labels_lt_leaves hwf h.toWinsCore hl hL hu
  have hleaves : (V.leaves l).length ≤ g.n := by
    unfold Wins.leaves
    rw [win_length hO (by omega)]
    have := hO.ptr_le (a := V.lo l + 1) (by omega)
    omega
  rw [wpm_bind]
  refine wpm_of_wp (wp_mono (ccCosts_wp hL.len hcost hpv.olen hleaves (fun u hu => ((hmem u).1 hu).1)
    hlt) ?_)
  rintro ⟨out, cc⟩ ⟨ho, hcc, hccl⟩
  dsimp only at ho hcc hccl ⊢
  rw [wpm_bind]
  refine wpm_of_wp (wp_mono (markLower_wp hO true true (by omega) hpv.vlen) ?_)
  rintro v1 ⟨hv1, hv1g⟩
  rw [wpm_bind, h.height]
  refine wpm_of_wp (wp_mono (markLevels_wp hO true true (Nat.le_refl L) hv1) ?_)
  rintro v2 ⟨hv2, hv2g⟩
  have hwl : WinLabels g (V.nodes L l) cc.toNat lab := by
    refine ⟨hL.len, ?_, ?_⟩
    · intro v hv
      have a := (hlt v hv).1
      have b := hccl v hv
      omega
    · intro u v hd hu hv
      exact (hL.conn u hu v hv).2 (.rel _ _ ⟨hu, hv, hd⟩)
  have hremout : ∀ x, x < g.n → x ∉ outside g (V.nodes L l) →
      deg.getD x 0 = 1 + (g.remIn (outside g (V.nodes L l)) x : Int) := by
    intro x hx hxo
    have hxW : x ∈ V.nodes L l := by
      by_contra hc
      exact hxo (mem_outside.2 ⟨hx, hc⟩)
    have e := entries_rem hd1 hx (V.nodes L l) (outside g (V.nodes L l)) (fun u hu =>
      ⟨((hmem u).1 hu).1, fun hc => (mem_outside.1 hc).2 hu⟩) (LevelOk.win_nodup hO _ _)
    have e0 : g.remIn (outside g (V.nodes L l) ++ V.nodes L l) x = 0 := by
      rw [remIn_eq_zero]
      intro u hu
      have hun := (hwf.dep_lt hu).1
      by_cases hc : u ∈ V.nodes L l
      · exact List.mem_append_right _ hc
      · exact List.mem_append_left _ (mem_outside.2 ⟨hun, hc⟩)
    rw [e0, if_pos hxW] at e
    rw [hdeg x hx]
    change (entries g (V.nodes L l) x : Int) = _
    omega
  rw [wpm_bind]
  refine wpm_of_wp (wp_mono (bfs_window hwf hd1 hO (d := V.lo l) (c := min (V.lo (l + 1)) L)
    (by omega) (by omega) (S := outside g (V.nodes L l))
    (fun v hv hc => (mem_outside.1 hc).2 hv) ?_ hwl hdl hremout hv2 ?_ ?_ P.debug) ?_)
  · intro u v hd hv hu
    exact mem_outside.2 ⟨(hwf.dep_lt hd).1, fun hc => by have := (hmem u).1 hc; omega⟩
  · intro v hv
    have hv' := (hmem v).1 hv
    rw [hv2g v hv'.1, if_neg (by omega), hv1g v hv'.1, if_neg (by omega)]
    by_contra hc
    have := hpv.vis v hv'.1 (by simpa using hc)
    omega
  · intro v hv hvc
    have := hO.ntlLt v hv
    rw [hv2g v hv, if_pos (by omega)]
  · rintro s ⟨hs1, hs2, hs3, hs4, -, -⟩
    rw [wpm_bind]
    refine wpm_of_wp (wp_mono (markLevels_wp hO false true (Nat.le_refl L) hs3) ?_)
    rintro v3 ⟨hv3, hv3g⟩
    rw [wpm_bind]
    have hl' : l < V.sizes.length := by rw [h.slen]; exact hl
    refine wpm_of_wp (wp_mono (pack_wp (g := g) (n := g.n) hP.inner hP.sort hl'
      (h.spos _ (List.mem_of_getElem? (getElem?_getD 0 hl'))) ?_ hpv.nlen (leaves := (V.leaves l).length)
      (by omega) hleaves hs2) ?_)
    · split
      · rw [hP.lost]; exact ho
      · exact ho
    · rintro r ⟨hr1, hr2⟩
      rw [wpm_ok]
      refine ⟨⟨hv3, hL.len, ?_, hr1, ?_⟩, hr2⟩
      · dsimp only
        split
        · rw [hP.lost]; exact ho
        · exact ho
      · intro x hx hxv
        dsimp only at hxv
        rw [hv3g x hx] at hxv
        by_contra hge
        have := hO.ntlLt x hx
        rw [if_pos (by omega)] at hxv
        exact absurd hxv (by simp)

/-- Windows whose result is there. -/
def Done (g : Csc) (V : Wins) (L cnt : Nat) (binPack : Bool) (D : List Nat) (sh : Shared) : Prop :=
  sh.out.length = cnt ∧ sh.merged.length = cnt ∧
  ∀ l ∈ D, Good g (V.nodes L l) (V.leaves l).length (V.sizes.getD l 0) binPack (sh.out.getD l 0)
    (sh.merged.getD l [])

theorem runThread_wpm (hwf : g.WF) (hd1 : g.OneDiag) {V : Wins} (h : WinsOk g L cnt V) {P : Params K}
    (hP : ParamsOk P) {nodeCost : List K} (hcost : nodeCost.length = g.n)
    {t : Bool} (hT : t = true → ∀ l, l < cnt → CCFinish g V L P l) (large : Bool) (zero : K)
    {lab0 : List Int} (hlab : lab0.length = g.n) {ws : List Nat} (hws : ∀ l ∈ ws, l < cnt)
    (hinc : ws.Pairwise (· < ·)) {D : List Nat} {sh : Shared} (hsh : Done g V L cnt P.binPack D sh) :
    wpm t (runThread P g.n g.p g.i V nodeCost zero lab0 large ws sh)
      (Done g V L cnt P.binPack (D ++ ws)) := by
  unfold runThread
  rw [wpm_bind]
  have key := forEach_wpm (t := t) (fun p (s : Priv K × Shared) => Done g V L cnt P.binPack (D ++ p) s.2 ∧
      ∃ B, PvOk g V.node2Level B s.1 ∧ ∀ l, l < cnt → (∀ x ∈ p, x < l) → B ≤ V.lo l)
    (f := fun l (s : Priv K × Shared) => do
      let o ← process P g.n g.p g.i V nodeCost large l s.1
      let out ← wr s.2.out l o.2.1
      let merged ← wr s.2.merged l o.2.2
      ok (o.1, ⟨out, merged⟩)) ws []
    (⟨List.replicate g.n false, lab0, List.replicate g.n zero, List.replicate g.n zero⟩, sh)
    ⟨by simpa using hsh, 0, ⟨by simp, hlab, by simp, by simp, ?_⟩, by intros; omega⟩ ?_
  · refine wpm_mono key ?_
    rintro r ⟨hr, -⟩
    rw [wpm_ok]
    simpa using hr
  · intro x hx hxv
    dsimp only at hxv
    rw [getD_replicate _ _ _ _ hx] at hxv
    exact absurd hxv (by simp)
  · rintro p l q ⟨pv, s⟩ he ⟨⟨h1, h2, h3⟩, B, hpv, hB⟩
    rw [List.nil_append] at he
    dsimp only at h1 h2 h3 hpv ⊢
    have hl : l < cnt := hws l (by rw [he]; simp)
    have hpl : ∀ x ∈ p, x < l := by
      intro x hx
      rw [he, List.pairwise_append] at hinc
      exact hinc.2.2 x hx l (by simp)
    rw [wpm_bind]
    refine wpm_mono (process_wpm hwf hd1 h hP hcost hl (fun ht => hT ht l hl) large (hB l hl hpl) hpv) ?_
    rintro ⟨pv', out, merged⟩ ⟨g1, g2⟩
    dsimp only at g1 g2 ⊢
    rw [wr_eq (by omega), ok_bind, wr_eq (by omega), ok_bind, wpm_ok]
    refine ⟨⟨by simpa using h1, by simpa using h2, ?_⟩, V.lo (l + 1), g1, ?_⟩
    · intro x hx
      dsimp only
      rw [getD_set, getD_set]
      by_cases hxl : x = l
      · subst hxl
        rw [if_pos ⟨rfl, by omega⟩, if_pos ⟨rfl, by omega⟩]
        exact g2
      · rw [if_neg (by omega), if_neg (by omega)]
        apply h3
        rw [← List.append_assoc, List.mem_append, List.mem_singleton] at hx
        exact hx.resolve_right hxl
    · intro x hx hxp
      have := hxp l (by simp)
      exact h.lo_mono (by omega) (by omega)

theorem classify_wp {V : Wins} (h : WinsOk g L cnt V) :
    wp (classify V cnt) (fun r => r.1.Pairwise (· < ·) ∧ r.2.Pairwise (· < ·) ∧
      (∀ l ∈ r.1, l < cnt) ∧ (∀ l ∈ r.2, l < cnt) ∧ ∀ l, l < cnt → l ∈ r.1 ∨ l ∈ r.2) := by
  unfold classify
  refine forRange_wp' (fun k (r : List Nat × List Nat) => r.1.Pairwise (· < ·) ∧
    r.2.Pairwise (· < ·) ∧ (∀ l ∈ r.1, l < k) ∧ (∀ l ∈ r.2, l < k) ∧
    ∀ l, l < k → l ∈ r.1 ∨ l ∈ r.2) (Nat.zero_le _) (by simp) ?_ (fun _ h => h)
  rintro k ⟨a, b⟩ _ hk ⟨h1, h2, h3, h4, h5⟩
  obtain ⟨c1, c2, c3⟩ := h.lo_spec hk
  unfold windowCount
  rw [bounds_eq h.toWinsCore hk]
  simp only [ok_bind, wp_bind]
  refine wp_mono (windowCount_wp h.lvl h.long (by omega) (by omega) c3) ?_
  intro c _
  rw [wp_ok]
  have hpw : ∀ x : List Nat, x.Pairwise (· < ·) → (∀ l ∈ x, l < k) → (x ++ [k]).Pairwise (· < ·) := by
    intro x hx hxk
    rw [List.pairwise_append]
    refine ⟨hx, by simp, ?_⟩
    intro y hy z hz
    rw [List.mem_singleton] at hz
    rw [hz]; exact hxk y hy
  have hm : ∀ x : List Nat, (∀ l ∈ x, l < k) → ∀ l ∈ x ++ [k], l < k + 1 := by
    intro x hx l hl
    rcases List.mem_append.1 hl with hl | hl
    · have := hx l hl; omega
    · rw [List.mem_singleton] at hl; omega
  split
  · refine ⟨hpw a h1 h3, h2, hm a h3, fun l hl => by have := h4 l hl; omega, ?_⟩
    intro l hl
    rcases Nat.lt_or_ge l k with h6 | h6
    · rcases h5 l h6 with h7 | h7
      · exact .inl (by simp [h7])
      · exact .inr h7
    · exact .inl (by simp; omega)
  · refine ⟨h1, hpw b h2 h4, fun l hl => by have := h3 l hl; omega, hm b h4, ?_⟩
    intro l hl
    rcases Nat.lt_or_ge l k with h6 | h6
    · rcases h5 l h6 with h7 | h7
      · exact .inl h7
      · exact .inr (by simp [h7])
    · exact .inr (by simp; omega)

end
end Verif.Lbc
