import Verif.Model.LbcSeq
import Verif.Proof.LbcAll

/-! # `dfs_CSC_CC` -/

namespace Verif.Lbc
open Res Csc LevelSet Hdagg

variable {g : Csc} {m0 : List Int} {Pr : Nat → Prop}

/-- A neighbour that needs no search: found, or marked before, and then noted if it is marked with
`-1`. -/
def Seen (m0 : List Int) (T clash : List Nat) (i : Nat) : Prop :=
  i ∈ T ∨ (m0.getD i 0 ≠ 0 ∧ (m0.getD i 0 = -1 → i ∈ clash))

theorem Seen.mono {T T' c c' : List Nat} {i : Nat} (h : Seen m0 T c i) (hT : ∀ x ∈ T, x ∈ T')
    (hc : ∀ x ∈ c, x ∈ c') : Seen m0 T' c' i := by
  rcases h with h | ⟨h1, h2⟩
  · exact .inl (hT _ h)
  · exact .inr ⟨h1, fun h => hc _ (h2 h)⟩

theorem dfsScan_wp (hwf : g.WF) {T : List Nat} {marked : List Int} (hml : marked.length = g.n)
    (hmark : ∀ x, x < g.n → marked.getD x 0 = if x ∈ T then 1 else m0.getD x 0)
    {j p : Nat} (hj : j < g.n) (hPj : ∀ i ∈ g.col j, Pr i) (hp1 : g.ptr j ≤ p) (hp2 : p ≤ g.ptr (j + 1)) {c : List Nat} :
    wp (dfsScan g.i marked p (g.ptr (j + 1)) c) (Ctl.post
      (fun c' => (∀ x ∈ c, x ∈ c') ∧ (∀ x ∈ c', x ∈ c ∨ (x < g.n ∧ m0.getD x 0 = -1 ∧ Pr x)) ∧
        ∀ r, p ≤ r → r < g.ptr (j + 1) → Seen m0 T c' (g.idx r))
      (fun b => p ≤ b.1 ∧ b.1 < g.ptr (j + 1) ∧ g.idx b.1 = b.2.1 ∧ b.2.1 ∉ T ∧ m0.getD b.2.1 0 = 0 ∧
        (∀ x ∈ c, x ∈ b.2.2) ∧ (∀ x ∈ b.2.2, x ∈ c ∨ (x < g.n ∧ m0.getD x 0 = -1 ∧ Pr x)) ∧
        ∀ r, p ≤ r → r < b.1 → Seen m0 T b.2.2 (g.idx r))) := by
  unfold dfsScan
  refine forRangeB_wp (fun k c' => (∀ x ∈ c, x ∈ c') ∧
    (∀ x ∈ c', x ∈ c ∨ (x < g.n ∧ m0.getD x 0 = -1 ∧ Pr x)) ∧
    ∀ r, p ≤ r → r < k → Seen m0 T c' (g.idx r)) _ hp2 ?_ ?_
  · exact ⟨fun _ h => h, fun _ h => .inl h, fun r h1 h2 => by omega⟩
  · rintro k c' hk1 hk2 ⟨h1, h2, h3⟩
    have hle := hwf.mono_le (a := j + 1) (b := g.n) (by omega) (Nat.le_refl _)
    have hi := hwf.idx_lt hj (j := k) (by omega) hk2
    rw [hwf.rd_i (by omega), ok_bind, rd_getD 0 (by omega), ok_bind, hmark _ hi]
    by_cases hT : g.idx k ∈ T
    · rw [if_pos hT]
      simp only [show ¬ (1 : Int) = -1 by decide, show (1 : Int) ≠ 0 by decide, if_false, ne_eq,
        not_false_eq_true, if_true, wp_ok, Ctl.post_next]
      refine ⟨h1, h2, ?_⟩
      intro r hr1 hr2
      rcases Nat.lt_or_ge r k with h4 | h4
      · exact h3 r hr1 h4
      · obtain rfl : r = k := by omega
        exact .inl hT
    · rw [if_neg hT]
      dsimp only
      by_cases hz : m0.getD (g.idx k) 0 = 0
      · rw [if_neg (by omega), if_neg (by omega), wp_ok, Ctl.post_brk]
        exact ⟨hk1, hk2, rfl, hT, hz, h1, h2, h3⟩
      · rw [if_pos hz, wp_ok, Ctl.post_next]
        by_cases hm : m0.getD (g.idx k) 0 = -1
        · rw [if_pos hm]
          refine ⟨fun x hx => by simp [h1 x hx], ?_, ?_⟩
          · intro x hx
            rcases List.mem_append.1 hx with hx | hx
            · exact h2 x hx
            · rw [List.mem_singleton] at hx
              subst hx
              exact .inr ⟨hi, hm, hPj _ ((hwf.mem_col hj).2 ⟨k, by omega, hk2, rfl⟩)⟩
          · intro r hr1 hr2
            rcases Nat.lt_or_ge r k with h4 | h4
            · exact (h3 r hr1 h4).mono (fun _ h => h) (fun x hx => by simp [hx])
            · obtain rfl : r = k := by omega
              exact .inr ⟨hz, fun _ => by simp⟩
        · rw [if_neg hm]
          refine ⟨h1, h2, ?_⟩
          intro r hr1 hr2
          rcases Nat.lt_or_ge r k with h4 | h4
          · exact h3 r hr1 h4
          · obtain rfl : r = k := by omega
            exact .inr ⟨hz, fun h => absurd h hm⟩

/-- The search: the stack `st`, of which the first `bk` nodes are marked, and the output `out`. -/
structure DInv (g : Csc) (m0 : List Int) (Pr : Nat → Prop) (j0 bk : Nat) (st out : List Nat)
    (s : Dfs) : Prop where
  size : st.length = s.size
  top : out.length + s.top = g.n
  xiLen : s.xi.length = g.n
  psLen : s.ps.length = g.n
  mLen : s.marked.length = g.n
  stk : st <+: s.xi
  outEq : s.xi.drop s.top = out
  nodup : (st ++ out).Nodup
  mem : ∀ v ∈ st ++ out, v < g.n ∧ m0.getD v 0 = 0 ∧ Pr v
  start : j0 ∈ st ++ out
  mark : ∀ x, x < g.n → s.marked.getD x 0 = if x ∈ st.take bk ++ out then 1 else m0.getD x 0
  done : ∀ v ∈ out, ∀ i ∈ g.col v, Seen m0 (st ++ out) s.clash i
  pause : ∀ k v, k < bk → st[k]? = some v → g.ptr v ≤ s.ps.getD k 0 ∧ s.ps.getD k 0 ≤ g.ptr (v + 1) ∧
    ∀ r, g.ptr v ≤ r → r < s.ps.getD k 0 → Seen m0 (st ++ out) s.clash (g.idx r)
  clash : ∀ x ∈ s.clash, x < g.n ∧ m0.getD x 0 = -1 ∧ Pr x

/-- Marking the node on the stack. -/
theorem DInv.enter {j0 bk : Nat} {st out : List Nat} {s : Dfs} {j : Nat} (hwf : g.WF)
    (h : DInv g m0 Pr j0 bk (st ++ [j]) out s) (hbk : bk = st.length ∨ bk = st.length + 1) :
    wp (do
      let m ← rd s.marked j
      if m = 0 then do
        let marked ← wr s.marked j 1
        let p ← rd g.p j
        let ps ← wr s.ps (s.size - 1) p
        ok (marked, ps)
      else ok (s.marked, s.ps) : Res (List Int × List Nat)) (fun r =>
      DInv g m0 Pr j0 (st.length + 1) (st ++ [j]) out { s with marked := r.1, ps := r.2 }) := by
  have hj := h.mem j (by simp)
  have hsz := h.size
  rw [List.length_append, List.length_singleton] at hsz
  have hnd := h.nodup
  have hjn : j ∉ st ∧ j ∉ out := by
    rw [List.append_assoc, List.nodup_append] at hnd
    have h1 := hnd.2.1
    rw [List.singleton_append, List.nodup_cons] at h1
    exact ⟨fun hc => hnd.2.2 j hc j (by simp) rfl, h1.1⟩
  have hlen : st.length < g.n := by
    have h1 := h.stk.length_le
    rw [List.length_append, List.length_singleton, h.xiLen] at h1
    omega
  have hml := h.mLen
  have hpl := h.psLen
  rw [rd_getD 0 (by omega), ok_bind, h.mark j hj.1]
  rcases hbk with rfl | rfl
  · have htk : (st ++ [j]).take st.length = st := by simp
    have hnj : j ∉ st ++ out := by simp [hjn]
    rw [htk, if_neg hnj, if_pos hj.2.1, wr_eq (by omega), ok_bind, hwf.rd_p (by omega),
      ok_bind, wr_eq (by omega), ok_bind, wp_ok]
    refine ⟨h.size, h.top, h.xiLen, by simpa using h.psLen, by simpa using h.mLen, h.stk, h.outEq,
      h.nodup, h.mem, h.start, ?_, h.done, ?_, h.clash⟩
    · intro x hx
      dsimp only
      rw [getD_set, h.mark x hx, htk, List.take_of_length_le (by simp)]
      by_cases hxj : x = j
      · subst hxj
        rw [if_pos ⟨rfl, by omega⟩, if_pos (by simp)]
      · rw [if_neg (by omega)]
        simp [hxj]
    · intro k v hk hv
      dsimp only
      rw [getD_set]
      by_cases hk' : k = st.length
      · subst hk'
        rw [List.getElem?_append_right (Nat.le_refl _)] at hv
        obtain rfl : j = v := by simpa using hv
        rw [if_pos ⟨by omega, by omega⟩]
        refine ⟨Nat.le_refl _, hwf.mono j hj.1, fun r h1 h2 => by omega⟩
      · rw [if_neg (by omega)]
        exact h.pause k v (by omega) hv
  · have htk : (st ++ [j]).take (st.length + 1) = st ++ [j] := List.take_of_length_le (by simp)
    have hij : j ∈ st ++ [j] ++ out := by simp
    rw [htk, if_pos hij, if_neg (by decide), wp_ok]
    exact h

theorem dfsStep_wp (hwf : g.WF) (hPr : ∀ v, v < g.n → Pr v → ∀ i ∈ g.col v, Pr i) {j0 bk : Nat}
    {st out : List Nat} {s : Dfs} (h : DInv g m0 Pr j0 bk st out s)
    (hbk : bk = st.length ∨ bk + 1 = st.length) (hs : s.size ≠ 0) :
    wp (dfsStep g.p g.i s) (fun s' => (∃ bk' st' out', DInv g m0 Pr j0 bk' st' out' s' ∧
      (bk' = st'.length ∨ bk' + 1 = st'.length)) ∧ 2 * s'.top - s'.size < 2 * s.top - s.size) := by
  have hsz := h.size
  obtain ⟨st, j, rfl⟩ : ∃ st0 j, st = st0 ++ [j] := by
    have hne : st ≠ [] := by rintro rfl; simp at hsz; omega
    exact ⟨st.dropLast, st.getLast hne, (List.dropLast_append_getLast hne).symm⟩
  rw [List.length_append, List.length_singleton] at hsz
  unfold dfsStep
  have hread : rd s.xi (s.size - 1) = ok j := by
    rw [rd_prefix h.stk 0 (by simp; omega), ← hsz, Nat.add_sub_cancel,
      getD_append_right _ _ _ (Nat.le_refl _), Nat.sub_self]
    rfl
  rw [if_neg hs, hread, ok_bind]
  have henter := h.enter hwf (by rw [List.length_append, List.length_singleton] at hbk; omega)
  obtain ⟨⟨marked, ps⟩, he, hE⟩ := wp_iff.1 henter
  have hassoc : ∀ {β : Type} (f : List Int × List Nat → Res β), (rd s.marked j >>= fun m =>
      (if m = 0 then (wr s.marked j 1 >>= fun marked => rd g.p j >>= fun p =>
        wr s.ps (s.size - 1) p >>= fun ps => ok (marked, ps)) else ok (s.marked, s.ps)) >>= f)
      = f (marked, ps) := by
    intro β f
    have h1 : rd s.marked j = ok (s.marked.getD j 0) := by
      have := h.mLen
      have := (h.mem j (by simp)).1
      exact rd_getD 0 (by omega)
    rw [h1, ok_bind] at he ⊢
    rw [he, ok_bind]
  refine (congrArg (fun r => wp r _) (hassoc _)).mpr ?_
  clear hassoc henter he
  dsimp only
  have hj := h.mem j (by simp)
  have hmj := hE.mark j hj.1
  rw [List.take_of_length_le (by simp), if_pos (by simp)] at hmj
  have hmj' : marked.getD j 0 = 1 := hmj
  have hml : marked.length = g.n := hE.mLen
  have hpl : ps.length = g.n := hE.psLen
  have htop := h.top
  have hle2 : st.length + 1 + out.length ≤ g.n := by
    have h1 : (st ++ [j] ++ out).length ≤ (List.range g.n).length :=
      (List.subperm_of_subset h.nodup fun v hv => List.mem_range.2 (h.mem v hv).1).length_le
    simp at h1
    omega
  rw [rd_getD 0 (by omega), ok_bind, hmj', if_neg (by decide), hwf.rd_p (by omega), ok_bind,
    rd_getD 0 (by omega), ok_bind, wp_bind]
  obtain ⟨hp1, hp2, hp3⟩ := hE.pause st.length j (by omega) (by simp)
  have hps : s.size - 1 = st.length := by omega
  rw [hps]
  dsimp only at hp1 hp2 hp3
  have hmk : ∀ x, x < g.n → marked.getD x 0 = if x ∈ st ++ [j] ++ out then 1 else m0.getD x 0 := by
    intro x hx
    have := hE.mark x hx
    rw [List.take_of_length_le (by simp)] at this
    exact this
  refine wp_mono (dfsScan_wp hwf hml hmk hj.1 (hPr j hj.1 hj.2.2) hp1 hp2) ?_
  rintro (c' | ⟨p, i, c'⟩) hr
  · rw [Ctl.post_next] at hr
    obtain ⟨c1, c2, c3⟩ := hr
    have hxl := h.xiLen
    dsimp only
    rw [if_neg (by omega), wr_eq (by omega), ok_bind, wp_ok]
    have hsub : ∀ x ∈ st ++ [j] ++ out, x ∈ st ++ j :: out := by intro x hx; simpa using hx
    refine ⟨⟨st.length, st, j :: out, ⟨by dsimp only, by simp; omega, by simpa using hxl, hpl, hml, ?_, ?_,
      by simpa using h.nodup, fun v hv => h.mem v (by simpa using hv), by simpa using h.start, ?_, ?_,
      ?_, ?_⟩, .inl rfl⟩, by dsimp only; omega⟩
    · obtain ⟨t, ht⟩ := h.stk
      dsimp only
      have h1 : st <+: s.xi := ⟨j :: t, by rw [← ht]; simp⟩
      rw [List.prefix_iff_eq_take] at h1 ⊢
      rw [List.take_set_of_le (by omega)]
      exact h1
    · dsimp only
      have h1 := List.drop_eq_getElem_cons (l := s.xi.set (s.top - 1) j) (i := s.top - 1) (by simp; omega)
      rw [h1, List.getElem_set_self, show s.top - 1 + 1 = s.top by omega, List.drop_set_of_lt (by omega), h.outEq]
    · intro x hx
      dsimp only
      rw [hmk x hx, List.take_length]
      simp
    · intro v hv x hx
      rcases List.mem_cons.1 hv with rfl | hv
      · obtain ⟨r, h1, h2, rfl⟩ := (hwf.mem_col hj.1).1 hx
        rcases Nat.lt_or_ge r (ps.getD st.length 0) with h3 | h3
        · exact (hp3 r h1 h3).mono hsub c1
        · exact (c3 r h3 h2).mono hsub (fun _ h => h)
      · exact (h.done v hv x hx).mono hsub c1
    · intro k v hk hv
      obtain ⟨q1, q2, q3⟩ := hE.pause k v (by omega) (by rw [List.getElem?_append_left hk]; exact hv)
      exact ⟨q1, q2, fun r h1 h2 => (q3 r h1 h2).mono hsub c1⟩
    · intro x hx
      rcases c2 x hx with h1 | h1
      · exact h.clash x h1
      · exact h1
  · rw [Ctl.post_brk] at hr
    obtain ⟨b1, b2, b3, b4, b5, b6, b7, b8⟩ := hr
    dsimp only at b1 b2 b3 b4 b5 b6 b7 b8 ⊢
    have hxl := h.xiLen
    have hi : i < g.n := by rw [← b3]; exact hwf.idx_lt hj.1 (by omega) b2
    have hnd' : (st ++ [j] ++ [i] ++ out).Nodup := by
      have h1 : (i :: (st ++ [j] ++ out)).Nodup := List.nodup_cons.2 ⟨b4, h.nodup⟩
      refine (List.Perm.nodup_iff ?_).1 h1
      rw [List.append_assoc (st ++ [j]) [i] out]
      exact List.perm_middle.symm
    have hmem' : ∀ v ∈ st ++ [j] ++ [i] ++ out, v < g.n ∧ m0.getD v 0 = 0 ∧ Pr v := by
      intro v hv
      by_cases hvi : v = i
      · subst hvi
        refine ⟨hi, b5, hPr j hj.1 hj.2.2 v ?_⟩
        exact (hwf.mem_col hj.1).2 ⟨p, by omega, b2, b3⟩
      · exact h.mem v (by simpa [hvi] using hv)
    have hlen' : st.length + 2 + out.length ≤ g.n := by
      have h1 : (st ++ [j] ++ [i] ++ out).length ≤ (List.range g.n).length :=
        (List.subperm_of_subset hnd' fun v hv => List.mem_range.2 (hmem' v hv).1).length_le
      simp at h1
      omega
    rw [wr_eq (by omega), ok_bind, wr_eq (by omega), ok_bind, wp_ok]
    have hsub : ∀ x ∈ st ++ [j] ++ out, x ∈ st ++ [j] ++ [i] ++ out := by
      intro x hx; simp at hx ⊢; tauto
    refine ⟨⟨st.length + 1, st ++ [j] ++ [i], out, ⟨by simp; omega, htop, by simpa using hxl,
      by simpa using hpl, hml, ?_, ?_, hnd', hmem', hsub _ h.start, ?_, ?_, ?_, ?_⟩, .inr (by simp)⟩,
      by dsimp only; omega⟩
    · dsimp only
      obtain ⟨l', w1, w2, -⟩ := wr_prefix h.stk (by simp; omega) i
      have h2 : (st ++ [j]).length = s.size := by simp; omega
      rw [h2, wr_eq (by omega)] at w1
      cases w1
      exact w2
    · dsimp only
      rw [List.drop_set_of_lt (by omega)]
      exact h.outEq
    · intro x hx
      dsimp only
      rw [hmk x hx, List.take_append_of_le_length (by simp), List.take_of_length_le (by simp)]
    · intro v hv x hx
      exact (h.done v hv x hx).mono hsub b6
    · intro k v hk hv
      dsimp only
      rw [getD_set]
      rw [List.getElem?_append_left (by simp; omega)] at hv
      obtain ⟨q1, q2, q3⟩ := hE.pause k v (by omega) hv
      dsimp only at q1 q2 q3
      by_cases hk' : k = st.length
      · subst hk'
        rw [List.getElem?_append_right (Nat.le_refl _)] at hv
        obtain rfl : j = v := by simpa using hv
        rw [if_pos ⟨rfl, by omega⟩]
        refine ⟨by omega, by omega, ?_⟩
        intro r h1 h2
        rcases Nat.lt_or_ge r (ps.getD st.length 0) with h3 | h3
        · exact (hp3 r h1 h3).mono hsub b6
        · exact (b8 r h3 h2).mono hsub (fun _ h => h)
      · rw [if_neg (by omega)]
        exact ⟨q1, q2, fun r h1 h2 => (q3 r h1 h2).mono hsub b6⟩
    · intro x hx
      rcases b7 x hx with h1 | h1
      · exact h.clash x h1
      · exact h1

/-- What a search finds. -/
structure Found (g : Csc) (m0 : List Int) (Pr : Nat → Prop) (j0 : Nat) (s : Dfs) : Prop where
  top : s.top ≤ g.n
  xiLen : s.xi.length = g.n
  psLen : s.ps.length = g.n
  mLen : s.marked.length = g.n
  nodup : (s.xi.drop s.top).Nodup
  mem : ∀ v ∈ s.xi.drop s.top, v < g.n ∧ m0.getD v 0 = 0 ∧ Pr v
  start : j0 ∈ s.xi.drop s.top
  mark : ∀ x, x < g.n → s.marked.getD x 0 = if x ∈ s.xi.drop s.top then 1 else m0.getD x 0
  done : ∀ v ∈ s.xi.drop s.top, ∀ i ∈ g.col v, Seen m0 (s.xi.drop s.top) s.clash i
  clash : ∀ x ∈ s.clash, x < g.n ∧ m0.getD x 0 = -1 ∧ Pr x

theorem dfsCC_wp (hwf : g.WF) (hPr : ∀ v, v < g.n → Pr v → ∀ i ∈ g.col v, Pr i) {j0 : Nat}
    (hj : j0 < g.n) (hj0 : m0.getD j0 0 = 0) (hjP : Pr j0) (hm : m0.length = g.n) {xi ps : List Nat}
    (hxi : xi.length = g.n) (hps : ps.length = g.n) :
    wp (dfsCC g.n g.p g.i j0 m0 xi ps) (Found g m0 Pr j0) := by
  unfold dfsCC
  rw [wr_eq (by omega), ok_bind]
  refine whileF_wp (fun s => ∃ bk st out, DInv g m0 Pr j0 bk st out s ∧
      (bk = st.length ∨ bk + 1 = st.length)) (fun s => 2 * s.top - s.size) ?_ _ _ ?_ ?_
  · rintro s ⟨bk, st, out, h, hbk⟩
    rw [wp_ok]
    by_cases hs : s.size = 0
    · have h0 := h.size
      rw [hs, List.length_eq_zero_iff] at h0
      subst h0
      have hb : bk = 0 := by simp at hbk; omega
      subst hb
      have ho := h.outEq
      subst ho
      have ht := h.top
      rw [if_neg (by simp [hs])]
      refine ⟨by omega, h.xiLen, h.psLen, h.mLen, by simpa using h.nodup, by simpa using h.mem,
        by simpa using h.start, by simpa using h.mark, by simpa using h.done, h.clash⟩
    · rw [if_pos (by simp [hs])]
      have h1 := h.top
      have h2 := h.size
      have h3 : (st ++ out).length ≤ (List.range g.n).length :=
        (List.subperm_of_subset h.nodup fun v hv => List.mem_range.2 (h.mem v hv).1).length_le
      rw [List.length_append, List.length_range] at h3
      exact ⟨by omega, dfsStep_wp hwf hPr h hbk hs⟩
  · dsimp only; omega
  · refine ⟨0, [j0], [], ⟨rfl, by simp, by simpa using hxi, hps, hm, ?_, ?_, by simp, ?_, by simp,
      by simp, by simp, by intro k v hk; omega, by simp⟩, .inr rfl⟩
    · cases xi with
      | nil => simp at hxi; omega
      | cons a t => exact ⟨t, rfl⟩
    · dsimp only
      exact List.drop_eq_nil_of_le (by simp; omega)
    · intro v hv
      obtain rfl : v = j0 := by simpa using hv
      exact ⟨hj, hj0, hjP⟩

end Verif.Lbc
