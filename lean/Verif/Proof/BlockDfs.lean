import Verif.Proof.BlockCsc
import Verif.Proof.LbcDfs

/-! # `dfs_BCSC_CC` -/

namespace Verif.Blocked
open Res Csc BlockCsc Lbc

variable {M : BlockCsc}

/-! ### The loop over the rows -/

theorem scan_body (h : M.WF) {k t : Nat} (hk : k < M.base M.n) (ht : M.InBlock (M.rows.getD k 0) t)
    {marked : List Int} (hm : marked.length = M.n) (c : List Nat) :
    (do
      let i ← rd M.rows k
      let t ← rd M.blk i
      let _ ← rd M.first (t + 1)
      let _ ← rd M.first t
      let m ← rd marked t
      let clash := if m = -1 then c ++ [t] else c
      if m ≠ 0 then ok (.next clash) else ok (.brk (k, i, clash)) :
        Res (Ctl (List Nat) (Nat × Nat × List Nat))) =
      (let c' := if marked.getD t 0 = -1 then c ++ [t] else c
       if marked.getD t 0 ≠ 0 then ok (.next c') else ok (.brk (k, M.rows.getD k 0, c'))) ∧
    (do
      let i ← rd M.raw.i k
      let m ← rd marked i
      let clash := if m = -1 then c ++ [i] else c
      if m ≠ 0 then ok (.next clash) else ok (.brk (k, i, clash)) :
        Res (Ctl (List Nat) (Nat × Nat × List Nat))) =
      (let c' := if marked.getD t 0 = -1 then c ++ [t] else c
       if marked.getD t 0 ≠ 0 then ok (.next c') else ok (.brk (k, t, c'))) := by
  have hr := h.rowsLen
  have htn := ht.1
  constructor
  · rw [rd_getD 0 (by omega), ok_bind, ht.rd_blk h, ok_bind, h.rd_first (by omega), ok_bind,
      h.rd_first (by omega), ok_bind, rd_getD 0 (by omega), ok_bind]
  · have h1 : rd M.raw.i k = ok t := by
      rw [rd_getD 0 (by simp [BlockCsc.raw]; omega)]
      have := h.raw_idx hk
      rw [blkOf, h.blk _ t ht] at this
      exact congrArg ok this
    rw [h1, ok_bind, rd_getD 0 (by omega), ok_bind]

theorem scan_sim (h : M.WF) {v : Nat} (hv : v < M.n) {marked : List Int} (hm : marked.length = M.n)
    {lo : Nat} (hlo : M.base v ≤ lo) (clash : List Nat) :
    (∃ c, dfsScan M marked lo (M.base (v + 1)) clash = ok (.next c) ∧
      Lbc.dfsScan M.raw.i marked lo (M.base (v + 1)) clash = ok (.next c)) ∨
    ∃ p i t c, dfsScan M marked lo (M.base (v + 1)) clash = ok (.brk (p, i, c)) ∧
      Lbc.dfsScan M.raw.i marked lo (M.base (v + 1)) clash = ok (.brk (p, t, c)) ∧
      M.InBlock i t ∧ marked.getD t 0 = 0 ∧ lo ≤ p := by
  have hb := h.base_le (a := v + 1) (b := M.n) (by omega) (Nat.le_refl _)
  unfold dfsScan Lbc.dfsScan forRangeB
  obtain ⟨n, hn⟩ : ∃ n, n = M.base (v + 1) - lo := ⟨_, rfl⟩
  rw [← hn]
  induction n generalizing lo clash with
  | zero => exact .inl ⟨clash, rfl, rfl⟩
  | succ n ih =>
    obtain ⟨t, ht⟩ := h.row hv (k := lo) hlo (by omega)
    obtain ⟨h1, h2⟩ := scan_body h (k := lo) (by omega) ht hm clash
    unfold forNB
    beta_reduce
    rw [h1, h2]
    dsimp only
    by_cases hz : marked.getD t 0 = 0
    · rw [if_neg (c := marked.getD t 0 ≠ 0) (fun hc => hc hz), if_neg (c := marked.getD t 0 ≠ 0) (fun hc => hc hz),
        ok_bind, ok_bind]
      exact .inr ⟨lo, _, t, _, rfl, rfl, ht, hz, Nat.le_refl _⟩
    · rw [if_pos hz, if_pos hz, ok_bind, ok_bind]
      rcases ih (lo := lo + 1) (by omega) (if marked.getD t 0 = -1 then clash ++ [t] else clash)
        (by omega) with ⟨c, h3, h4⟩ | ⟨p, i, t', c, h3, h4, h5, h6, h7⟩
      · exact .inl ⟨c, h3, h4⟩
      · exact .inr ⟨p, i, t', c, h3, h4, h5, h6, by omega⟩

/-- The rows of the diagonal block have no effect. -/
theorem scan_skip (h : M.WF) {v : Nat} (hv : v < M.n) {marked : List Int} (hm : marked.length = M.n)
    (hmv : marked.getD v 0 = 1) {a : Nat} (ha : M.base v ≤ a) (ha2 : a ≤ M.base v + M.width v)
    (clash : List Nat) :
    Lbc.dfsScan M.raw.i marked (M.base v) (M.base (v + 1)) clash =
      Lbc.dfsScan M.raw.i marked a (M.base (v + 1)) clash := by
  obtain ⟨k, rfl⟩ : ∃ k, a = M.base v + k := ⟨a - M.base v, by omega⟩
  clear ha
  have hb := h.base_le (a := v + 1) (b := M.n) (by omega) (Nat.le_refl _)
  have hroom := h.room v hv
  induction k with
  | zero => rfl
  | succ k ih =>
    rw [ih (by omega)]
    have hd := h.diag v hv k (by omega)
    obtain ⟨-, h2⟩ := scan_body h (k := M.base v + k) (by omega) hd hm clash
    conv_lhs => unfold Lbc.dfsScan forRangeB
    rw [show M.base (v + 1) - (M.base v + k) = M.base (v + 1) - (M.base v + (k + 1)) + 1 by omega]
    unfold forNB
    beta_reduce
    rw [h2]
    dsimp only
    rw [hmv, if_pos (by decide), if_neg (by decide), ok_bind]
    rfl

/-! ### The steps -/

/-- The states of the search on the stored matrix and of the search on its graph. -/
structure Sim (M : BlockCsc) (s s' : Dfs) : Prop where
  size : s.size = s'.size
  top : s.top = s'.top
  marked : s.marked = s'.marked
  clash : s.clash = s'.clash
  xiLen : s.xi.length = M.n
  psLen : s.ps.length = M.n
  xiLen' : s'.xi.length = M.n
  psLen' : s'.ps.length = M.n
  mLen : s.marked.length = M.n
  stack : ∀ k, k < s.size → M.InBlock (s.xi.getD k 0) (s'.xi.getD k 0)
  out : s.xi.drop s.top = s'.xi.drop s'.top
  pause : ∀ k, k < s.size → (k + 1 < s.size ∨ s.marked.getD (s'.xi.getD k 0) 0 ≠ 0) →
    s.ps.getD k 0 = s'.ps.getD k 0 ∧ M.base (s'.xi.getD k 0) ≤ s.ps.getD k 0

/-- A step after the marking. -/
def dfsTail (M : BlockCsc) (s : Dfs) (v : Nat) (marked : List Int) (ps : List Nat) : Res Dfs := do
  let m ← rd marked v
  let clash := if m = -1 then s.clash ++ [v] else s.clash
  let nxt ← rd M.first (v + 1)
  let _ ← rd M.first v
  let p ← rd ps (s.size - 1)
  let p2 ← rd M.ptr nxt
  let r ← dfsScan M marked p p2 clash
  match r with
  | .brk (p, i, clash) => do
    let ps ← wr ps (s.size - 1) p
    let xi ← wr s.xi s.size i
    ok ⟨s.size + 1, s.top, xi, ps, marked, clash⟩
  | .next clash =>
    if s.top = 0 then ub else do
    let xi ← wr s.xi (s.top - 1) v
    ok ⟨s.size - 1, s.top - 1, xi, ps, marked, clash⟩

/-- The same for the search on a graph. -/
def dfsTail' (Gp Gi : List Nat) (s : Dfs) (j : Nat) (marked : List Int) (ps : List Nat) : Res Dfs := do
  let m ← rd marked j
  let clash := if m = -1 then s.clash ++ [j] else s.clash
  let p2 ← rd Gp (j + 1)
  let p ← rd ps (s.size - 1)
  let r ← Lbc.dfsScan Gi marked p p2 clash
  match r with
  | .brk (p, i, clash) => do
    let ps ← wr ps (s.size - 1) p
    let xi ← wr s.xi s.size i
    ok ⟨s.size + 1, s.top, xi, ps, marked, clash⟩
  | .next clash =>
    if s.top = 0 then ub else do
    let xi ← wr s.xi (s.top - 1) j
    ok ⟨s.size - 1, s.top - 1, xi, ps, marked, clash⟩

theorem tail_sim (h : M.WF) {s s' s'' : Dfs} (hs : Sim M s s') (h0 : s.size ≠ 0) (hle : s.size ≤ s.top)
    {marked : List Int} (hm : marked.length = M.n) {ps ps' : List Nat} (hpl : ps.length = M.n)
    (hpl' : ps'.length = M.n) {v : Nat} (hv : v = s'.xi.getD (s.size - 1) 0)
    (hpv : M.base v ≤ ps.getD (s.size - 1) 0)
    (hold : ∀ k, k + 1 < s.size → ps.getD k 0 = s.ps.getD k 0 ∧ ps'.getD k 0 = s'.ps.getD k 0)
    (hscan : ∀ c, Lbc.dfsScan M.raw.i marked (ps'.getD (s.size - 1) 0) (M.base (v + 1)) c =
      Lbc.dfsScan M.raw.i marked (ps.getD (s.size - 1) 0) (M.base (v + 1)) c)
    (he : dfsTail' M.raw.p M.raw.i s' v marked ps' = ok s'') (hle' : s''.size ≤ s''.top) :
    ∃ t, dfsTail M s v marked ps = ok t ∧ Sim M t s'' := by
  have hst := hs.stack (s.size - 1) (by omega)
  rw [← hv] at hst
  have hvn := hst.1
  have hxl := hs.xiLen
  have hxl' := hs.xiLen'
  have hsz := hs.size
  have htp := hs.top
  have hout := hs.out
  have hsn : s.size ≤ M.n ∨ M.n < s.top := by omega
  unfold dfsTail' at he
  rw [rd_getD 0 (by omega), ok_bind, h.raw.rd_p (k := v + 1) (by exact hvn), ok_bind,
    raw_ptr (by omega), ← hsz] at he
  by_cases hsn : s.size - 1 < M.n
  swap
  · have : rd ps' (s.size - 1) = ub := by
      unfold rd
      rw [List.getElem?_eq_none (by omega)]
    rw [this] at he
    cases he
  rw [rd_getD 0 (by omega), ok_bind, hscan] at he
  unfold dfsTail
  rw [rd_getD 0 (by omega), ok_bind, h.rd_first (by omega), ok_bind, h.rd_first (by omega), ok_bind,
    rd_getD 0 (by omega), ok_bind, h.rd_base (by omega), ok_bind]
  rw [hs.clash]
  rcases scan_sim h hvn hm hpv (if marked.getD v 0 = -1 then s'.clash ++ [v] else s'.clash) with
    ⟨c, h1, h2⟩ | ⟨p, i, t, c, h1, h2, h3, h4, h5⟩
  · rw [h2, ok_bind] at he
    rw [h1, ok_bind]
    dsimp only at he ⊢
    by_cases ht0 : s'.top = 0
    · rw [if_pos ht0] at he
      cases he
    rw [if_neg ht0] at he
    rw [if_neg (by omega)]
    by_cases htn : s'.top - 1 < M.n
    swap
    · have : wr s'.xi (s'.top - 1) v = ub := by
        unfold wr
        rw [if_neg (by omega)]
      rw [this] at he
      cases he
    rw [wr_eq (by omega), ok_bind] at he
    rw [wr_eq (by omega), ok_bind]
    cases he
    refine ⟨_, rfl, ⟨rfl, by dsimp only; omega, rfl, rfl, by simpa using hxl, hpl, by simpa using hxl', hpl',
      hm, ?_, ?_, ?_⟩⟩
    · intro k hk
      dsimp only at hk ⊢
      rw [getD_set, getD_set, if_neg (by omega), if_neg (by omega)]
      exact hs.stack k (by omega)
    · dsimp only
      rw [List.drop_eq_getElem_cons (by simp; omega), List.getElem_set_self,
        List.drop_eq_getElem_cons (l := s'.xi.set (s'.top - 1) v) (by simp; omega), List.getElem_set_self,
        List.drop_set_of_lt (by omega), List.drop_set_of_lt (by omega),
        show s.top - 1 + 1 = s.top by omega, show s'.top - 1 + 1 = s'.top by omega, hout]
    · intro k hk _
      dsimp only at hk ⊢
      rw [getD_set, if_neg (by omega), (hold k (by omega)).1, (hold k (by omega)).2]
      exact hs.pause k (by omega) (.inl (by omega))
  · rw [h2, ok_bind] at he
    rw [h1, ok_bind]
    dsimp only at he ⊢
    rw [wr_eq (by omega), ok_bind] at he
    rw [wr_eq (by omega), ok_bind]
    by_cases htn : s.size < M.n
    swap
    · have : wr s'.xi s.size t = ub := by
        unfold wr
        rw [if_neg (by omega)]
      rw [this] at he
      cases he
    rw [wr_eq (by omega), ok_bind] at he
    rw [wr_eq (by omega), ok_bind]
    cases he
    dsimp only at hle'
    refine ⟨_, rfl, ⟨rfl, htp, rfl, rfl, by simpa using hxl, by simpa using hpl, by simpa using hxl',
      by simpa using hpl', hm, ?_, ?_, ?_⟩⟩
    · intro k hk
      dsimp only at hk ⊢
      rw [getD_set, getD_set]
      by_cases hks : k = s.size
      · rw [if_pos ⟨by omega, by omega⟩, if_pos ⟨by omega, by omega⟩]
        exact h3
      · rw [if_neg (by omega), if_neg (by omega)]
        exact hs.stack k (by omega)
    · dsimp only
      rw [List.drop_set_of_lt (by omega), List.drop_set_of_lt (by omega), hout]
    · intro k hk hc
      dsimp only at hk hc ⊢
      rw [getD_set] at hc
      rw [getD_set, getD_set, getD_set]
      by_cases hks : k = s.size
      · rw [if_pos ⟨by omega, by omega⟩] at hc
        rcases hc with hc | hc
        · omega
        · exact absurd h4 hc
      · rw [if_neg (c := s.size = k ∧ s.size < s'.xi.length) (by omega)]
        by_cases hks1 : k = s.size - 1
        · rw [if_pos ⟨by omega, by omega⟩, if_pos ⟨by omega, by omega⟩, hks1, ← hv]
          exact ⟨rfl, by omega⟩
        · rw [if_neg (by omega), if_neg (by omega), (hold k (by omega)).1, (hold k (by omega)).2]
          exact hs.pause k (by omega) (.inl (by omega))

theorem step_sim (h : M.WF) {s s' s'' : Dfs} (hs : Sim M s s') (h0 : s.size ≠ 0) (hle : s.size ≤ s.top)
    (hsn : s.size ≤ M.n)
    (he : Lbc.dfsStep M.raw.p M.raw.i s' = ok s'') (hle' : s''.size ≤ s''.top) :
    ∃ t, dfsStep M s = ok t ∧ Sim M t s'' := by
  have hst := hs.stack (s.size - 1) (by omega)
  obtain ⟨v, hv⟩ : ∃ v, v = s'.xi.getD (s.size - 1) 0 := ⟨_, rfl⟩
  rw [← hv] at hst
  have hvn := hst.1
  have hxl := hs.xiLen
  have hxl' := hs.xiLen'
  have hsz := hs.size
  have hml := hs.mLen
  have hpl := hs.psLen
  have hpl' := hs.psLen'
  have hmk := hs.marked
  have hin := h.inner _ _ hst
  have hlt := hst.lt h
  have hpt := h.ptrLen
  unfold Lbc.dfsStep at he
  unfold dfsStep
  rw [if_neg (by omega), ← hsz, rd_getD 0 (by omega), ok_bind, ← hv, ← hmk, rd_getD 0 (by omega), ok_bind] at he
  rw [if_neg h0, rd_getD 0 (by omega), ok_bind, hst.rd_blk h, ok_bind, rd_getD 0 (by omega), ok_bind]
  by_cases hm0 : s.marked.getD v 0 = 0
  · rw [if_pos hm0, wr_eq (by omega), ok_bind, h.raw.rd_p (k := v) (by exact Nat.le_of_lt hvn), ok_bind,
      wr_eq (by omega), ok_bind, ok_bind, raw_ptr (by omega)] at he
    rw [if_pos hm0, wr_eq (by omega), ok_bind, rd_getD 0 (by omega), ok_bind, wr_eq (by omega), ok_bind,
      ok_bind]
    have hg1 : (s.ps.set (s.size - 1) (M.ptr.getD (s.xi.getD (s.size - 1) 0) 0)).getD (s.size - 1) 0 =
        M.ptr.getD (s.xi.getD (s.size - 1) 0) 0 := by
      rw [getD_set, if_pos ⟨rfl, by omega⟩]
    have hg2 : (s'.ps.set (s.size - 1) (M.base v)).getD (s.size - 1) 0 = M.base v := by
      rw [getD_set, if_pos ⟨rfl, by omega⟩]
    refine tail_sim (ps := s.ps.set (s.size - 1) (M.ptr.getD (s.xi.getD (s.size - 1) 0) 0))
      (ps' := s'.ps.set (s.size - 1) (M.base v)) (marked := s.marked.set v 1) h hs h0 hle
      (by simpa using hml) (by simpa using hpl) (by simpa using hpl') hv ?_ ?_ ?_ ?_ hle'
    · rw [hg1]; exact hin.1
    · intro k hk
      rw [getD_set, getD_set, if_neg (by omega), if_neg (by omega)]
      exact ⟨rfl, rfl⟩
    · intro c
      rw [hg1, hg2]
      exact scan_skip h hvn (by simpa using hml) (by rw [getD_set, if_pos ⟨rfl, by omega⟩]) hin.1 hin.2 c
    · unfold dfsTail'
      rw [← hsz]
      exact he
  · rw [if_neg hm0, ok_bind] at he
    rw [if_neg hm0, ok_bind]
    have hp := hs.pause (s.size - 1) (by omega) (.inr (by rw [← hv]; exact hm0))
    refine tail_sim (ps := s.ps) (ps' := s'.ps) (marked := s.marked) h hs h0 hle hml hpl hpl' hv ?_
      (fun k _ => ⟨rfl, rfl⟩) ?_ ?_ hle'
    · rw [hv]; exact hp.2
    · intro c
      rw [hp.1]
    · unfold dfsTail'
      rw [← hsz]
      exact he

/-! ### The search -/

theorem DInv.le {g : Csc} {m0 : List Int} {Pr : Nat → Prop} {j0 bk : Nat} {st out : List Nat} {s : Dfs}
    (h : DInv g m0 Pr j0 bk st out s) : s.size ≤ s.top := by
  have h1 := h.top
  have h2 := h.size
  have h3 : (st ++ out).length ≤ (List.range g.n).length :=
    (List.subperm_of_subset h.nodup fun v hv => List.mem_range.2 (h.mem v hv).1).length_le
  rw [List.length_append, List.length_range] at h3
  omega

theorem dfsCC_wp (h : M.WF) {m0 : List Int} {Pr : Nat → Prop}
    (hPr : ∀ v, v < M.n → Pr v → ∀ i ∈ M.graph.col v, Pr i) {j0 : Nat}
    (hj : j0 < M.n) (hj0 : m0.getD j0 0 = 0) (hjP : Pr j0) (hm : m0.length = M.n) {xi ps : List Nat}
    (hxi : xi.length = M.n) (hps : ps.length = M.n) :
    wp (dfsCC M j0 m0 xi ps) (Found M.graph m0 Pr j0) := by
  have hPr' : ∀ v, v < M.raw.n → Pr v → ∀ i ∈ M.raw.col v, Pr i := fun v hv hp i hi =>
    hPr v hv hp i ((h.mem_raw hv).1 hi)
  have hstr := h.strict j0 hj
  unfold dfsCC
  rw [h.rd_first (by omega), ok_bind, wr_eq (by omega), ok_bind]
  refine whileF_wp (fun s => ∃ s' bk st out, DInv M.raw m0 Pr j0 bk st out s' ∧
      (bk = st.length ∨ bk + 1 = st.length) ∧ Sim M s s') (fun s => 2 * s.top - s.size) ?_ _ _ ?_ ?_
  · rintro s ⟨s', bk, st, out, hD, hbk, hs⟩
    have hsz := hs.size
    have htp := hs.top
    rw [wp_ok]
    by_cases h0 : s.size = 0
    · have h1 := hD.size
      rw [← hsz, h0, List.length_eq_zero_iff] at h1
      subst h1
      have hb : bk = 0 := by simp at hbk; omega
      subst hb
      have ho := hD.outEq
      subst ho
      have ht : (s'.xi.drop s'.top).length + s'.top = M.n := hD.top
      have hou := hs.out
      rw [if_neg (by simp [h0])]
      refine ⟨by rw [graph_n]; omega, hs.xiLen, hs.psLen, hs.mLen, ?_, ?_, ?_, ?_, ?_, ?_⟩
      · rw [hou]; simpa using hD.nodup
      · rw [hou]; exact fun v hv => hD.mem v (by simpa using hv)
      · rw [hou]; simpa using hD.start
      · rw [hou, hs.marked]
        have := hD.mark
        rw [List.take_nil, List.nil_append] at this
        exact this
      · rw [hou, hs.clash]
        intro v hv i hi
        have hvn : v < M.n := (hD.mem v (by simpa using hv)).1
        have := hD.done v hv i ((h.mem_raw hvn).2 hi)
        simpa using this
      · rw [hs.clash]; exact hD.clash
    · rw [if_pos (by simp [h0])]
      have hle := DInv.le hD
      have ht : out.length + s'.top = M.n := hD.top
      obtain ⟨s'', he, ⟨bk', st', out', hD', hbk'⟩, hlt⟩ :=
        wp_iff.1 (dfsStep_wp h.raw hPr' hD hbk (by omega))
      obtain ⟨t, h1, h2⟩ := step_sim h hs h0 (by omega) (by omega) he (DInv.le hD')
      refine ⟨by omega, wp_iff.2 ⟨t, h1, ⟨s'', bk', st', out', hD', hbk', h2⟩, ?_⟩⟩
      have := h2.size
      have := h2.top
      omega
  · dsimp only; omega
  · refine ⟨⟨1, M.n, xi.set 0 j0, ps, m0, []⟩, 0, [j0], [], ⟨rfl, by simp [BlockCsc.raw],
      (List.length_set ..).trans hxi, hps, hm, ?_, ?_, by simp, ?_, by simp, by simp, by simp, by intro k v hk; omega,
      by simp⟩, .inr rfl, ⟨rfl, rfl, rfl, rfl, by simpa using hxi, hps, by simpa using hxi, hps, hm, ?_, ?_, ?_⟩⟩
    · cases xi with
      | nil => simp at hxi; omega
      | cons a t => exact ⟨t, rfl⟩
    · dsimp only
      exact List.drop_eq_nil_of_le (by simp; omega)
    · intro v hv
      obtain rfl : v = j0 := by simpa using hv
      exact ⟨hj, hj0, hjP⟩
    · intro k hk
      dsimp only at hk ⊢
      obtain rfl : k = 0 := by omega
      rw [getD_set, getD_set, if_pos ⟨rfl, by omega⟩, if_pos ⟨rfl, by omega⟩]
      exact ⟨hj, Nat.le_refl _, hstr⟩
    · dsimp only
      rw [List.drop_eq_nil_of_le (by simp; omega), List.drop_eq_nil_of_le (by simp; omega)]
    · intro k hk hc
      dsimp only at hk hc
      obtain rfl : k = 0 := by omega
      rw [getD_set, if_pos ⟨rfl, by omega⟩] at hc
      rcases hc with hc | hc
      · omega
      · exact absurd hj0 hc

end Verif.Blocked
