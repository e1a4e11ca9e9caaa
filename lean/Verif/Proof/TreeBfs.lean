import Verif.Proof.TreeLoop

/-! # The loops of `treeBasedGroupingBFS` -/

namespace Verif.Group
open Res

variable {g : Csc}

theorem bfsStep_wp (hg : g.WF) (hd : g.OneDiag) (hl : g.Lower) {B : Sp Nat} (hB : RowsOf g B)
    {L R : Nat} {s : Trav} (hC : Core g R s) (hU : Cur g L R s) (hs : s.stack ≠ [])
    (hT : ∀ v ∈ s.stack.tail, (g.col v).length ≠ 1) :
    wp (bfsStep L g.p B s) fun s' => Core g R s' ∧ Cur g L R s' ∧
      (∀ v ∈ s'.stack.tail, (g.col v).length ≠ 1) ∧ s'.ptr = s.ptr ∧ s'.cnt = s.cnt + 1 := by
  have hlt := lt_of_stack hC hs
  have hel := emitted_length hC
  unfold bfsStep
  cases hst : s.stack with
  | nil => exact absurd hst hs
  | cons a t =>
    simp only [popFront, ok_bind, wp_bind]
    rw [wr_eq (by rw [hC.slen]; exact hlt)]
    simp only [wp_ok]
    obtain ⟨s0, hs0⟩ : ∃ s0 : Trav, s0 =
      { s with stack := t, fin := false, set := s.set.set s.cnt a, cnt := s.cnt + 1 } := ⟨_, rfl⟩
    rw [← hs0]
    have hTI := hC.ti.pop (s' := s0) hst (by rw [hs0]) (by rw [hs0]) (by rw [hs0])
    have hRa : treeRoot g a = R := hC.ti.rt a (by rw [hst]; simp)
    refine wp_mono (visitChildren_wp hg hd hl hB hTI (h := a) (by simp) hRa) ?_
    rintro s1 ⟨k1, k2, k3, k4⟩
    have hset : s1.set = s.set.set s.cnt a := by rw [k2.set, hs0]
    have hcnt : s1.cnt = s.cnt + 1 := by rw [k2.cnt, hs0]
    have hptr : s1.ptr = s.ptr := by rw [k2.ptr, hs0]
    have hlast : s1.last = s.last := by rw [k2.last, hs0]
    have hng : s1.ngroups = s.ngroups := by rw [k2.ngroups, hs0]
    have hst1 : ∀ v ∈ s1.stack, (g.col v).length ≠ 1 := by
      intro v hv
      rcases k2.stack v hv with h1 | h1
      · rw [hs0] at h1
        exact hT v (by rw [hst]; exact h1)
      · omega
    have hem : ∀ s2 : Trav, s2.set = s1.set → s2.cnt = s1.cnt → emitted s2 = emitted s ++ [a] := by
      intro s2 e1 e2
      rw [emitted, e1, e2, hset, hcnt, take_set_same (by rw [hC.slen]; exact hlt)]; rfl
    have hkn : known (emitted s ++ [a]) s0 = known (emitted s) s := by
      simp [known, hst, hs0]
    have hcore : ∀ s2 : Trav, s2.set = s1.set → s2.cnt = s1.cnt →
        (s2.stack ++ s2.roots).Perm (s1.stack ++ s1.roots) → s2.visited = s1.visited →
        s2.ngroups = s1.ngroups → s2.ptr = s1.ptr →
        (∀ v, (v ∈ s2.stack ∨ (v ∈ s2.roots ∧ (g.col v).length ≠ 1)) ↔
          (v ∈ s1.stack ∨ (v ∈ s1.roots ∧ (g.col v).length ≠ 1))) →
        (∀ v ∈ s2.stack, v ∈ s1.stack) → Core g R s2 := by
      intro s2 e1 e2 e3 e5 e6 e7 e8 e9
      have hk : (known (emitted s2) s2).Perm (known (emitted s ++ [a]) s1) := by
        rw [hem s2 e1 e2]; exact e3.append_left _
      refine ⟨?_, by rw [e1, hset]; simpa using hC.slen, by omega, ?_, ?_, ?_⟩
      · rw [hem s2 e1 e2]
        exact k1.congr e3 e5 e8 (fun u hu => k1.rt u (e9 u hu))
      · intro w hw u hu
        rw [hk.mem_iff]
        rw [hem s2 e1 e2] at hw
        rcases List.mem_append.1 hw with h5 | h5
        · exact k3 u (by rw [hkn]; exact hC.closed w h5 u hu)
        · simp only [List.mem_singleton] at h5
          subst h5
          exact k4 u hu
      · intro v hv hc
        rw [hk.mem_iff]
        exact k3 v (by rw [hkn]; exact hC.sinks v hv hc)
      · rw [e6, e7, hng, hptr]; exact hC.num
    have hrt : ∀ x ∈ slice (emitted s ++ [a]) (lastPtr s.ptr) (s.cnt + 1), treeRoot g x = R := by
      intro x hx
      rw [slice_succ (v := a) (by exact hU.le) (by
        rw [List.getElem?_append_right (by omega), hel]; simp)] at hx
      rcases List.mem_append.1 hx with h5 | h5
      · rw [slice_append_left _ _ (by omega)] at h5
        exact hU.rt x h5
      · simp only [List.mem_singleton] at h5; rw [h5]; exact hRa
    have hsm := hU.small.2 hs
    have hle := hU.le
    have hla := hU.last
    have hcur : ∀ s2 : Trav, s2.set = s1.set → s2.cnt = s1.cnt → s2.ptr = s1.ptr →
        s2.last = s1.last → (s2.stack ≠ [] → s.cnt + 1 - s.last ≠ L) → Cur g L R s2 := by
      intro s2 e1 e2 e3 e4 e5
      refine ⟨by rw [e3, hptr]; exact hU.ne, ?_, ?_, ?_, ?_, ?_⟩
      · rw [hem s2 e1 e2, e3, hptr]; exact hU.blocks.mono
      · rw [e3, hptr, e2, hcnt]; omega
      · rw [hem s2 e1 e2, e3, hptr, e2, hcnt]; exact hrt
      · rw [e3, hptr, e4, hlast]; exact hla
      · rw [e3, hptr, e2, hcnt]
        refine ⟨by omega, fun h => ?_⟩
        have := e5 h
        omega
    by_cases hfin : s1.fin = true ∨ s1.cnt - s1.last = L
    · rw [if_pos hfin, wp_ok]
      refine ⟨hcore _ rfl rfl ?_ rfl rfl rfl ?_ (by simp), hcur _ rfl rfl rfl rfl ?_, ?_, hptr, hcnt⟩
      · simpa using List.perm_append_comm
      · intro v
        simp only [List.mem_append, List.not_mem_nil, false_or]
        constructor
        · rintro ⟨h1 | h1, h2⟩
          · exact Or.inr ⟨h1, h2⟩
          · exact Or.inl h1
        · rintro (h1 | ⟨h1, h2⟩)
          · exact ⟨Or.inr h1, hst1 v h1⟩
          · exact ⟨Or.inl h1, h2⟩
      · intro h; exact absurd rfl h
      · simp
    · rw [if_neg hfin, wp_ok]
      push Not at hfin
      refine ⟨hcore s1 rfl rfl (List.Perm.refl _) rfl rfl rfl (fun v => Iff.rfl) (fun v h => h),
        hcur s1 rfl rfl rfl rfl ?_, fun v hv => hst1 v (List.mem_of_mem_tail hv), hptr, hcnt⟩
      intro _
      have := hfin.2
      rwa [hcnt, hlast] at this

theorem bfsInner_wp (hg : g.WF) (hd : g.OneDiag) (hl : g.Lower) {B : Sp Nat} (hB : RowsOf g B)
    {L R : Nat} {s : Trav} (hC : Core g R s) (hU : Cur g L R s) {a : Nat} (hs : s.stack = [a]) :
    wp (whileF g.n (fun s => ok (!s.stack.isEmpty)) (bfsStep L g.p B) s) fun s' =>
      Core g R s' ∧ Cur g L R s' ∧ s'.stack = [] ∧ s'.ptr = s.ptr ∧ s.cnt < s'.cnt := by
  refine whileF_wp (fun s' => Core g R s' ∧ Cur g L R s' ∧ s'.ptr = s.ptr ∧
    (∀ v ∈ s'.stack.tail, (g.col v).length ≠ 1) ∧ s.cnt ≤ s'.cnt ∧
    (s'.stack = [] → s.cnt < s'.cnt)) (fun s' => g.n - s'.cnt) ?_ g.n s (by omega)
    ⟨hC, hU, rfl, by rw [hs]; simp, le_refl _, fun h => by rw [hs] at h; simp at h⟩
  rintro s1 ⟨h1, h2, h2', hT, h3, h4⟩
  rw [wp_ok]
  by_cases he : s1.stack = []
  · simp only [he, List.isEmpty_nil, Bool.not_true, Bool.false_eq_true, if_false]
    exact ⟨h1, h2, trivial, h2', h4 he⟩
  · have : (!s1.stack.isEmpty) = true := by simp [he]
    rw [this]
    simp only [if_true]
    have hlt := lt_of_stack h1 he
    refine ⟨by omega, wp_mono (bfsStep_wp hg hd hl hB h1 h2 he hT) ?_⟩
    rintro s2 ⟨k1, k2, k3, k4, k5⟩
    exact ⟨⟨k1, k2, k4.trans h2', k3, by omega, fun _ => by omega⟩, by omega⟩

theorem bfsRound_wp (hg : g.WF) (hd : g.OneDiag) (hl : g.Lower) {B : Sp Nat} (hB : RowsOf g B)
    {L R : Nat} (hL : 0 < L) {s : Trav} (hC : Core g R s) (hs : s.stack = []) (hr : s.roots ≠ [])
    (hU : (s.ptr = [] ∧ s.cnt = 0) ∨ (Cur g L R s ∧ lastPtr s.ptr < s.cnt)) :
    wp (bfsRound L g.n g.p B s) fun s' =>
      (∃ R', Core g R' s' ∧ Cur g L R' s') ∧ s'.stack = [] ∧ lastPtr s'.ptr < s'.cnt ∧
        s.cnt < s'.cnt := by
  cases hro : s.roots with
  | nil => exact absurd hro hr
  | cons a l =>
    have hel := emitted_length hC
    have han : a < g.n := hC.ti.lt a (by simp [known, hro])
    unfold bfsRound
    rw [hro]
    simp only [popFront, ok_bind, wr_eq (show a < s.visited.length by rw [hC.ti.vlen]; exact han)]
    obtain ⟨s1, hs1⟩ : ∃ s1 : Trav, s1 = ⟨l, s.stack ++ [a], s.visited.set a true, s.fin,
      s.ngroups + 1, s.ptr ++ [s.cnt], s.set, s.cnt, s.cnt⟩ := ⟨_, rfl⟩
    rw [← hs1]
    have e1 : s1.stack = [a] := by rw [hs1]; simp [hs]
    have hem : emitted s1 = emitted s := by rw [hs1]; rfl
    have e5 : s1.cnt = s.cnt := by rw [hs1]
    have hperm : s.roots.Perm (a :: s1.roots) := by rw [hro, hs1]
    have hkp : (known (emitted s1) s1).Perm (known (emitted s) s) := by
      rw [hem]
      simp only [known, hs, e1, List.nil_append, List.singleton_append]
      exact hperm.symm.append_left _
    have hC1 : Core g (treeRoot g a) s1 := by
      refine ⟨?_, by rw [hs1]; exact hC.slen, by rw [e5]; exact hC.cle, ?_, ?_, ?_⟩
      · rw [hem]; exact hC.ti.root hs hperm e1 (by rw [hs1])
      · intro w hw u hu
        rw [hem] at hw
        exact hkp.mem_iff.2 (hC.closed w hw u hu)
      · intro v hv hc
        exact hkp.mem_iff.2 (hC.sinks v hv hc)
      · rw [hs1]; simp [hC.num]
    have hlp : lastPtr s1.ptr = s.cnt := by rw [hs1]; exact lastPtr_append _ _
    have hU1 : Cur g L (treeRoot g a) s1 := by
      refine ⟨by rw [hs1]; simp, ?_, by omega, ?_, by rw [hlp, hs1], by omega, fun _ => by omega⟩
      · rw [hem]
        rcases hU with ⟨h1, h2⟩ | ⟨h1, h2⟩
        · rw [hs1]
          refine ⟨by simp [h1, h2], ?_⟩
          intro j hj
          simp [h1] at hj
        · rw [hs1]
          exact h1.blocks.push h1.ne (by omega) h2 h1.small.1 h1.rt
      · rw [hlp, e5, slice_self]; simp
    refine wp_mono (bfsInner_wp hg hd hl hB hC1 hU1 e1) ?_
    rintro s' ⟨m1, m2, m3, m4, m5⟩
    exact ⟨⟨_, m1, m2⟩, m3, by rw [m4]; omega, by omega⟩

theorem bfsTraverse_wp (hg : g.WF) (hd : g.OneDiag) (hl : g.Lower) {B : Sp Nat} (hB : RowsOf g B)
    (hn : 0 < g.n) {L : Nat} (hL : 0 < L) : wp (bfsTraverse L g.n g.p B) (TravOk g L) := by
  unfold bfsTraverse
  rw [sinks_eq hg, ok_bind]
  simp only [wp_bind]
  refine wp_mono (whileF_wp (fun s : Trav => (∃ R, Core g R s ∧ ((s.ptr = [] ∧ s.cnt = 0) ∨
      (Cur g L R s ∧ lastPtr s.ptr < s.cnt))) ∧ s.stack = [])
    (fun s => g.n - s.cnt)
    (Q := fun s => (∃ R, Core g R s ∧ ((s.ptr = [] ∧ s.cnt = 0) ∨
      (Cur g L R s ∧ lastPtr s.ptr < s.cnt))) ∧ s.stack = [] ∧ s.roots = []) ?_ _ _
    (by simp) ?_) ?_
  · rintro s ⟨⟨R, h1, h2⟩, h3⟩
    rw [wp_ok]
    by_cases hr : s.roots = []
    · simp only [hr, List.isEmpty_nil, Bool.not_true, Bool.false_eq_true, if_false]
      exact ⟨⟨R, h1, h2⟩, h3, trivial⟩
    · have : (!s.roots.isEmpty) = true := by simp [hr]
      rw [this]
      simp only [if_true]
      have := lt_of_roots h1 hr
      refine ⟨by omega, wp_mono (bfsRound_wp hg hd hl hB hL h1 h3 hr h2) ?_⟩
      rintro s' ⟨⟨R', k1, k1'⟩, k2, k3, k4⟩
      exact ⟨⟨⟨R', k1, Or.inr ⟨k1', k3⟩⟩, k2⟩, by omega⟩
  · exact ⟨⟨0, core_init rfl rfl rfl rfl rfl rfl, Or.inl ⟨rfl, rfl⟩⟩, rfl⟩
  · rintro s ⟨⟨R, h1, h2⟩, h3, h4⟩
    obtain ⟨k1, k2, k3⟩ := core_done hg hd hl h1 h3 h4
    rcases h2 with ⟨_, h2⟩ | ⟨h2, h5⟩
    · omega
    have hb := h2.blocks
    have hrt := h2.rt
    have hsm := h2.small
    have hnum := h1.num
    have hord := h1.ti.ord
    have hslen := h1.slen
    rw [k2] at hb hrt hord
    rw [back_eq h2.ne, wp_ok, wp_ok, if_pos (by omega)]
    refine ⟨k3, by simp [hnum], by dsimp only; rw [lastPtr_append, k1], ?_, hord⟩
    exact hb.push h2.ne (by omega) (by omega) hsm.1 hrt

end Verif.Group
