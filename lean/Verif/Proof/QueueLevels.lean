import Verif.Model.QueueLevels
import Verif.Proof.LevelSet
import Verif.Proof.Paths
import Mathlib.Data.List.GetD

/-! # The queue-based level sets -/

namespace Verif.QLevel
open Res Csc

variable {g : Csc}

theorem initQueue_spec {n : Nat} {deg : List Int} (hl : deg.length = n) :
    wp (initQueue n deg) (fun dq => dq.Nodup ∧ ∀ v, v ∈ dq ↔ v < n ∧ deg.getD v 0 = 1) := by
  unfold initQueue
  refine forRange_wp (fun k (dq : List Nat) => dq.Nodup ∧ ∀ v, v ∈ dq ↔ v < k ∧ deg.getD v 0 = 1)
    (Nat.zero_le _) (by simp) ?_
  rintro i dq _ hi ⟨h1, h2⟩
  rw [rd_getD 0 (by omega)]
  simp only [ok_bind, wp_ok]
  split
  · rename_i hd
    refine ⟨?_, fun v => ?_⟩
    · rw [List.nodup_append]
      refine ⟨h1, by simp, ?_⟩
      intro a ha b hb
      simp only [List.mem_singleton] at hb
      have := (h2 a).1 ha
      omega
    · rw [List.mem_append, h2, List.mem_singleton]
      constructor
      · rintro (⟨h3, h4⟩ | rfl)
        · exact ⟨by omega, h4⟩
        · exact ⟨by omega, hd⟩
      · rintro ⟨h3, h4⟩
        by_cases hv : v = i
        · exact .inr hv
        · exact .inl ⟨by omega, h4⟩
  · rename_i hd
    refine ⟨h1, fun v => ?_⟩
    rw [h2]
    constructor
    · rintro ⟨h3, h4⟩; exact ⟨by omega, h4⟩
    · rintro ⟨h3, h4⟩
      refine ⟨?_, h4⟩
      by_contra hc
      have : v = i := by omega
      exact hd (this ▸ h4)

theorem pop_spec (set : List Nat) (cnt : Nat) (dq : List Nat) (h : cnt + dq.length ≤ set.length) :
    wp (forRange 0 dq.length popStep (set, cnt, dq)) (fun t => t.1.length = set.length ∧
      t.2.1 = cnt + dq.length ∧ t.2.2 = [] ∧ t.1.take t.2.1 = set.take cnt ++ dq) := by
  refine forRange_wp' (fun k (t : List Nat × Nat × List Nat) => t.1.length = set.length ∧
      t.2.1 = cnt + k ∧ t.2.2 = dq.drop k ∧ t.1.take t.2.1 = set.take cnt ++ dq.take k)
    (Nat.zero_le _) (by simp) ?_ ?_
  · rintro i ⟨s, c, q⟩ _ hi ⟨h1, h2, h3, h4⟩
    dsimp only at h1 h2 h3 h4
    have : q = dq[i] :: dq.drop (i + 1) := by rw [h3, List.drop_eq_getElem_cons hi]
    unfold popStep
    rw [this]
    dsimp only
    rw [wr_eq (by omega)]
    simp only [ok_bind, wp_ok]
    refine ⟨by simp [h1], by omega, trivial, ?_⟩
    rw [LevelSet.take_set_succ _ _ _ (by omega), h4, List.take_add_one,
      List.getElem?_eq_getElem hi]
    simp
  · rintro ⟨s, c, q⟩ ⟨h1, h2, h3, h4⟩
    dsimp only at h1 h2 h3 h4 ⊢
    refine ⟨h1, h2, by rw [h3]; simp, by rw [h4]; simp⟩

/-- The queue holds exactly the new nodes of in-degree 1. -/
def QueueOk (n : Nat) (T : List Nat) (deg : List Int) (dq : List Nat) : Prop :=
  dq.Nodup ∧ ∀ v, v ∈ dq ↔ v < n ∧ v ∉ T ∧ deg.getD v 0 = 1

theorem removeCol_spec (h : g.WF) (hd1 : g.OneDiag) (hdf : g.DiagFirst) {S T : List Nat} {cc : Nat}
    {deg : List Int} {dq : List Nat} (hcc : cc < g.n) (hl : deg.length = g.n) (hns : cc ∉ S)
    (hT : ∀ v, v ∈ T → g.remIn S v = 0)
    (hd : ∀ v, v < g.n → deg.getD v 0 = 1 + (g.remIn S v : Int)) (hq : QueueOk g.n T deg dq) :
    wp (forRange (g.ptr cc + 1) (g.ptr (cc + 1)) (fun j s => do
      let v ← rd g.i j
      edgeStep v s) (deg, dq)) (fun s => s.1.length = g.n ∧
        (∀ v, v < g.n → s.1.getD v 0 = 1 + (g.remIn (S ++ [cc]) v : Int)) ∧
        QueueOk g.n T s.1 s.2) := by
  have hm := h.mono cc hcc
  have hle := h.ptr_le (a := cc + 1) (by omega)
  have hcl := h.col_length hcc
  have hne : 0 < (g.col cc).length := by
    have := hdf cc hcc
    cases hc : g.col cc with
    | nil => rw [hc] at this; simp at this
    | cons a l => simp
  obtain ⟨rest, hrest⟩ : ∃ rest, g.col cc = cc :: rest := by
    have := hdf cc hcc
    cases hc : g.col cc with
    | nil => rw [hc] at this; simp at this
    | cons a l => rw [hc] at this; simp at this; exact ⟨l, by rw [this]⟩
  have hr : (g.i.drop (g.ptr cc + 1)).take (g.ptr (cc + 1) - (g.ptr cc + 1)) = rest := by
    have : rest = (g.col cc).tail := by rw [hrest]; rfl
    rw [this, ← List.drop_one, col, List.drop_take, List.drop_drop]
    congr 1
  have hnc : rest.count cc = 0 := by
    have := hd1 cc hcc
    rw [hrest, List.count_cons_self] at this
    omega
  have hmem : ∀ v ∈ rest, v < g.n ∧ v ≠ cc ∧ v ∉ T := by
    intro v hv
    have h1 : v < g.n := h.range cc hcc v (by rw [hrest]; exact List.mem_cons_of_mem _ hv)
    have h2 : v ≠ cc := by
      rintro rfl
      exact (List.count_eq_zero.1 hnc) hv
    refine ⟨h1, h2, fun hvT => ?_⟩
    have := hT v hvT
    rw [remIn_eq_zero] at this
    exact hns (this cc ⟨hcc, by rw [hrest]; exact List.mem_cons_of_mem _ hv, fun h => h2 h.symm⟩)
  unfold forRange
  rw [forRange_rd g.i edgeStep _ _ _ (by omega), hr]
  have key := forEach_wp (fun (pre : List Nat) (s : List Int × List Nat) => s.1.length = g.n ∧
    (∀ v, v < g.n → s.1.getD v 0 = 1 + (g.remIn (S ++ [cc]) v : Int) + rest.count v - pre.count v) ∧
    QueueOk g.n T s.1 s.2) (f := edgeStep) rest [] (deg, dq) ⟨hl, ?_, hq⟩ ?_
  · refine wp_mono key ?_
    rintro s ⟨h1, h2, h3⟩
    refine ⟨h1, fun v hv => ?_, h3⟩
    rw [h2 v hv]
    simp
  · intro v hv
    dsimp only
    rw [hd v hv, remIn_append hcc hns]
    by_cases hvc : cc = v
    · subst hvc
      simp [hnc]
    · rw [if_neg hvc, hrest, List.count_cons_of_ne (by simpa using hvc)]
      simp
      omega
  · rintro p a q ⟨deg', dq'⟩ heq ⟨h1, h2, h3, h4⟩
    rw [List.nil_append] at heq
    dsimp only at h1 h2 h3 h4 ⊢
    obtain ⟨ha, hac, haT⟩ := hmem a (by rw [heq]; simp)
    have hge : rest.count a = p.count a + 1 + q.count a := by
      rw [heq, List.count_append, List.count_cons_self]; omega
    have hda := h2 a ha
    unfold edgeStep
    dsimp only
    rw [rd_getD 0 (by omega)]
    simp only [ok_bind]
    rw [wr_eq (by omega)]
    simp only [ok_bind, wp_ok]
    have hget : ∀ v, (deg'.set a (deg'.getD a 0 - 1)).getD v 0
        = if v = a then deg'.getD a 0 - 1 else deg'.getD v 0 := by
      intro v
      rw [getD_set]
      by_cases hv : v = a
      · subst hv; rw [if_pos ⟨rfl, by omega⟩, if_pos rfl]
      · rw [if_neg (by omega), if_neg hv]
    have haq : a ∉ dq' := by
      intro hc
      have := ((h4 a).1 hc).2.2
      omega
    refine ⟨by simpa using h1, ?_, ?_⟩
    · intro v hv
      rw [hget]
      by_cases hva : v = a
      · subst hva
        rw [if_pos rfl, hda]
        simp [List.count_append]
        omega
      · rw [if_neg hva, h2 v hv, List.count_append, List.count_singleton]
        have : ¬ (a == v) = true := by simpa using fun h => hva h.symm
        rw [if_neg this]
        omega
    · split
      · rename_i h5
        refine ⟨?_, fun v => ?_⟩
        · rw [List.nodup_append]
          refine ⟨h3, by simp, ?_⟩
          intro x hx y hy
          simp only [List.mem_singleton] at hy
          rintro rfl
          exact haq (hy ▸ hx)
        · rw [List.mem_append, h4, List.mem_singleton, hget]
          by_cases hva : v = a
          · subst hva
            exact ⟨fun _ => ⟨ha, haT, by rw [if_pos rfl]; exact h5⟩, fun _ => .inr rfl⟩
          · simp [hva]
      · rename_i h5
        refine ⟨h3, fun v => ?_⟩
        rw [h4, hget]
        by_cases hva : v = a
        · subst hva
          rw [if_pos rfl]
          constructor
          · rintro ⟨_, _, h6⟩; omega
          · rintro ⟨_, _, h6⟩; exact absurd h6 h5
        · rw [if_neg hva]

theorem removeLevel_spec (h : g.WF) (hd1 : g.OneDiag) (hdf : g.DiagFirst) {ls : List Nat}
    {deg : List Int} {dq : List Nat} {lo hi : Nat} (hlo : lo ≤ hi) (hhi : hi ≤ ls.length)
    (hl : deg.length = g.n) (hnd : (ls.take hi).Nodup) (hlt : ∀ v ∈ ls.take hi, v < g.n)
    (hT : ∀ v, v ∈ ls.take hi → g.remIn (ls.take lo) v = 0)
    (hd : ∀ v, v < g.n → deg.getD v 0 = 1 + (g.remIn (ls.take lo) v : Int))
    (hq : QueueOk g.n (ls.take hi) deg dq) :
    wp (removeLevel g.p g.i ls lo hi (deg, dq)) (fun s => s.1.length = g.n ∧
      (∀ v, v < g.n → s.1.getD v 0 = 1 + (g.remIn (ls.take hi) v : Int)) ∧
      QueueOk g.n (ls.take hi) s.1 s.2) := by
  unfold removeLevel
  refine forRange_wp (fun l (s : List Int × List Nat) => s.1.length = g.n ∧
      (∀ v, v < g.n → s.1.getD v 0 = 1 + (g.remIn (ls.take l) v : Int)) ∧
      QueueOk g.n (ls.take hi) s.1 s.2) hlo ⟨hl, hd, hq⟩ ?_
  rintro l ⟨deg', dq'⟩ h1 h2 ⟨h3, h4, h5⟩
  have hll : l < ls.length := by omega
  have hsub : ls.take l ++ [ls[l]] = ls.take (l + 1) := by
    rw [List.take_add_one]; simp [hll]
  have hpre : ls.take (l + 1) <+: ls.take hi := List.take_prefix_take_left (by omega)
  have hcc : ls[l] < g.n := by
    apply hlt
    apply hpre.subset
    rw [← hsub]; exact List.mem_append_right _ (List.mem_singleton.2 rfl)
  have hns : ls[l] ∉ ls.take l := by
    have := hnd.sublist hpre.sublist
    rw [← hsub, List.nodup_append] at this
    intro hc
    exact this.2.2 _ hc _ (by simp) rfl
  rw [rd_eq hll]
  simp only [ok_bind]
  rw [h.rd_p (by omega), h.rd_p (by omega)]
  simp only [ok_bind]
  have := removeCol_spec h hd1 hdf (T := ls.take hi) hcc h3 hns (by
    intro v hv
    have h0 := hT v hv
    rw [remIn_eq_zero] at h0 ⊢
    intro u hu
    exact (List.take_prefix_take_left (by omega) : ls.take lo <+: ls.take l).subset (h0 u hu)) h4 h5
  rw [hsub] at this
  exact this

/-- Invariant of the loop. -/
structure Inv (g : Csc) (s : St) : Prop where
  lenDeg : s.deg.length = g.n
  lenSet : g.n ≤ s.set.length
  lenPtr : g.n + 1 ≤ s.ptr.length
  curLe : s.cur ≤ s.cnt
  cntLe : s.cnt ≤ g.n
  nodup : (s.set.take s.cnt ++ s.dq).Nodup
  memDone : ∀ v, v ∈ s.set.take s.cnt ↔ v < g.n ∧ ¬ g.PathTo s.cur v
  memQ : ∀ v, v ∈ s.dq ↔ g.PathTo s.cur v ∧ ¬ g.PathTo (s.cur + 1) v
  deg : ∀ v, v < g.n → s.deg.getD v 0 = 1 + (g.remIn (s.set.take s.cnt) v : Int)
  ptr0 : s.ptr.getD 0 0 = 0
  ptrL : s.ptr.getD s.cur 0 = s.cnt
  strict : ∀ l, l < s.cur → s.ptr.getD l 0 < s.ptr.getD (l + 1) 0
  lvl : ∀ l k, l < s.cur → s.ptr.getD l 0 ≤ k → k < s.ptr.getD (l + 1) 0 →
    g.PathTo l (s.set.getD k 0) ∧ ¬ g.PathTo (l + 1) (s.set.getD k 0)

theorem ptr_le_cnt {s : St} (hs : Inv g s) {l : Nat} (hl : l ≤ s.cur) : s.ptr.getD l 0 ≤ s.cnt := by
  obtain ⟨d, hd⟩ : ∃ d, l + d = s.cur := ⟨s.cur - l, by omega⟩
  induction d generalizing l with
  | zero => rw [show l = s.cur by omega, hs.ptrL]
  | succ d ih =>
    have := hs.strict l (by omega)
    have := ih (l := l + 1) (by omega) (by omega)
    omega

theorem step_spec (h : g.WF) (hd1 : g.OneDiag) (hdf : g.DiagFirst) {s : St} (hs : Inv g s)
    (hne : s.dq ≠ []) :
    wp (step g.p g.i s) (fun s' => Inv g s' ∧ s'.cnt = s.cnt + s.dq.length) := by
  have hlenSet := hs.lenSet
  have hlenPtr := hs.lenPtr
  have hcur := hs.curLe
  have hall : ∀ v ∈ s.set.take s.cnt ++ s.dq, v < g.n := by
    intro v hv
    rcases List.mem_append.1 hv with hv | hv
    · exact ((hs.memDone v).1 hv).1
    · exact ((hs.memQ v).1 hv).1.lt h
  have hcnt : s.cnt + s.dq.length ≤ g.n := by
    have := LevelSet.nodup_length_le hs.nodup hall
    have := hs.cntLe
    rw [List.length_append, List.length_take] at *
    omega
  have hpos : 0 < s.dq.length := List.length_pos_iff.2 hne
  unfold step
  rw [wp_bind]
  refine wp_mono (pop_spec s.set s.cnt s.dq (by omega)) ?_
  rintro ⟨ls, cnt', dq0⟩ ⟨e1, e2, e3, e4⟩
  dsimp only at e1 e2 e3 e4 ⊢
  subst e3
  rw [wr_eq (by omega)]
  simp only [ok_bind]
  have hget : ∀ k, (s.ptr.set (s.cur + 1) cnt').getD k 0
      = if k = s.cur + 1 then cnt' else s.ptr.getD k 0 := by
    intro k
    rw [getD_set]
    by_cases hk : k = s.cur + 1
    · rw [if_pos ⟨hk.symm, by omega⟩, if_pos hk]
    · rw [if_neg (by omega), if_neg hk]
  rw [rd_getD 0 (by simp; omega), rd_getD 0 (by simp; omega), hget, hget, if_neg (by omega),
    if_pos rfl, hs.ptrL]
  simp only [ok_bind]
  have hlo : ls.take s.cnt = s.set.take s.cnt := by
    have : (ls.take cnt').take s.cnt = ls.take s.cnt := by
      rw [List.take_take, Nat.min_eq_left (by omega)]
    rw [← this, e4, List.take_append_of_le_length (by simp; omega), List.take_take,
      Nat.min_self]
  have hmemT : ∀ v, v ∈ ls.take cnt' ↔ v < g.n ∧ ¬ g.PathTo (s.cur + 1) v := by
    intro v
    rw [e4, List.mem_append, hs.memDone, hs.memQ]
    constructor
    · rintro (⟨h1, h2⟩ | ⟨h1, h2⟩)
      · exact ⟨h1, fun hc => h2 (hc.shorten h)⟩
      · exact ⟨h1.lt h, h2⟩
    · rintro ⟨h1, h2⟩
      by_cases hp : g.PathTo s.cur v
      · exact .inr ⟨hp, h2⟩
      · exact .inl ⟨h1, hp⟩
  have hrem0 : ∀ v, v ∈ ls.take cnt' → g.remIn (ls.take s.cnt) v = 0 := by
    intro v hv
    rw [remIn_eq_zero]
    intro u hu
    rw [hlo, hs.memDone]
    refine ⟨hu.1, fun hp => ((hmemT v).1 hv).2 (.snoc hp hu)⟩
  have hdeg0 : ∀ v, v < g.n → s.deg.getD v 0 = 1 + (g.remIn (ls.take s.cnt) v : Int) := by
    rw [hlo]; exact hs.deg
  rw [wp_bind]
  refine wp_mono (removeLevel_spec h hd1 hdf (by omega) (by omega) hs.lenDeg
    (by rw [e4]; exact hs.nodup) (by intro v hv; exact ((hmemT v).1 hv).1) hrem0 hdeg0
    ⟨List.nodup_nil, ?_⟩) ?_
  · intro v
    constructor
    · intro hv; simp at hv
    · rintro ⟨h1, h2, h3⟩
      exfalso
      rw [hdeg0 v h1] at h3
      have h4 : g.remIn (ls.take s.cnt) v = 0 := by omega
      rw [remIn_eq_zero] at h4
      apply h2
      rw [hmemT]
      refine ⟨h1, fun hp => ?_⟩
      obtain ⟨u, h5, h6⟩ := pathTo_succ.1 hp
      have := h4 u h6
      rw [hlo, hs.memDone] at this
      exact this.2 h5
  · rintro ⟨deg', dq'⟩ ⟨f1, f2, f3, f4⟩
    dsimp only at f1 f2 f3 f4
    simp only [wp_ok]
    refine ⟨⟨f1, by rw [e1]; exact hlenSet, by simpa using hlenPtr, by dsimp only; omega,
      by dsimp only; omega, ?_, ?_, ?_, f2, ?_, ?_, ?_, ?_⟩, e2⟩
    · dsimp only
      rw [List.nodup_append]
      refine ⟨by rw [e4]; exact hs.nodup, f3, ?_⟩
      rintro a ha b hb rfl
      exact ((f4 a).1 hb).2.1 ha
    · exact hmemT
    · intro v
      dsimp only
      rw [f4]
      constructor
      · rintro ⟨h1, h2, h3⟩
        rw [f2 v h1] at h3
        have h4 : g.remIn (ls.take cnt') v = 0 := by omega
        rw [remIn_eq_zero] at h4
        refine ⟨?_, fun hp => ?_⟩
        · by_contra hc
          exact h2 ((hmemT v).2 ⟨h1, hc⟩)
        · obtain ⟨u, h5, h6⟩ := pathTo_succ.1 hp
          exact ((hmemT u).1 (h4 u h6)).2 h5
      · rintro ⟨h1, h2⟩
        refine ⟨h1.lt h, fun hc => ((hmemT v).1 hc).2 h1, ?_⟩
        rw [f2 v (h1.lt h)]
        have : g.remIn (ls.take cnt') v = 0 := by
          rw [remIn_eq_zero]
          intro u hu
          rw [hmemT]
          exact ⟨hu.1, fun hp => h2 (.snoc hp hu)⟩
        omega
    · dsimp only; rw [hget, if_neg (by omega)]; exact hs.ptr0
    · dsimp only; rw [hget, if_pos rfl]
    · intro l hl
      dsimp only at hl ⊢
      rw [hget, hget, if_neg (by omega)]
      by_cases hlc : l = s.cur
      · subst hlc
        rw [if_pos rfl, hs.ptrL]; omega
      · rw [if_neg (by omega)]
        exact hs.strict l (by omega)
    · intro l k hl h1 h2
      dsimp only at hl h1 h2 ⊢
      rw [hget, if_neg (by omega)] at h1
      rw [hget] at h2
      have hk : ∀ k, k < cnt' → ls.getD k 0 = (s.set.take s.cnt ++ s.dq).getD k 0 := by
        intro k hk
        rw [← e4, List.getD_eq_getElem?_getD, List.getD_eq_getElem?_getD, List.getElem?_take,
          if_pos hk]
      by_cases hlc : l = s.cur
      · subst hlc
        rw [if_pos rfl] at h2
        rw [hs.ptrL] at h1
        rw [hk k h2, List.getD_append_right _ _ _ _ (by simp; omega)]
        have : k - (s.set.take s.cnt).length < s.dq.length := by simp; omega
        rw [← hs.memQ, List.getD_eq_getElem?_getD, List.getElem?_eq_getElem this]
        exact List.getElem_mem this
      · rw [if_neg (by omega)] at h2
        have := ptr_le_cnt hs (l := l + 1) (by omega)
        rw [hk k (by omega), List.getD_append _ _ _ _ (by simp; omega)]
        have e : (s.set.take s.cnt).getD k 0 = s.set.getD k 0 := by
          rw [List.getD_eq_getElem?_getD, List.getD_eq_getElem?_getD, List.getElem?_take,
            if_pos (by omega)]
        rw [e]
        exact hs.lvl l k (by omega) h1 h2

theorem build_spec (h : g.WF) (hd1 : g.OneDiag) (hdf : g.DiagFirst) {ptr set : List Nat}
    (hp : g.n + 1 ≤ ptr.length) (hp0 : ptr.getD 0 0 = 0) (hset : g.n ≤ set.length) :
    wp (build g.n g.p g.i ptr set) (fun r => ∃ s, Inv g s ∧ s.dq = [] ∧ r = (s.cur, s.ptr, s.set)) := by
  unfold build
  rw [wp_bind]
  refine wp_mono (LevelSet.countInDegree_spec h hd1) ?_
  rintro deg ⟨hl, hv⟩
  rw [wp_bind]
  refine wp_mono (initQueue_spec hl) ?_
  rintro dq ⟨hq1, hq2⟩
  rw [wp_bind]
  refine whileF_wp (Inv g) (fun s => g.n - s.cnt) ?_ _ _ (by dsimp only; omega) ?_
  · intro s hs
    simp only [wp_ok]
    by_cases hne : s.dq = []
    · simp only [hne, List.length_nil, bne_self_eq_false, Bool.false_eq_true, if_false]
      exact ⟨s, hs, hne, rfl⟩
    · have hpos : 0 < s.dq.length := List.length_pos_iff.2 hne
      have : (s.dq.length != 0) = true := by simpa using hne
      rw [this, if_pos rfl]
      have hcnt : s.cnt + s.dq.length ≤ g.n := by
        have := LevelSet.nodup_length_le (n := g.n) hs.nodup (by
          intro v hv
          rcases List.mem_append.1 hv with hv | hv
          · exact ((hs.memDone v).1 hv).1
          · exact ((hs.memQ v).1 hv).1.lt h)
        have := hs.cntLe
        have := hs.lenSet
        rw [List.length_append, List.length_take] at *
        omega
      refine ⟨by omega, wp_mono (step_spec h hd1 hdf hs hne) ?_⟩
      rintro s' ⟨h1, h2⟩
      exact ⟨h1, by omega⟩
  · refine ⟨hl, hset, hp, Nat.le_refl _, Nat.zero_le _, by simpa using hq1, ?_, ?_, ?_, hp0, hp0,
      by intro l hl; dsimp only at hl; omega, by intro l k hl; dsimp only at hl; omega⟩
    · intro v
      simp only [List.take_zero, List.not_mem_nil, false_iff]
      rintro ⟨h1, h2⟩
      exact h2 (.nil h1)
    · intro v
      dsimp only
      rw [hq2]
      constructor
      · rintro ⟨h1, h2⟩
        refine ⟨.nil h1, fun hp => ?_⟩
        rw [hv v h1] at h2
        have h3 : g.remIn [] v = 0 := by omega
        rw [remIn_eq_zero] at h3
        obtain ⟨u, _, h5⟩ := pathTo_succ.1 hp
        exact absurd (h3 u h5) (by simp)
      · rintro ⟨h1, h2⟩
        have hvn := h1.lt h
        refine ⟨hvn, ?_⟩
        rw [hv v hvn]
        have : g.remIn [] v = 0 := by
          rw [remIn_eq_zero]
          intro u hu
          exact absurd (PathTo.snoc (.nil hu.1) hu) h2
        omega
    · intro v hvn
      simpa using hv v hvn

end Verif.QLevel
