import Verif.Proof.Ic0Par

/-! # The threads of the parallel incomplete Cholesky kernels -/

namespace Verif.Ic0
open Res Exec

variable {g : Csc}

theorem colsCode_eq (hT : Tri g) (stop : Bool) {set : List Nat} {lo hi : Nat} (hle : lo ≤ hi) (hhi : hi ≤ set.length)
    (hlt : ∀ k, lo ≤ k → k < hi → set.getD k 0 < g.n) :
    colsCode stop g.p g.i set lo hi = ok (codeI g (slice set lo hi)) := by
  unfold colsCode
  rw [seqCode_eq (c := fun k => colI g (set.getD k 0)) hle, flatMap_slice_eq hhi]
  · rfl
  · intro k hk1 hk2
    rw [rd_getD 0 (by omega)]
    simp only [ok_bind]
    exact colCode_eq hT stop (hlt k hk1 hk2)

theorem lbcPart_eq (hT : Tri g) (stop : Bool) {s : Sched} {parts : Nat} (h2 : PtrOk s.partPtr parts g.n)
    (hc : s.Complete g.n) {q : Nat} (hqp : q < parts) :
    colsCode stop g.p g.i s.nodes (s.partPtr.getD q 0) (s.partPtr.getD (q + 1) 0) = ok (codeI g (partRows s q)) := by
  have hnl := nodes_len hc
  have := h2.dle (b := q + 1) hqp
  apply colsCode_eq hT stop (h2.dmono hqp) (by omega)
  intro k hk1 hk2
  obtain ⟨i, hi1, hi2⟩ := partRows_lt h2 hc hqp hk1 hk2
  rw [List.getD_eq_getElem?_getD, hi1]
  exact hi2

theorem lbc_threads (hT : Tri g) {s : Sched} (hp : s.PtrsOk g.n) (hc : s.Complete g.n) :
    ∀ l, l < s.levels → ∃ lo hi, rd s.levelPtr l = ok lo ∧ rd s.levelPtr (l + 1) = ok hi ∧
      Mach.parCodes lo hi (fun j1 => do
        let lo ← rd s.partPtr j1
        let hi ← rd s.partPtr (j1 + 1)
        colsCode false g.p g.i s.nodes lo hi) = ok ((partsOf s l).map (codeI g)) := by
  intro l hl
  obtain ⟨parts, h1, h2⟩ := hp
  have hlen1 := h1.len
  have hlen2 := h2.len
  refine ⟨_, _, rd_getD 0 (by omega), rd_getD 0 (by omega), ?_⟩
  rw [parCodes_eq (c := fun q => codeI g (partRows s q)) (h1.dmono hl), partsOf, List.map_map]
  · rfl
  · intro q hq1 hq2
    have hqp : q < parts := by have := h1.dle (b := l + 1) hl; omega
    rw [rd_getD 0 (by omega), rd_getD 0 (by omega)]
    simp only [ok_bind]
    exact lbcPart_eq hT false h2 hc hqp

theorem levelset_threads (hT : Tri g) {levels : Nat} {levelPtr levelSet : List Nat}
    (hp : PtrOk levelPtr levels g.n) (hc : levelSet.Perm (List.range g.n)) :
    ∀ l, l < levels → ∃ lo hi, rd levelPtr l = ok lo ∧ rd levelPtr (l + 1) = ok hi ∧
      Mach.parCodes lo hi (fun k => do
        let i ← rd levelSet k
        colCode true g.p g.i i)
      = ok ((partsOf (Sched.ofLevels levels levelPtr levelSet) l).map (codeI g)) := by
  intro l hl
  have hlen : levelSet.length = g.n := by simpa using hc.length_eq
  have hlp := hp.len
  refine ⟨_, _, rd_getD 0 (by omega), rd_getD 0 (by omega), ?_⟩
  have hrows : ∀ k, k < g.n → levelSet.getD k 0 < g.n ∧
      partRows (Sched.ofLevels levels levelPtr levelSet) k = [levelSet.getD k 0] := by
    intro k hk
    have hk' : k < levelSet.length := by omega
    have hget : levelSet.getD k 0 = levelSet[k] := by simp [hk']
    constructor
    · rw [hget]
      exact List.mem_range.1 (hc.mem_iff.1 (List.getElem_mem hk'))
    · simp only [partRows, Sched.ofLevels]
      rw [getD_range (by omega), getD_range (by omega), slice_one hk', hget]
  rw [parCodes_eq (c := fun k => codeI g (partRows (Sched.ofLevels levels levelPtr levelSet) k))
    (hp.dmono hl), partsOf, List.map_map]
  · rfl
  · intro k hk1 hk2
    have hkn : k < g.n := by have := hp.dle (b := l + 1) hl; omega
    obtain ⟨h1, h2⟩ := hrows k hkn
    rw [rd_getD 0 (by omega)]
    simp only [ok_bind]
    rw [colCode_eq hT true h1, h2]
    simp [codeI]

theorem groupCode_eq (hT : Tri g) {gp gs : List Nat} {ng : Nat}
    (hg : PtrOk gp ng gs.length) (hrows : ∀ i ∈ gs, i < g.n) {gr : Nat} (hgr : gr < ng) :
    groupCode g.p g.i gp gs gr = ok (codeI g (groupRows gp gs gr)) := by
  unfold groupCode
  have hl := hg.len
  rw [rd_getD 0 (by omega), rd_getD 0 (by omega)]
  simp only [ok_bind]
  have hle := hg.dle (b := gr + 1) hgr
  refine (colsCode_eq hT true (hg.dmono hgr) hle ?_).trans rfl
  intro k hk1 hk2
  have hk : k < gs.length := by omega
  apply hrows
  rw [List.getD_eq_getElem?_getD, List.getElem?_eq_getElem hk]
  exact List.getElem_mem hk

theorem codeI_flatMap (l : List Nat) (f : Nat → List Nat) :
    codeI g (l.flatMap f) = l.flatMap (fun gr => codeI g (f gr)) := by
  simp [codeI, List.flatMap_assoc]

theorem groupLbc_threads (hT : Tri g) {s : Sched} {gp gs : List Nat} {ng listed : Nat}
    (hG : GroupsOk s gp gs ng g.n listed) :
    ∀ l, l < s.levels → ∃ lo hi, rd s.levelPtr l = ok lo ∧ rd s.levelPtr (l + 1) = ok hi ∧
      Mach.parCodes lo hi (fun j1 => do
        let lo ← rd s.partPtr j1
        let hi ← rd s.partPtr (j1 + 1)
        Mach.seqCode lo hi (fun k1 => do
          let gr ← rd s.nodes k1
          groupCode g.p g.i gp gs gr))
      = ok ((partsOf (s.expand gp gs) l).map (codeI g)) := by
  intro l hl
  obtain ⟨parts, h1, h2⟩ := hG.ptrs
  have hlen1 := h1.len
  have hlen2 := h2.len
  have hnl := hG.listedLe
  refine ⟨_, _, rd_getD 0 (by omega), rd_getD 0 (by omega), ?_⟩
  rw [parCodes_eq (c := fun q => codeI g (partRows (s.expand gp gs) q)) (h1.dmono hl), partsOf,
    List.map_map]
  · rfl
  · intro q hq1 hq2
    have hqp : q < parts := by have := h1.dle (b := l + 1) hl; omega
    rw [rd_getD 0 (by omega), rd_getD 0 (by omega)]
    simp only [ok_bind]
    have hq := h2.dle (b := q + 1) hqp
    rw [seqCode_eq (c := fun k => codeI g (groupRows gp gs (s.nodes.getD k 0))) (h2.dmono hqp),
      flatMap_slice_eq (f := fun gr => codeI g (groupRows gp gs gr)) (by omega),
      expand_partRows s gp gs (by omega) (h2.dmono hqp), codeI_flatMap]
    · rfl
    · intro k hk1 hk2
      have hk : k < s.nodes.length := by omega
      rw [rd_getD 0 hk]
      simp only [ok_bind]
      apply groupCode_eq hT hG.gptr hG.rows
      apply hG.groups
      rw [List.getD_eq_getElem?_getD, List.getElem?_eq_getElem hk, List.mem_iff_getElem]
      exact ⟨k, by simp; omega, by simp⟩

theorem groupLevelset_threads (hT : Tri g) {levels : Nat} {levelPtr levelSet gp gs : List Nat}
    {ng : Nat} (hp : PtrOk levelPtr levels levelSet.length) (hgr : ∀ gr ∈ levelSet, gr < ng)
    (hg : PtrOk gp ng gs.length) (hrows : ∀ i ∈ gs, i < g.n) :
    ∀ l, l < levels → ∃ lo hi, rd levelPtr l = ok lo ∧ rd levelPtr (l + 1) = ok hi ∧
      Mach.parCodes lo hi (fun j1 => do
        let gr ← rd levelSet j1
        groupCode g.p g.i gp gs gr)
      = ok ((partsOf ((Sched.ofLevels levels levelPtr levelSet).expand gp gs) l).map (codeI g)) := by
  intro l hl
  have hlp := hp.len
  refine ⟨_, _, rd_getD 0 (by omega), rd_getD 0 (by omega), ?_⟩
  rw [parCodes_eq (c := fun k => codeI g (partRows
    ((Sched.ofLevels levels levelPtr levelSet).expand gp gs) k)) (hp.dmono hl), partsOf,
    List.map_map]
  · rfl
  · intro k hk1 hk2
    have hkn : k < levelSet.length := by have := hp.dle (b := l + 1) hl; omega
    rw [rd_getD 0 hkn]
    simp only [ok_bind]
    have hget : levelSet.getD k 0 = levelSet[k] := by simp [hkn]
    rw [groupCode_eq hT hg hrows (by rw [hget]; exact hgr _ (List.getElem_mem hkn))]
    rw [expand_partRows]
    · simp only [partRows, Sched.ofLevels]
      rw [getD_range (by omega), getD_range (by omega), slice_one hkn, hget]
      simp
    · simp [Sched.ofLevels]; omega
    · simp only [Sched.ofLevels]
      rw [getD_range (by omega), getD_range (by omega)]; omega

end Verif.Ic0
