import Verif.Proof.ExecSched

/-! Level-set and grouped solvers. -/

namespace Verif.Exec
open Res

variable {V : Type} {A : Arith V} {m : Mat V}

theorem getD_range {n i : Nat} (h : i < n) : (List.range n).getD i 0 = i := by
  simp [List.getD_eq_getElem?_getD, h]

/-- A level set is a valid schedule. -/
theorem ofLevels_valid {n levels : Nat} {levelPtr levelSet : List Nat} {dep : Nat → Nat → Prop}
    (hp : PtrOk levelPtr levels n) (hc : levelSet.Perm (List.range n))
    (hd : ∀ u v lu lv, dep u v → lu < levels → lv < levels → InLevel levelPtr levelSet lu u →
      InLevel levelPtr levelSet lv v → lu < lv) :
    (Sched.ofLevels levels levelPtr levelSet).Valid n dep := by
  have hlen : levelSet.length = n := by simpa using hc.length_eq
  refine ⟨⟨n, hp, ?_⟩, ?_, ?_⟩
  · refine PtrOk.mk' (by simp [Sched.ofLevels, hlen]) ?_ ?_ ?_
    · simp only [Sched.ofLevels]; rw [getD_range (by omega)]
    · simp only [Sched.ofLevels]; rw [getD_range (by omega)]
    · intro b hb
      simp only [Sched.ofLevels]; rw [getD_range (by omega), getD_range (by omega)]; omega
  · show (levelSet.take n).Perm _
    rw [List.take_of_length_le (by omega)]; exact hc
  · rintro u v hdep l q k l' q' k' ⟨h1, h2, h3, h4⟩ ⟨g1, g2, g3, g4⟩
    left
    have blk : ∀ q k, InBlock (List.range (levelSet.length + 1)) q k → q = k := by
      rintro q k ⟨lo, hi, e1, e2, e3, e4⟩
      have hq1 : q + 1 < (List.range (levelSet.length + 1)).length := by
        by_contra hc'
        rw [List.getElem?_eq_none (by omega)] at e2; cases e2
      rw [List.getElem?_eq_getElem (by omega), Option.some.injEq, List.getElem_range] at e1
      rw [List.getElem?_eq_getElem hq1, Option.some.injEq, List.getElem_range] at e2
      omega
    have := blk q k h3
    subst this
    have := blk q' k' g3
    subst this
    exact hd u v l l' hdep h1 g1 ⟨q, h2, h4⟩ ⟨q', g2, g4⟩

theorem levelset_threads (h : RowsOk m) {levels : Nat} {levelPtr levelSet : List Nat}
    (hp : PtrOk levelPtr levels m.n) (hc : levelSet.Perm (List.range m.n)) :
    ∀ l, l < levels → ∃ lo hi, rd levelPtr l = ok lo ∧ rd levelPtr (l + 1) = ok hi ∧
      parCodes lo hi (fun k => do
        let i ← rd levelSet k
        rowCode m.p m.i m.x i)
      = ok ((partsOf (Sched.ofLevels levels levelPtr levelSet) l).map (code h)) := by
  intro l hl
  have hlen : levelSet.length = m.n := by simpa using hc.length_eq
  have hlp := hp.len
  refine ⟨_, _, rd_getD 0 (by omega), rd_getD 0 (by omega), ?_⟩
  have hrows : ∀ k, k < m.n → levelSet.getD k 0 < m.n ∧
      partRows (Sched.ofLevels levels levelPtr levelSet) k = [levelSet.getD k 0] := by
    intro k hk
    have hk' : k < levelSet.length := by omega
    have hget : levelSet.getD k 0 = levelSet[k] := by simp [hk']
    constructor
    · rw [hget]
      exact List.mem_range.1 (hc.mem_iff.1 (List.getElem_mem hk'))
    · simp only [partRows, Sched.ofLevels]
      rw [getD_range (by omega), getD_range (by omega), slice_one hk', hget]
  rw [parCodes_eq (c := fun k => code h (partRows (Sched.ofLevels levels levelPtr levelSet) k))
    (hp.dmono hl), partsOf, List.map_map]
  · rfl
  · intro k hk1 hk2
    have hkn : k < m.n := by have := hp.dle (b := l + 1) hl; omega
    obtain ⟨h1, h2⟩ := hrows k hkn
    rw [rd_getD 0 (by omega)]
    simp only [ok_bind]
    rw [rowCode_rowI h h1, h2]
    simp [code]

/-! ### Groups -/

theorem length_flatMap_take_mono (l : List Nat) (f : Nat → List Nat) {a b : Nat} (h : a ≤ b) :
    ((l.take a).flatMap f).length ≤ ((l.take b).flatMap f).length := by
  have : l.take b = l.take a ++ (l.take b).drop a := by
    have h2 : l.take a = (l.take b).take a := by rw [List.take_take, Nat.min_eq_left h]
    rw [h2, List.take_append_drop]
  rw [this, List.flatMap_append]
  simp

theorem slice_flatMap (l : List Nat) (f : Nat → List Nat) {a b : Nat} (h : a ≤ b) :
    slice (l.flatMap f) ((l.take a).flatMap f).length ((l.take b).flatMap f).length
      = (slice l a b).flatMap f := by
  have e1 : l = l.take a ++ (slice l a b ++ l.drop b) := by
    have h2 : l.take a ++ slice l a b = l.take b := by
      rw [← slice_zero, slice_append (Nat.zero_le _) h, slice_zero]
    rw [← List.append_assoc, h2, List.take_append_drop]
  have e2 : ((l.take b).flatMap f).length
      = ((l.take a).flatMap f).length + ((slice l a b).flatMap f).length := by
    have h2 : l.take b = l.take a ++ slice l a b := by
      rw [← slice_zero l a, slice_append (Nat.zero_le _) h, slice_zero]
    rw [h2, List.flatMap_append, List.length_append]
  have e3 : l.flatMap f = (l.take a).flatMap f ++ ((slice l a b).flatMap f ++
      (l.drop b).flatMap f) := by
    conv_lhs => rw [e1]
    rw [List.flatMap_append, List.flatMap_append]
  rw [slice, e2, e3, List.drop_left, Nat.add_sub_cancel_left, List.take_left]

theorem expand_getD (s : Sched) (gp gs : List Nat) {q : Nat} (hq : q < s.partPtr.length) :
    (s.expand gp gs).partPtr.getD q 0
      = ((s.nodes.take (s.partPtr.getD q 0)).flatMap (groupRows gp gs)).length := by
  simp [Sched.expand, List.getD_eq_getElem?_getD, hq]

theorem expand_partRows (s : Sched) (gp gs : List Nat) {q : Nat}
    (hq : q + 1 < s.partPtr.length) (hm : s.partPtr.getD q 0 ≤ s.partPtr.getD (q + 1) 0) :
    partRows (s.expand gp gs) q = (partRows s q).flatMap (groupRows gp gs) := by
  rw [partRows, expand_getD s gp gs (by omega), expand_getD s gp gs hq]
  exact slice_flatMap _ _ hm

/-- Side conditions of a group schedule that make the code run without errors. -/
structure GroupsOk (s : Sched) (gp gs : List Nat) (ng n listed : Nat) : Prop where
  gptr : PtrOk gp ng gs.length
  rows : ∀ i ∈ gs, i < n
  ptrs : s.PtrsOk listed
  listedLe : listed ≤ s.nodes.length
  groups : ∀ g ∈ s.nodes.take listed, g < ng

theorem groupCode_eq (h : RowsOk m) {gp gs : List Nat} {ng : Nat}
    (hg : PtrOk gp ng gs.length) (hrows : ∀ i ∈ gs, i < m.n) {gr : Nat} (hgr : gr < ng) :
    groupCode m.p m.i m.x gp gs gr = ok (code h (groupRows gp gs gr)) := by
  unfold groupCode
  have hl := hg.len
  rw [rd_getD 0 (by omega), rd_getD 0 (by omega)]
  simp only [ok_bind]
  have hle := hg.dle (b := gr + 1) hgr
  rw [seqCode_eq (c := fun k => rowI h (gs.getD k 0)) (hg.dmono hgr), flatMap_slice_eq hle]
  · rfl
  · intro k hk1 hk2
    have hk : k < gs.length := by omega
    rw [rd_getD 0 hk]
    simp only [ok_bind]
    apply rowCode_rowI h
    apply hrows
    rw [List.getD_eq_getElem?_getD, List.getElem?_eq_getElem hk]
    exact List.getElem_mem hk

theorem code_flatMap (h : RowsOk m) (l : List Nat) (f : Nat → List Nat) :
    code h (l.flatMap f) = l.flatMap (fun g => code h (f g)) := by
  simp [code, List.flatMap_assoc]

theorem groupLbc_threads (h : RowsOk m) {s : Sched} {gp gs : List Nat} {ng listed : Nat}
    (hG : GroupsOk s gp gs ng m.n listed) :
    ∀ l, l < s.levels → ∃ lo hi, rd s.levelPtr l = ok lo ∧ rd s.levelPtr (l + 1) = ok hi ∧
      parCodes lo hi (fun j1 => do
        let lo ← rd s.partPtr j1
        let hi ← rd s.partPtr (j1 + 1)
        seqCode lo hi (fun k1 => do
          let gr ← rd s.nodes k1
          groupCode m.p m.i m.x gp gs gr))
      = ok ((partsOf (s.expand gp gs) l).map (code h)) := by
  intro l hl
  obtain ⟨parts, h1, h2⟩ := hG.ptrs
  have hlen1 := h1.len
  have hlen2 := h2.len
  have hnl := hG.listedLe
  refine ⟨_, _, rd_getD 0 (by omega), rd_getD 0 (by omega), ?_⟩
  rw [parCodes_eq (c := fun q => code h (partRows (s.expand gp gs) q)) (h1.dmono hl), partsOf,
    List.map_map]
  · rfl
  · intro q hq1 hq2
    have hqp : q < parts := by have := h1.dle (b := l + 1) hl; omega
    rw [rd_getD 0 (by omega), rd_getD 0 (by omega)]
    simp only [ok_bind]
    have hq := h2.dle (b := q + 1) hqp
    rw [seqCode_eq (c := fun k => code h (groupRows gp gs (s.nodes.getD k 0))) (h2.dmono hqp),
      flatMap_slice_eq (f := fun g => code h (groupRows gp gs g)) (by omega),
      expand_partRows s gp gs (by omega) (h2.dmono hqp), code_flatMap]
    · rfl
    · intro k hk1 hk2
      have hk : k < s.nodes.length := by omega
      rw [rd_getD 0 hk]
      simp only [ok_bind]
      apply groupCode_eq h hG.gptr hG.rows
      apply hG.groups
      rw [List.getD_eq_getElem?_getD, List.getElem?_eq_getElem hk, List.mem_iff_getElem]
      exact ⟨k, by simp; omega, by simp⟩

theorem groupLevelset_threads (h : RowsOk m) {levels : Nat} {levelPtr levelSet gp gs : List Nat}
    {ng : Nat} (hp : PtrOk levelPtr levels levelSet.length) (hgr : ∀ g ∈ levelSet, g < ng)
    (hg : PtrOk gp ng gs.length) (hrows : ∀ i ∈ gs, i < m.n) :
    ∀ l, l < levels → ∃ lo hi, rd levelPtr l = ok lo ∧ rd levelPtr (l + 1) = ok hi ∧
      parCodes lo hi (fun j1 => do
        let gr ← rd levelSet j1
        groupCode m.p m.i m.x gp gs gr)
      = ok ((partsOf ((Sched.ofLevels levels levelPtr levelSet).expand gp gs) l).map
          (code h)) := by
  intro l hl
  have hlp := hp.len
  refine ⟨_, _, rd_getD 0 (by omega), rd_getD 0 (by omega), ?_⟩
  rw [parCodes_eq (c := fun k => code h (partRows
    ((Sched.ofLevels levels levelPtr levelSet).expand gp gs) k)) (hp.dmono hl), partsOf,
    List.map_map]
  · rfl
  · intro k hk1 hk2
    have hkn : k < levelSet.length := by have := hp.dle (b := l + 1) hl; omega
    rw [rd_getD 0 hkn]
    simp only [ok_bind]
    have hget : levelSet.getD k 0 = levelSet[k] := by simp [hkn]
    rw [groupCode_eq h hg hrows (by rw [hget]; exact hgr _ (List.getElem_mem hkn))]
    rw [expand_partRows]
    · simp only [partRows, Sched.ofLevels]
      rw [getD_range (by omega), getD_range (by omega), slice_one hkn, hget]
      simp
    · simp [Sched.ofLevels]; omega
    · simp only [Sched.ofLevels]
      rw [getD_range (by omega), getD_range (by omega)]; omega

end Verif.Exec
