import Verif.Proof.ExecLevels
import Verif.Proof.Slices

/-! From array schedules to nested schedules. -/

namespace Verif.Exec
open Res

variable {V : Type} {A : Arith V} {m : Mat V}

/-- The rows of part `q`. -/
def partRows (s : Sched) (q : Nat) : List Nat :=
  slice s.nodes (s.partPtr.getD q 0) (s.partPtr.getD (q + 1) 0)

/-- The parts of level `l`. -/
def partsOf (s : Sched) (l : Nat) : List (List Nat) :=
  (List.range' (s.levelPtr.getD l 0) (s.levelPtr.getD (l + 1) 0 - s.levelPtr.getD l 0)).map
    (partRows s)

theorem nestedRows_partsOf {s : Sched} {parts n : Nat} (h1 : PtrOk s.levelPtr s.levels parts)
    (h2 : PtrOk s.partPtr parts n) {l : Nat} (hl : l ≤ s.levels) :
    nestedRows (partsOf s) l = s.nodes.take (s.partPtr.getD (s.levelPtr.getD l 0) 0) := by
  induction l with
  | zero => rw [h1.d0, h2.d0]; simp [nestedRows]
  | succ l ih =>
    rw [nestedRows_succ, ih (by omega)]
    have hm := h1.dmono (b := l) (by omega)
    have hle := h1.dle (b := l + 1) hl
    have : ∀ c a, a + c ≤ parts → ((List.range' a c).map (partRows s)).flatten
        = slice s.nodes (s.partPtr.getD a 0) (s.partPtr.getD (a + c) 0) := by
      intro c
      induction c with
      | zero => intro a _; simp [slice]
      | succ c ih2 =>
        intro a ha
        rw [List.range'_succ, List.map_cons, List.flatten_cons, ih2 (a + 1) (by omega), partRows,
          slice_append (h2.dmono (by omega)) (h2.dmono_le (by omega) (by omega)),
          show a + 1 + c = a + (c + 1) by omega]
    rw [partsOf, this _ _ (by omega), ← slice_zero, slice_append (Nat.zero_le _)
      (h2.dmono_le (by omega) (by omega)), slice_zero]
    congr 3
    omega

theorem Sched.nestedOk {s : Sched} {n : Nat} {dep : Nat → Nat → Prop} (hv : s.Valid n dep)
    (hdep : ∀ u v, dep u v → u < n ∧ v < n) : NestedOk n dep s.levels (partsOf s) := by
  obtain ⟨parts, h1, h2⟩ := hv.ptrs
  refine ⟨?_, ?_⟩
  · rw [nestedRows_partsOf h1 h2 (Nat.le_refl _), h1.dlast, h2.dlast]
    exact hv.complete
  · intro l hl P hP pre v post hsplit u hu
    rw [partsOf, List.mem_map] at hP
    obtain ⟨q, hq, rfl⟩ := hP
    rw [List.mem_range'_1] at hq
    have hlm := h1.dmono hl
    have hlle := h1.dle (b := l + 1) hl
    have hqp : q < parts := by omega
    -- position of v
    have hk : (partRows s q)[pre.length]? = some v := by
      rw [hsplit]; simp
    rw [partRows, getElem?_slice] at hk
    split at hk
    swap
    · cases hk
    rename_i hkb
    have hatv : s.At v l q (s.partPtr.getD q 0 + pre.length) :=
      ⟨hl, (h1.inBlock_iff hl).2 ⟨by omega, by omega⟩,
        (h2.inBlock_iff hqp).2 ⟨by omega, hkb⟩, hk⟩
    -- position of u
    have hun := (hdep u v hu).1
    have hum : u ∈ s.nodes.take n := hv.complete.mem_iff.2 (List.mem_range.2 hun)
    obtain ⟨k', hk', hke'⟩ := List.mem_iff_getElem.1 hum
    have hk'n : k' < n := by simp at hk'; omega
    have hku : s.nodes[k']? = some u := by
      rw [List.getElem_take] at hke'
      rw [← hke', List.getElem?_eq_getElem (by simp at hk'; omega)]
    obtain ⟨q', hq', hb1, hb2⟩ := h2.exists_block hk'n
    obtain ⟨l', hl', hc1, hc2⟩ := h1.exists_block hq'
    have hatu : s.At u l' q' k' :=
      ⟨hl', (h1.inBlock_iff hl').2 ⟨hc1, hc2⟩, (h2.inBlock_iff hq').2 ⟨hb1, hb2⟩, hku⟩
    rcases hv.respects u v hu l' q' k' l q _ hatu hatv with h | ⟨rfl, rfl, h⟩
    · left
      rw [nestedRows_partsOf h1 h2 (by omega), ← slice_zero, mem_slice]
      refine ⟨k', Nat.zero_le _, ?_, hku⟩
      have a1 := h1.dmono_le (a := l' + 1) (b := l) (by omega) (by omega)
      have a2 := h2.dmono_le (a := q' + 1) (b := s.levelPtr.getD l 0) (by omega)
        (h1.dle (by omega))
      omega
    · right
      have hpre : pre = slice s.nodes (s.partPtr.getD q' 0) (s.partPtr.getD q' 0 + pre.length) := by
        have : pre = (partRows s q').take pre.length := by rw [hsplit]; simp
        conv_lhs => rw [this]
        rw [partRows, slice, slice, List.take_take]
        congr 1
        omega
      rw [hpre, mem_slice]
      exact ⟨k', hb1, h, hku⟩

/-- Rows of a part are in range. -/
theorem partRows_lt {s : Sched} {parts n : Nat}
    (h2 : PtrOk s.partPtr parts n) (hc : s.Complete n) {q : Nat} (hq : q < parts)
    {k : Nat} (_h3 : s.partPtr.getD q 0 ≤ k) (h4 : k < s.partPtr.getD (q + 1) 0) :
    ∃ i, s.nodes[k]? = some i ∧ i < n := by
  have hkn : k < n := by have := h2.dle (b := q + 1) hq; omega
  have hlen : n ≤ s.nodes.length := by
    have := hc.length_eq
    simp at this
    omega
  have hkl : k < s.nodes.length := by omega
  refine ⟨s.nodes[k], List.getElem?_eq_getElem hkl, ?_⟩
  have : s.nodes[k] ∈ s.nodes.take n := by
    rw [List.mem_iff_getElem]
    exact ⟨k, by simp; omega, by simp⟩
  exact List.mem_range.1 (hc.mem_iff.1 this)

theorem flatMap_slice_eq {β : Type _} {l : List Nat} {a b : Nat} (hb : b ≤ l.length)
    (f : Nat → List β) :
    (List.range' a (b - a)).flatMap (fun k => f (l.getD k 0)) = (slice l a b).flatMap f := by
  have : (List.range' a (b - a)).map (fun k => l.getD k 0) = slice l a b := by
    apply List.ext_getElem?
    intro j
    rw [getElem?_slice, List.getElem?_map]
    by_cases h : a + j < b
    · rw [if_pos h, List.getElem?_range' (by omega)]
      have hl : a + 1 * j < l.length := by omega
      simp only [Option.map_some]
      rw [List.getD_eq_getElem?_getD, List.getElem?_eq_getElem hl]
      simp only [Option.getD_some, Nat.one_mul]
      rw [List.getElem?_eq_getElem (by omega)]
    · rw [if_neg h, List.getElem?_eq_none (by simp; omega)]; rfl
  rw [← this, List.flatMap_map]

theorem nodes_len {s : Sched} {n : Nat} (hc : s.Complete n) : n ≤ s.nodes.length := by
  have := hc.length_eq
  simp at this
  omega

theorem lbcThread_eq (h : RowsOk m) {s : Sched} {parts : Nat} (h2 : PtrOk s.partPtr parts m.n)
    (hc : s.Complete m.n) {q : Nat} (hqp : q < parts) :
    lbcThread m.p m.i m.x s q = ok (code h (partRows s q)) := by
  have hlen2 := h2.len
  have hnl := nodes_len hc
  unfold lbcThread
  rw [rd_getD 0 (by omega), rd_getD 0 (by omega)]
  simp only [ok_bind]
  rw [seqCode_eq (c := fun k => rowI h (s.nodes.getD k 0)) (h2.dmono hqp),
    flatMap_slice_eq (by have := h2.dle (b := q + 1) hqp; omega)]
  · rfl
  · intro k hk1 hk2
    obtain ⟨i, hi1, hi2⟩ := partRows_lt h2 hc hqp hk1 hk2
    rw [rd, hi1]
    simp only [ok_bind, List.getD_eq_getElem?_getD, hi1, Option.getD_some]
    exact rowCode_rowI h hi2

/-- The threads of the coarse-schedule solver. -/
theorem lbc_threads (h : RowsOk m) {s : Sched} (hp : s.PtrsOk m.n) (hc : s.Complete m.n) :
    ∀ l, l < s.levels → ∃ lo hi, rd s.levelPtr l = ok lo ∧ rd s.levelPtr (l + 1) = ok hi ∧
      parCodes lo hi (lbcThread m.p m.i m.x s) = ok ((partsOf s l).map (code h)) := by
  intro l hl
  obtain ⟨parts, h1, h2⟩ := hp
  have hlen1 := h1.len
  refine ⟨_, _, rd_getD 0 (by omega), rd_getD 0 (by omega), ?_⟩
  rw [parCodes_eq (c := fun q => code h (partRows s q)) (h1.dmono hl), partsOf, List.map_map]
  · rfl
  · intro q hq1 hq2
    have hqp : q < parts := by have := h1.dle (b := l + 1) hl; omega
    exact lbcThread_eq h h2 hc hqp

theorem RowDep.lt (h : RowsOk m) {u v : Nat} (hd : m.RowDep u v) : u < m.n ∧ v < m.n := by
  obtain ⟨hv, l, hl⟩ := hd
  refine ⟨?_, hv⟩
  have hmem : (u, l) ∈ m.row v := List.dropLast_subset _ hl
  apply h.wf.pat.range v hv u
  have : (m.row v).map Prod.fst = m.pat.col v := by
    unfold Mat.row Csc.col
    rw [List.map_take, List.map_drop]
    have hlen : m.pat.ptr (v + 1) ≤ (m.i.zip m.x).length := zip_len h.wf hv
    have h4 : m.pat.i = m.i := rfl
    rw [h4]
    apply List.ext_getElem?
    intro j
    rw [List.getElem?_take, List.getElem?_take]
    split
    · rw [List.getElem?_drop, List.getElem?_drop, List.getElem?_map]
      have hj : m.pat.ptr v + j < (m.i.zip m.x).length := by omega
      have hj' : m.pat.ptr v + j < m.i.length := by simp at hj; omega
      rw [List.getElem?_eq_getElem hj, List.getElem?_eq_getElem hj']
      simp
    · rfl
  rw [← this]
  exact List.mem_map_of_mem hmem

end Verif.Exec
