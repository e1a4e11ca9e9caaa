import Verif.Proof.GroupDag
import Verif.Proof.SchedLoop

/-! # Un-grouping a schedule -/

namespace Verif
open Res

/-! ### Loops over blocks -/

theorem forN_add {σ : Type} (f : Nat → σ → Res σ) : ∀ (a b lo : Nat) (s : σ),
    forN (a + b) lo f s = (forN a lo f s >>= forN b (lo + a) f) := by
  intro a
  induction a with
  | zero => intro b lo s; simp [forN]
  | succ a ih =>
    intro b lo s
    rw [show a + 1 + b = (a + b) + 1 by omega]
    simp only [forN]
    cases f lo s with
    | ok s' => simp only [ok_bind]; rw [ih, show lo + 1 + a = lo + (a + 1) by omega]
    | _ => rfl

theorem forRange_split {σ : Type} (f : Nat → σ → Res σ) {a b c : Nat} (h1 : a ≤ b) (h2 : b ≤ c)
    (s : σ) : forRange a c f s = (forRange a b f s >>= forRange b c f) := by
  unfold forRange
  rw [show c - a = (b - a) + (c - b) by omega, forN_add]
  congr 1
  funext s'
  rw [show a + (b - a) = b by omega]

theorem forRange_one {σ : Type} (f : Nat → σ → Res σ) (a : Nat) (s : σ) :
    forRange a (a + 1) f s = f a s := by
  unfold forRange
  rw [Nat.add_sub_cancel_left]
  simp only [forN]
  cases f a s <;> rfl

/-- A loop over the blocks of a pointer array with an inner loop over the block is a loop over
all positions. -/
theorem forRange_blocks {σ : Type} {ptr : List Nat} {m total : Nat} (h : PtrOk ptr m total)
    (f : Nat → σ → Res σ) (s : σ) :
    forRange 0 m (fun b s => do
      let lo ← rd ptr b
      let hi ← rd ptr (b + 1)
      forRange lo hi f s) s = forRange 0 total f s := by
  have hlen := h.len
  have key : ∀ k, k ≤ m → forRange 0 k (fun b s => do
      let lo ← rd ptr b
      let hi ← rd ptr (b + 1)
      forRange lo hi f s) s = forRange 0 (ptr.getD k 0) f s := by
    intro k
    induction k with
    | zero => intro _; rw [h.d0, forRange_empty _ _ (le_refl _), forRange_empty _ _ (le_refl _)]
    | succ k ih =>
      intro hk
      rw [forRange_split _ (Nat.zero_le k) (Nat.le_succ k), ih (by omega),
        forRange_split f (Nat.zero_le _) (h.dmono (b := k) (by omega))]
      congr 1
      funext s'
      rw [forRange_one, rd_getD 0 (by omega), ok_bind, rd_getD 0 (by omega), ok_bind]
  rw [key m (le_refl _), h.dlast]

namespace Group
open Hdagg

/-! ### Unpacking -/

theorem unpackGroup_eq {G : Grouping} {n : Nat} (h : G.Partition n) {j : Nat} (hj : j < G.num)
    (u : Unpack) : unpackGroup G.ptr G.set j u
      = ok ⟨u.part, u.nodes ++ groupRows G.ptr G.set j,
          u.cnt + (groupRows G.ptr G.set j).length⟩ := by
  unfold unpackGroup
  rw [(h.rd_lo hj).1, ok_bind, (h.rd_lo hj).2, ok_bind]
  have hb := h.bounds hj
  have hs := forRange_slice G.set (fun node (s : Unpack) =>
    ok (⟨s.part, s.nodes ++ [node], s.cnt + 1⟩ : Unpack)) u hb.1 hb.2
  refine hs.trans ?_
  clear hs
  rw [Grouping.rows_eq]
  generalize slice G.set (G.ptr.getD j 0) (G.ptr.getD (j + 1) 0) = l
  induction l generalizing u with
  | nil => simp [forEach]
  | cons a l ih =>
    simp only [forEach, ok_bind]
    rw [ih]
    simp
    omega

/-- The nodes of the first `k` listed groups. -/
def unpackedTo (s : Sched) (G : Grouping) (k : Nat) : List Nat :=
  (s.nodes.take k).flatMap (groupRows G.ptr G.set)

theorem unpackedTo_succ {s : Sched} {G : Grouping} {k a : Nat} (h : s.nodes[k]? = some a) :
    unpackedTo s G (k + 1) = unpackedTo s G k ++ groupRows G.ptr G.set a := by
  unfold unpackedTo
  rw [List.take_add_one, h, List.flatMap_append]
  simp

theorem unpack_eq {s : Sched} {G : Grouping} {n parts total : Nat} (h : G.Partition n)
    (h1 : PtrOk s.levelPtr s.levels parts) (h2 : PtrOk s.partPtr parts total)
    (hn : total ≤ s.nodes.length) (hr : ∀ a ∈ s.nodes.take total, a < G.num) :
    unpack s G.ptr G.set = ok ((List.range (parts + 1)).map fun q =>
      (unpackedTo s G (s.partPtr.getD q 0)).length, unpackedTo s G total) := by
  unfold unpack
  rw [forRange_blocks h1]
  have key := forRange_wp (fun q (u : Unpack) => u.part = (List.range q).map (fun q =>
      (unpackedTo s G (s.partPtr.getD q 0)).length) ∧
      u.nodes = unpackedTo s G (s.partPtr.getD q 0) ∧ u.cnt = u.nodes.length) (lo := 0) (hi := parts)
    (f := fun j1 (u : Unpack) => do
        let lo ← rd s.partPtr j1
        let hi ← rd s.partPtr (j1 + 1)
        forRange lo hi (fun k1 u => do
          let g ← rd s.nodes k1
          unpackGroup G.ptr G.set g u) ⟨u.part ++ [u.cnt], u.nodes, u.cnt⟩)
    (s := ⟨[], [], 0⟩) (Nat.zero_le _) ?_ ?_
  · obtain ⟨u, e1, e2, e3, e4⟩ := wp_iff.1 key
    rw [e1, ok_bind, e2, e4, e3, h2.dlast, List.range_succ, List.map_append, List.map_singleton,
      h2.dlast]
  · rw [h2.d0]
    exact ⟨rfl, rfl, rfl⟩
  · rintro q u _ hq ⟨e1, e2, e3⟩
    have hlen := h2.len
    rw [rd_getD 0 (by omega), ok_bind, rd_getD 0 (by omega), ok_bind]
    have hle := h2.dle (b := q + 1) hq
    refine wp_mono (forRange_wp (fun k (w : Unpack) => w.part = u.part ++ [u.cnt] ∧
      w.nodes = unpackedTo s G k ∧ w.cnt = w.nodes.length) (h2.dmono hq) ⟨rfl, e2, e3⟩ ?_) ?_
    · rintro k w hk1 hk2 ⟨f1, f2, f3⟩
      have hk : k < s.nodes.length := by omega
      have hg := getElem?_getD (l := s.nodes) 0 hk
      rw [rd_getD 0 hk, ok_bind, unpackGroup_eq h (hr _ (List.mem_of_getElem?
        (i := k) (by rw [List.getElem?_take, if_pos (by omega)]; exact hg))), wp_ok]
      refine ⟨f1, ?_, ?_⟩
      · dsimp only
        rw [unpackedTo_succ hg, f2]
      · dsimp only
        rw [List.length_append, f3]
    · rintro w ⟨f1, f2, f3⟩
      refine ⟨?_, f2, f3⟩
      rw [f1, e1, List.range_succ, List.map_append, e3, e2]
      rfl

/-! ### Validity after re-ordering inside the parts -/

theorem unpackedTo_mono (s : Sched) (G : Grouping) {a b : Nat} (h : a ≤ b) :
    (unpackedTo s G a).length ≤ (unpackedTo s G b).length := by
  unfold unpackedTo
  have h2 : s.nodes.take a = (s.nodes.take b).take a := by rw [List.take_take, Nat.min_eq_left h]
  conv_rhs => rw [← List.take_append_drop a (s.nodes.take b), ← h2, List.flatMap_append,
    List.length_append]
  omega

theorem unpackedTo_slice (s : Sched) (G : Grouping) {a b N : Nat} (h : a ≤ b) (hb : b ≤ N) :
    slice (unpackedTo s G N) (unpackedTo s G a).length (unpackedTo s G b).length
      = (slice s.nodes a b).flatMap (groupRows G.ptr G.set) := by
  unfold unpackedTo
  have e1 : s.nodes.take N = s.nodes.take a ++ (slice s.nodes a b ++ slice s.nodes b N) := by
    rw [← slice_zero, ← slice_append (Nat.zero_le a) (le_trans h hb), ← slice_append h hb, slice_zero]
  have e2 : s.nodes.take b = s.nodes.take a ++ slice s.nodes a b := by
    rw [← slice_zero, ← slice_append (Nat.zero_le a) h, slice_zero]
  rw [slice, e1, e2]
  simp only [List.flatMap_append, List.length_append]
  rw [List.drop_left, Nat.add_sub_cancel_left, List.take_left]

theorem unpackedTo_perm {s : Sched} {G : Grouping} {n : Nat} (hG : G.Partition n)
    (hc : s.Complete G.num) : (unpackedTo s G G.num).Perm (List.range n) := by
  unfold unpackedTo
  refine (List.Perm.flatMap_right _ hc).trans ?_
  have := flatMap_slices G.set G.ptr G.num hG.ptr.d0 (fun b hb => hG.ptr.dmono hb)
  rw [hG.ptr.dlast] at this
  show ((List.range G.num).flatMap fun b =>
    slice G.set (G.ptr.getD b 0) (G.ptr.getD (b + 1) 0)).Perm _
  rw [this]
  exact hG.nodes

/-- Pointers of the unpacked parts. -/
def unpackPtr (s : Sched) (G : Grouping) (parts : Nat) : List Nat :=
  (List.range (parts + 1)).map fun q => (unpackedTo s G (s.partPtr.getD q 0)).length

theorem unpackPtr_getD (s : Sched) (G : Grouping) {parts q : Nat} (h : q ≤ parts) :
    (unpackPtr s G parts).getD q 0 = (unpackedTo s G (s.partPtr.getD q 0)).length := by
  unfold unpackPtr
  rw [List.getD_eq_getElem?_getD, List.getElem?_map, List.getElem?_range (by omega)]
  rfl

theorem unpackPtr_ok {s : Sched} {G : Grouping} {n parts : Nat} (hG : G.Partition n)
    (h2 : PtrOk s.partPtr parts G.num) (hc : s.Complete G.num) :
    PtrOk (unpackPtr s G parts) parts n := by
  refine PtrOk.mk' (by simp [unpackPtr]) ?_ ?_ ?_
  · rw [unpackPtr_getD s G (Nat.zero_le _), h2.d0]; simp [unpackedTo]
  · rw [unpackPtr_getD s G (le_refl _), h2.dlast, (unpackedTo_perm hG hc).length_eq]; simp
  · intro q hq
    rw [unpackPtr_getD s G (by omega), unpackPtr_getD s G (by omega)]
    exact unpackedTo_mono s G (h2.dmono hq)

theorem regroup_valid {s : Sched} {G : Grouping} {g : Csc} {parts : Nat} (hg : g.WF)
    (hG : G.Partition g.n) (h1 : PtrOk s.levelPtr s.levels parts)
    (h2 : PtrOk s.partPtr parts G.num) (hc : s.Complete G.num) (ht : s.Together (G.Dep g))
    {l : List Nat} {R : Nat → Nat → Prop} (hl : l.Perm (unpackedTo s G G.num))
    (hs : ∀ t, t < parts →
      (slice l ((unpackPtr s G parts).getD t 0) ((unpackPtr s G parts).getD (t + 1) 0)).Perm
        (slice (unpackedTo s G G.num) ((unpackPtr s G parts).getD t 0)
          ((unpackPtr s G parts).getD (t + 1) 0)) ∧
      (slice l ((unpackPtr s G parts).getD t 0) ((unpackPtr s G parts).getD (t + 1) 0)).Pairwise R)
    (hR : ∀ u v, g.Dep u v → ¬ R v u) :
    (⟨s.levels, s.levelPtr, unpackPtr s G parts, l⟩ : Sched).Valid g.n g.Dep := by
  have hpo := unpackPtr_ok hG h2 hc
  have hperm := hl.trans (unpackedTo_perm hG hc)
  have hlen : l.length = g.n := by simpa using hperm.length_eq
  have hnd : l.Nodup := hperm.nodup_iff.2 List.nodup_range
  refine ⟨⟨parts, h1, hpo⟩, ?_, ?_⟩
  · unfold Sched.Complete
    dsimp only
    rw [List.take_of_length_le (by omega)]
    exact hperm
  · -- the group of a scheduled node
    have hat : ∀ u lv q k, (⟨s.levels, s.levelPtr, unpackPtr s G parts, l⟩ : Sched).At u lv q k →
        q < parts ∧ (unpackPtr s G parts).getD q 0 ≤ k ∧ k < (unpackPtr s G parts).getD (q + 1) 0 ∧
        ∃ a k0, G.Mem u a ∧ s.At a lv q k0 := by
      rintro u lv q k ⟨a1, a2, a3, a4⟩
      dsimp only at a1 a2 a3 a4
      have hq : q < parts := by
        have := (h1.inBlock_iff a1).1 a2
        have := h1.dle (b := lv + 1) a1
        omega
      have hk := (hpo.inBlock_iff hq).1 a3
      refine ⟨hq, hk.1, hk.2, ?_⟩
      have hm : u ∈ slice l ((unpackPtr s G parts).getD q 0) ((unpackPtr s G parts).getD (q + 1) 0) :=
        mem_slice.2 ⟨k, hk.1, hk.2, a4⟩
      rw [(hs q hq).1.mem_iff, unpackPtr_getD s G (by omega), unpackPtr_getD s G (by omega),
        unpackedTo_slice s G (h2.dmono hq) (h2.dle (b := q + 1) hq), List.mem_flatMap] at hm
      obtain ⟨a, ha, hu⟩ := hm
      obtain ⟨k0, e1, e2, e3⟩ := mem_slice.1 ha
      have han : a < G.num := by
        have := h2.dle (b := q + 1) hq
        exact List.mem_range.1 (hc.mem_iff.1 (List.mem_of_getElem? (i := k0)
          (by rw [List.getElem?_take, if_pos (by omega)]; exact e3)))
      exact ⟨a, k0, ⟨han, hu⟩, a1, a2, (h2.inBlock_iff hq).2 ⟨e1, e2⟩, e3⟩
    intro u v huv lv q k lv' q' k' hu hv
    obtain ⟨q1, k1, k2, a, k0, ha, hA⟩ := hat u lv q k hu
    obtain ⟨q1', k1', k2', b, k0', hb, hB⟩ := hat v lv' q' k' hv
    have hsame : lv < lv' ∨ (lv = lv' ∧ q = q') := by
      by_cases hab : a = b
      · subst hab
        right
        have hk0 : k0 < G.num := by
          have := (h2.inBlock_iff q1).1 hA.2.2.1
          have := h2.dle (b := q + 1) q1
          omega
        have hk0' : k0' < G.num := by
          have := (h2.inBlock_iff q1').1 hB.2.2.1
          have := h2.dle (b := q' + 1) q1'
          omega
        have hndg : (s.nodes.take G.num).Nodup := hc.nodup_iff.2 List.nodup_range
        have hkk : k0 = k0' := nodup_getElem?_inj hndg
          (by rw [List.getElem?_take, if_pos hk0]; exact hA.2.2.2)
          (by rw [List.getElem?_take, if_pos hk0']; exact hB.2.2.2)
        subst hkk
        have e1 := (h2.inBlock_iff q1).1 hA.2.2.1
        have e2 := (h2.inBlock_iff q1').1 hB.2.2.1
        have hqq := h2.block_unique q1 q1' e1.1 e1.2 e2.1 e2.2
        subst hqq
        have e3 := (h1.inBlock_iff hA.1).1 hA.2.1
        have e4 := (h1.inBlock_iff hB.1).1 hB.2.1
        exact ⟨h1.block_unique hA.1 hB.1 e3.1 e3.2 e4.1 e4.2, rfl⟩
      · exact ht a b ⟨hab, u, v, ha, hb, huv⟩ lv q k0 lv' q' k0' hA hB
    rcases hsame with h | ⟨h, h'⟩
    · exact .inl h
    · right
      subst h h'
      refine ⟨rfl, rfl, ?_⟩
      rcases Nat.lt_trichotomy k k' with h | h | h
      · exact h
      · subst h
        have := hu.2.2.2.symm.trans hv.2.2.2
        rw [Option.some.injEq] at this
        exact absurd this huv.2.2
      · exfalso
        have hpw := List.pairwise_iff_getElem.1 (hs q q1).2
        have g1 : (slice l ((unpackPtr s G parts).getD q 0) ((unpackPtr s G parts).getD (q + 1) 0))[
            k - (unpackPtr s G parts).getD q 0]? = some u := by
          rw [getElem?_slice, if_pos (by omega), show _ + (k - _) = k by omega]
          exact hu.2.2.2
        have g2 : (slice l ((unpackPtr s G parts).getD q 0) ((unpackPtr s G parts).getD (q + 1) 0))[
            k' - (unpackPtr s G parts).getD q 0]? = some v := by
          rw [getElem?_slice, if_pos (by omega), show _ + (k' - _) = k' by omega]
          exact hv.2.2.2
        obtain ⟨p1, p2⟩ := List.getElem?_eq_some_iff.1 g1
        obtain ⟨p3, p4⟩ := List.getElem?_eq_some_iff.1 g2
        have := hpw _ _ p3 p1 (by omega)
        rw [p2, p4] at this
        exact hR u v huv this

/-! ### The sorting loops -/

theorem overParts_eq {s : Sched} {parts : Nat} (h1 : PtrOk s.levelPtr s.levels parts)
    (f : Nat → List Nat → Res (List Nat)) (l : List Nat) :
    overParts s f l = forRange 0 parts f l := forRange_blocks h1 f l

theorem overParts_sort {s : Sched} {parts : Nat} (h1 : PtrOk s.levelPtr s.levels parts)
    {b ns : List Nat} (hp : PtrOk b parts ns.length) :
    wp (overParts s (sortPart b) ns) (fun l => l.Perm ns ∧ ∀ t, t < parts →
      (slice l (b.getD t 0) (b.getD (t + 1) 0)).Perm (slice ns (b.getD t 0) (b.getD (t + 1) 0)) ∧
      (slice l (b.getD t 0) (b.getD (t + 1) 0)).Pairwise (· ≤ ·)) := by
  rw [overParts_eq h1]
  refine blocks_loop hp ?_
  intro t ht l hperm
  have hlen := hp.len
  unfold sortPart
  rw [rd_getD 0 (by omega), ok_bind, rd_getD 0 (by omega), ok_bind]
  have := hp.dle (b := t + 1) ht
  by_cases he : b.getD t 0 = b.getD (t + 1) 0
  · rw [if_neg (by simpa using he), wp_ok]
    refine ⟨rfl, fun _ _ => rfl, .refl _, ?_⟩
    rw [he, slice_self]
    exact List.Pairwise.nil
  · rw [if_pos he]
    exact sortRange_spec (hp.dmono ht) (by rw [hperm.length_eq]; exact this)

theorem overParts_post {s : Sched} {parts n : Nat} (h1 : PtrOk s.levelPtr s.levels parts)
    {b ns post inv : List Nat} (hI : InvOk n post inv) (hp : PtrOk b parts ns.length)
    (hl : b.length = parts + 1) (hns : ∀ u ∈ ns, u < n) (hnl : ns.length ≤ n) :
    wp (overParts s (sortPartPost n post inv b) ns) (fun l => l.Perm ns ∧ ∀ t, t < parts →
      (slice l (b.getD t 0) (b.getD (t + 1) 0)).Perm (slice ns (b.getD t 0) (b.getD (t + 1) 0)) ∧
      (slice l (b.getD t 0) (b.getD (t + 1) 0)).Pairwise
        (fun x y => inv.getD x 0 ≤ inv.getD y 0)) := by
  have : overParts s (sortPartPost n post inv b) ns = sortPartsPost n post inv b ns := by
    rw [overParts_eq h1]
    unfold sortPartsPost
    rw [hl, Nat.add_sub_cancel]
    rfl
  rw [this]
  exact sortPartsPost_spec hI hp hl hns hnl

/-- What a group schedule has to satisfy before un-grouping. -/
structure UngroupPre (s : Sched) (G : Grouping) (g : Csc) (parts : Nat) : Prop where
  wf : g.WF
  part : G.Partition g.n
  lv : PtrOk s.levelPtr s.levels parts
  pt : PtrOk s.partPtr parts G.num
  complete : s.Complete G.num
  tog : s.Together (G.Dep g)

theorem UngroupPre.unpack {s : Sched} {G : Grouping} {g : Csc} {parts : Nat}
    (h : UngroupPre s G g parts) :
    unpack s G.ptr G.set = ok (unpackPtr s G parts, unpackedTo s G G.num) := by
  have hl : G.num ≤ s.nodes.length := by
    have := h.complete.length_eq
    simp at this
    omega
  exact unpack_eq h.part h.lv h.pt hl
    (fun a ha => List.mem_range.1 (h.complete.mem_iff.1 ha))

theorem UngroupPre.len {s : Sched} {G : Grouping} {g : Csc} {parts : Nat}
    (h : UngroupPre s G g parts) : (unpackedTo s G G.num).length = g.n := by
  simpa using (unpackedTo_perm h.part h.complete).length_eq

theorem UngroupPre.asserts {s : Sched} {G : Grouping} {g : Csc} {parts : Nat}
    (h : UngroupPre s G g parts) (debug : Bool) :
    ungroupAsserts debug g.n s (unpackPtr s G parts, unpackedTo s G G.num) = ok () := by
  unfold ungroupAsserts
  cases debug
  · simp
  · have := h.lv.len
    rw [if_pos rfl, rd_getD 0 (by omega), ok_bind, h.lv.dlast, if_pos]
    exact ⟨by simp [unpackPtr], h.len⟩

end Group
end Verif
