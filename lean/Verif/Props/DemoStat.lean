import Verif.Model.DemoStat
import Verif.Proof.Metrics
import Verif.Proof.Ungroup

/-!
# C123: the measures of the classes of the LBC demo
-/

namespace Verif
open Res SchedStat DemoStat Finset

/-- The number of elements that are followed by their successor. -/
def neighbours : List Nat → Nat
  | a :: b :: l => (if b = a + 1 then 1 else 0) + neighbours (b :: l)
  | _ => 0

theorem neighbours_concat (l : List Nat) (x y : Nat) :
    neighbours (l ++ [x, y]) = neighbours (l ++ [x]) + if y = x + 1 then 1 else 0 := by
  induction l with
  | nil => simp [neighbours]
  | cons a l ih =>
    cases l with
    | nil => simp only [List.cons_append, List.nil_append, neighbours]; omega
    | cons b l =>
      simp only [List.cons_append, neighbours] at ih ⊢
      omega

theorem neighbours_lt (l : List Nat) (h : l ≠ []) : neighbours l < l.length := by
  induction l with
  | nil => exact absurd rfl h
  | cons a l ih =>
    cases l with
    | nil => simp [neighbours]
    | cons b l =>
      have := ih (by simp)
      simp only [neighbours, List.length_cons] at this ⊢
      split <;> omega

/-- All neighbours follow each other exactly in an interval in ascending order. -/
theorem neighbours_eq_iff (l : List Nat) (h : l ≠ []) :
    neighbours l + 1 = l.length ↔ ∃ a, l = List.range' a l.length := by
  induction l with
  | nil => exact absurd rfl h
  | cons a l ih =>
    cases l with
    | nil => simp [neighbours]
    | cons b l =>
      have h1 := neighbours_lt (b :: l) (by simp)
      have ih := ih (by simp)
      simp only [neighbours]
      rw [List.length_cons (a := a)]
      constructor
      · intro h2
        have hb : b = a + 1 := by
          by_contra hc
          rw [if_neg hc] at h2
          omega
        rw [if_pos hb] at h2
        obtain ⟨c, hc⟩ := ih.1 (by omega)
        refine ⟨a, ?_⟩
        have hcb : c = b := by
          rw [List.length_cons, List.range'_succ] at hc
          injection hc with e _
          exact e.symm
        rw [hcb] at hc
        rw [List.range'_succ, ← hb]
        exact congrArg (a :: ·) hc
      · rintro ⟨c, hc⟩
        rw [List.range'_succ] at hc
        injection hc with e1 e2
        subst e1
        have hb : b = a + 1 := by
          rw [List.length_cons, List.range'_succ] at e2
          injection e2
        have := ih.2 ⟨a + 1, e2⟩
        rw [if_pos hb]
        omega

/-- The nodes whose successor is among them as well. -/
def withNext (l m : List Nat) : Nat := (l.filter fun v => v + 1 ∈ m).length

theorem neighbours_le (l m : List Nat) (h : ∀ v ∈ l, v ∈ m) : neighbours l ≤ withNext l m := by
  induction l with
  | nil => simp [neighbours]
  | cons a l ih =>
    have ih := ih fun v hv => h v (by simp [hv])
    unfold withNext at ih ⊢
    cases l with
    | nil => simp [neighbours]
    | cons b l =>
      rw [List.filter_cons]
      simp only [neighbours]
      by_cases hb : b = a + 1
      · have : a + 1 ∈ m := by rw [← hb]; exact h b (by simp)
        rw [if_pos hb, if_pos (by simpa using this), List.length_cons]
        omega
      · rw [if_neg hb]
        split
        · rw [List.length_cons]; omega
        · omega

theorem neighbours_sorted (l : List Nat) (h : l.Pairwise (· < ·)) : neighbours l = withNext l l := by
  induction l with
  | nil => rfl
  | cons a l ih =>
    rw [List.pairwise_cons] at h
    have ih := ih h.2
    cases l with
    | nil => simp [neighbours, withNext]
    | cons b l =>
      have h2 := (List.pairwise_cons.1 h.2).1
      have hab := h.1 b (by simp)
      simp only [neighbours]
      rw [ih]
      unfold withNext
      rw [List.filter_cons (x := a)]
      have e1 : (a + 1 ∈ a :: b :: l) ↔ b = a + 1 := by
        constructor
        · intro hm
          rcases List.mem_cons.1 hm with e | hm
          · omega
          · rcases List.mem_cons.1 hm with e | hm
            · exact e.symm
            · have := h2 _ hm; omega
        · intro e; simp [e]
      have e2 : ((b :: l).filter fun v => v + 1 ∈ a :: b :: l) = (b :: l).filter fun v => v + 1 ∈ b :: l := by
        refine List.filter_congr fun v hv => ?_
        have := h.1 v hv
        have : v + 1 ≠ a := by omega
        simp [this]
      rw [e2]
      by_cases hb : b = a + 1
      · rw [if_pos hb, if_pos (by simpa using e1.2 hb), List.length_cons]; omega
      · rw [if_neg hb, if_neg (by simpa using fun h => hb (e1.1 h))]; omega

theorem withNext_perm {l l' : List Nat} (h : l.Perm l') : withNext l l = withNext l' l' := by
  unfold withNext
  rw [(h.filter _).length_eq]
  congr 1
  refine List.filter_congr fun v _ => ?_
  simp [h.mem_iff]

/-- No order has more neighbours than the ascending one. -/
theorem neighbours_best {l l' : List Nat} (h : l.Perm l') (hs : l'.Pairwise (· < ·)) : neighbours l ≤ neighbours l' := by
  rw [neighbours_sorted l' hs, ← withNext_perm h]
  exact neighbours_le l l fun _ h => h

/-! ### The loops -/

namespace DemoStat

theorem rd_some' {l : List Nat} {i a : Nat} (h : l[i]? = some a) : rd l i = ok a := by unfold rd; rw [h]

theorem slice_snoc {l : List Nat} {lo k : Nat} (h1 : lo ≤ k) (h2 : k < l.length) :
    slice l lo (k + 1) = slice l lo k ++ [l.getD k 0] := by
  unfold slice
  rw [show k + 1 - lo = (k - lo) + 1 by omega, List.take_add_one, List.getElem?_drop, show lo + (k - lo) = k by omega,
    List.getElem?_eq_getElem h2, List.getD_eq_getElem?_getD, List.getElem?_eq_getElem h2]
  rfl

theorem inner_eq {nodes : List Nat} {lo hi : Nat} (h1 : lo ≤ hi) (h2 : hi ≤ nodes.length) (a0 : Int) :
    forRange lo (hi - 1) (fun k1 sum => (do
      let b ← rd nodes (k1 + 1)
      let a ← rd nodes k1
      ok (if (b : Int) - (a : Int) = 1 then sum + 1 else sum) : Res Int)) a0 = ok (a0 + neighbours (slice nodes lo hi)) := by
  by_cases he : hi ≤ lo + 1
  · have : neighbours (slice nodes lo hi) = 0 := by
      have hl : (slice nodes lo hi).length ≤ 1 := by rw [slice_length h2]; omega
      match slice nodes lo hi, hl with
      | [], _ => rfl
      | [a], _ => rfl
    rw [this, forRange_empty _ _ (by omega)]
    simp
  · have key := forRange_wp (lo := lo) (hi := hi - 1) (s := a0) (f := fun k1 (sum : Int) => (do
      let b ← rd nodes (k1 + 1)
      let a ← rd nodes k1
      ok (if (b : Int) - (a : Int) = 1 then sum + 1 else sum) : Res Int))
      (I := fun k (sum : Int) => sum = a0 + neighbours (slice nodes lo (k + 1))) (by omega) (by
        have : neighbours (slice nodes lo (lo + 1)) = 0 := by
          have hl : (slice nodes lo (lo + 1)).length ≤ 1 := by rw [slice_length (by omega)]; omega
          match slice nodes lo (lo + 1), hl with
          | [], _ => rfl
          | [a], _ => rfl
        rw [this]; simp) (by
        intro k sum hk1 hk2 hs
        rw [rd_getD 0 (by omega), ok_bind, rd_getD 0 (by omega), ok_bind, wp_ok]
        rw [slice_snoc (k := k + 1) (by omega) (by omega), slice_snoc (k := k) (by omega) (by omega), List.append_assoc,
          List.singleton_append, neighbours_concat, ← slice_snoc (k := k) (by omega) (by omega), hs]
        split
        · rw [if_pos (by omega)]; push_cast; omega
        · rw [if_neg (by omega)]; push_cast; omega)
    obtain ⟨r, r1, r2⟩ := wp_iff.1 key
    rw [r1, r2, show hi - 1 + 1 = hi by omega]

end DemoStat

/-- **C123.** `averWsize` of a complete schedule: the number of entries of the matrix over the number of parts, empty
ones included; the order of the nodes does not matter. -/
theorem C123_average_size {s : Sched} {n parts : Nat} (hl : PtrOk s.levelPtr s.levels parts) (hp : PtrOk s.partPtr parts n)
    (hc : s.Complete n) {rp : List Nat} {nnz : Nat} (hr : PtrOk rp n nnz) : averWsize rp s = ok ((nnz : Int), (parts : Int)) := by
  obtain ⟨parts', h⟩ := Shape.of ⟨parts, hl, hp⟩ hc
  have hpp : parts' = parts := Option.some.inj (h.lev.last.symm.trans hl.last)
  subst hpp
  have hn := h.len
  have hpl := hp.len
  have hll := hl.len
  have hrl := hr.len
  unfold averWsize
  rw [rd_getD 0 (by omega), ok_bind, hl.dlast]
  have key := forRange_wp (lo := 0) (hi := parts') (s := (0 : Int)) (f := fun i (acc : Int) => (do
    let lo ← rd s.partPtr i
    let hi ← rd s.partPtr (i + 1)
    forRange lo hi (fun k1 acc => do
      let k ← rd s.nodes k1
      let b ← rd rp (k + 1)
      let a ← rd rp k
      ok (acc + ((b : Int) - (a : Int)))) acc : Res Int))
    (I := fun i (acc : Int) => acc = ((s.nodes.take (s.partPtr.getD i 0)).map fun v =>
      ((rp.getD (v + 1) 0 : Int) - (rp.getD v 0 : Int))).sum) (Nat.zero_le _) (by rw [hp.d0]; simp) (by
      intro i acc _ hi hacc
      have hmono := hp.dmono hi
      have hle : s.partPtr.getD (i + 1) 0 ≤ n := hp.dle (by omega)
      rw [rd_getD 0 (by omega), ok_bind, rd_getD 0 (by omega), ok_bind]
      refine wp_mono (forRange_wp (I := fun k (acc : Int) => acc = ((s.nodes.take k).map fun v =>
        ((rp.getD (v + 1) 0 : Int) - (rp.getD v 0 : Int))).sum) hmono hacc ?_) fun _ h => h
      intro k acc' _ hk hacc'
      have hkn : s.nodes.getD k 0 < n := by
        have : s.nodes.getD k 0 ∈ s.nodes.take n := by
          rw [List.getD_eq_getElem?_getD, List.getElem?_eq_getElem (by omega)]
          exact List.mem_of_getElem? (i := k) (by
            rw [List.getElem?_take, if_pos (by omega), List.getElem?_eq_getElem (by omega)]; rfl)
        exact List.mem_range.1 (h.perm.mem_iff.1 this)
      rw [rd_getD 0 (by omega), ok_bind, rd_getD 0 (by omega), ok_bind, rd_getD 0 (by omega), ok_bind, wp_ok]
      rw [List.take_add_one, List.getElem?_eq_getElem (by omega), Option.toList_some, List.map_append, List.sum_append, hacc']
      have : s.nodes.getD k 0 = s.nodes[k] := by
        rw [List.getD_eq_getElem?_getD, List.getElem?_eq_getElem (by omega)]; rfl
      rw [this]
      simp)
  obtain ⟨r, r1, r2⟩ := wp_iff.1 key
  rw [r1, ok_bind, r2, hp.dlast, (h.perm.map _).sum_eq]
  have tele : ∀ m, m ≤ n → ((List.range m).map fun v => ((rp.getD (v + 1) 0 : Int) - (rp.getD v 0 : Int))).sum
      = (rp.getD m 0 : Int) := by
    intro m
    induction m with
    | zero => intro _; rw [hr.d0]; simp
    | succ m ih =>
      intro hm
      rw [List.range_succ, List.map_append, List.sum_append, ih (by omega)]
      simp
  rw [tele n (Nat.le_refl n), hr.dlast]

/-- **C123.** `consecutiveRatio` of a complete schedule: the number of nodes that are followed by their successor in the same
part, over the number of nodes minus the number of parts. -/
theorem C123_consecutive {s : Sched} {n parts : Nat} (hl : PtrOk s.levelPtr s.levels parts) (hp : PtrOk s.partPtr parts n)
    (hc : s.Complete n) :
    consecutiveRatio s = ok (((((List.range parts).map fun q => neighbours (s.part q)).sum : Nat) : Int), (n : Int) - (parts : Int)) := by
  obtain ⟨parts', h⟩ := Shape.of ⟨parts, hl, hp⟩ hc
  have hpp : parts' = parts := Option.some.inj (h.lev.last.symm.trans hl.last)
  subst hpp
  have hn := h.len
  have hpl := hp.len
  have hll := hl.len
  unfold consecutiveRatio
  rw [rd_getD 0 (by omega), ok_bind, hl.dlast]
  obtain ⟨r, r1, r2⟩ := wp_iff.1 (forRange_wp (lo := 0) (hi := parts') (s := ((0 : Int), (0 : Int))) (f := fun i (t : Int × Int) => (do
    let hi ← rd s.partPtr (i + 1)
    let lo ← rd s.partPtr i
    let sum ← forRange lo (hi - 1) (fun k1 sum => do
      let b ← rd s.nodes (k1 + 1)
      let a ← rd s.nodes k1
      ok (if (b : Int) - (a : Int) = 1 then sum + 1 else sum)) t.1
    ok (sum, t.2 + ((hi : Int) - (lo : Int) - 1)) : Res (Int × Int)))
    (I := fun i t => t = (((((List.range i).map fun q => neighbours (s.part q)).sum : Nat) : Int),
      (s.partPtr.getD i 0 : Int) - (i : Int))) (Nat.zero_le _) (by rw [hp.d0]; simp) (by
      intro i t _ hi ht
      have hmono := hp.dmono hi
      have hle : s.partPtr.getD (i + 1) 0 ≤ n := hp.dle (by omega)
      rw [rd_getD 0 (by omega), ok_bind, rd_getD 0 (by omega), ok_bind, inner_eq hmono (by omega), ok_bind, wp_ok, ht]
      rw [List.range_succ, List.map_append, List.sum_append]
      rw [← part_eq]
      dsimp only
      rw [Prod.mk.injEq]
      refine ⟨by push_cast; simp, by push_cast; omega⟩))
  rw [r1, r2, hp.dlast]

/-- **C123.** If no part is empty the ratio is at most one, and it is one exactly if every part is an interval in
ascending order. -/
theorem C123_ratio {s : Sched} {n parts : Nat} (hl : PtrOk s.levelPtr s.levels parts) (hp : PtrOk s.partPtr parts n)
    (hc : s.Complete n) (hne : ∀ q, q < parts → s.part q ≠ []) :
    ∃ a b : Int, consecutiveRatio s = ok (a, b) ∧ 0 ≤ a ∧ a ≤ b ∧
      (a = b ↔ ∀ q, q < parts → ∃ c, s.part q = List.range' c (s.part q).length) := by
  obtain ⟨parts', h⟩ := Shape.of ⟨parts, hl, hp⟩ hc
  have hpp : parts' = parts := Option.some.inj (h.lev.last.symm.trans hl.last)
  subst hpp
  have hlen : ((List.range parts').map fun q => (s.part q).length).sum = n := by
    have : ∀ m, m ≤ parts' → ((List.range m).map fun q => (s.part q).length).sum = s.partPtr.getD m 0 := by
      intro m
      induction m with
      | zero => intro _; rw [hp.d0]; simp
      | succ m ih =>
        intro hm
        rw [List.range_succ, List.map_append, List.sum_append, ih (by omega)]
        have := h.part_len (q := m) (by omega)
        have := hp.dmono (b := m) (by omega)
        simp only [List.map_cons, List.map_nil, List.sum_cons, List.sum_nil]
        omega
    rw [this _ (Nat.le_refl _), hp.dlast]
  have key : ∀ m, m ≤ parts' → ((List.range m).map fun q => neighbours (s.part q)).sum + m
      ≤ ((List.range m).map fun q => (s.part q).length).sum ∧
      (((List.range m).map fun q => neighbours (s.part q)).sum + m
      = ((List.range m).map fun q => (s.part q).length).sum ↔ ∀ q, q < m → ∃ c, s.part q = List.range' c (s.part q).length) := by
    intro m
    induction m with
    | zero => intro _; simp
    | succ m ih =>
      intro hm
      obtain ⟨i1, i2⟩ := ih (by omega)
      have h1 := neighbours_lt _ (hne m (by omega))
      have h2 := neighbours_eq_iff _ (hne m (by omega))
      rw [List.range_succ, List.map_append, List.map_append, List.sum_append, List.sum_append]
      simp only [List.map_cons, List.map_nil, List.sum_cons, List.sum_nil]
      refine ⟨by omega, ?_⟩
      constructor
      · intro he q hq
        rcases Nat.lt_succ_iff_lt_or_eq.1 hq with h | rfl
        · exact i2.1 (by omega) q h
        · exact h2.1 (by omega)
      · intro hall
        have := i2.2 fun q hq => hall q (by omega)
        have := h2.2 (hall m (by omega))
        omega
  obtain ⟨k1, k2⟩ := key _ (Nat.le_refl parts')
  rw [hlen] at k1 k2
  refine ⟨_, _, C123_consecutive hl hp hc, by omega, by omega, ?_⟩
  rw [← k2]
  omega

/-- **C123.** Sorting the nodes of every part gives the largest ratio that any order inside the parts can have. -/
theorem C123_sorting_best {s s' : Sched} {n parts : Nat} (hl : PtrOk s.levelPtr s.levels parts) (hp : PtrOk s.partPtr parts n)
    (hc : s.Complete n) (hc' : s'.Complete n) (h1 : s'.levels = s.levels) (h2 : s'.levelPtr = s.levelPtr)
    (h3 : s'.partPtr = s.partPtr) (hperm : ∀ q, q < parts → (s.part q).Perm (s'.part q))
    (hs : ∀ q, q < parts → (s'.part q).Pairwise (· < ·)) :
    ∃ a a' b : Int, consecutiveRatio s = ok (a, b) ∧ consecutiveRatio s' = ok (a', b) ∧ a ≤ a' := by
  refine ⟨_, _, _, C123_consecutive hl hp hc, C123_consecutive (parts := parts) (by rw [h1, h2]; exact hl)
    (by rw [h3]; exact hp) hc', ?_⟩
  have : ∀ m, m ≤ parts → ((List.range m).map fun q => neighbours (s.part q)).sum
      ≤ ((List.range m).map fun q => neighbours (s'.part q)).sum := by
    intro m
    induction m with
    | zero => intro _; simp
    | succ m ih =>
      intro hm
      have := neighbours_best (hperm m (by omega)) (hs m (by omega))
      have := ih (by omega)
      rw [List.range_succ, List.map_append, List.map_append, List.sum_append, List.sum_append]
      simp only [List.map_cons, List.map_nil, List.sum_cons, List.sum_nil]
      omega
  exact_mod_cast this _ (Nat.le_refl parts)

/-- **C123** (finding): an empty part counts as -1 node pairs, so the ratio can be more than one: here 2/1. -/
theorem C123_ratio_two : ∃ s : Sched, s.PtrsOk 3 ∧ s.Complete 3 ∧ consecutiveRatio s = ok (2, 1) :=
  ⟨⟨1, [0, 2], [0, 3, 3], [0, 1, 2]⟩, ⟨2, ⟨rfl, rfl, by
    intro b hb lo hi h1 h2
    obtain rfl : b = 0 := by have : b < 1 := hb; omega
    cases h1; cases h2; decide⟩, ⟨rfl, rfl, by
    intro b hb lo hi h1 h2
    have : b = 0 ∨ b = 1 := by omega
    rcases this with rfl | rfl <;> (cases h1; cases h2; decide)⟩⟩, .refl _, by decide⟩

/-- **C123** (finding): if every part has one node, the program divides 0 by 0. -/
theorem C123_no_number {s : Sched} {n : Nat} (hl : PtrOk s.levelPtr s.levels n) (hp : PtrOk s.partPtr n n)
    (hc : s.Complete n) (hone : ∀ q, q < n → (s.part q).length = 1) : consecutiveRatio s = ok (0, 0) := by
  rw [C123_consecutive hl hp hc]
  have : ((List.range n).map fun q => neighbours (s.part q)).sum = 0 := by
    rw [List.sum_eq_zero_iff]
    intro x hx
    obtain ⟨q, hq, rfl⟩ := List.mem_map.1 hx
    obtain ⟨a, ha⟩ := List.length_eq_one_iff.1 (hone q (List.mem_range.1 hq))
    rw [ha]; rfl
  rw [this]
  simp

/-! ### The versions for grouped columns -/

namespace DemoStat

theorem innerGrouped_eq {nodes gp : List Nat} {lo hi : Nat} (h1 : lo < hi) (h2 : hi ≤ nodes.length) (h3 : hi < gp.length)
    (t0 : Int × Int) :
    forRange lo (hi - 1) (fun k1 t => (do
      let b ← rd nodes (k1 + 1)
      let a ← rd nodes k1
      let g1 ← rd gp (k1 + 1)
      let g0 ← rd gp k1
      ok (if (b : Int) - (a : Int) = 1 then (t.1 + ((g1 : Int) - (g0 : Int)), t.2 + ((g1 : Int) - (g0 : Int)))
        else (t.1 + ((g1 : Int) - (g0 : Int) - 1), t.2 + ((g1 : Int) - (g0 : Int)))) : Res (Int × Int))) t0
      = ok (t0.1 + ((gp.getD (hi - 1) 0 : Int) - (gp.getD lo 0 : Int)) - ((hi : Int) - 1 - (lo : Int))
          + neighbours (slice nodes lo hi), t0.2 + ((gp.getD (hi - 1) 0 : Int) - (gp.getD lo 0 : Int))) := by
  have key := forRange_wp (lo := lo) (hi := hi - 1) (s := t0) (f := fun k1 (t : Int × Int) => (do
      let b ← rd nodes (k1 + 1)
      let a ← rd nodes k1
      let g1 ← rd gp (k1 + 1)
      let g0 ← rd gp k1
      ok (if (b : Int) - (a : Int) = 1 then (t.1 + ((g1 : Int) - (g0 : Int)), t.2 + ((g1 : Int) - (g0 : Int)))
        else (t.1 + ((g1 : Int) - (g0 : Int) - 1), t.2 + ((g1 : Int) - (g0 : Int)))) : Res (Int × Int)))
      (I := fun k t => t = (t0.1 + ((gp.getD k 0 : Int) - (gp.getD lo 0 : Int)) - ((k : Int) - (lo : Int))
          + neighbours (slice nodes lo (k + 1)), t0.2 + ((gp.getD k 0 : Int) - (gp.getD lo 0 : Int)))) (by omega) (by
        have : neighbours (slice nodes lo (lo + 1)) = 0 := by
          have hl : (slice nodes lo (lo + 1)).length ≤ 1 := by rw [slice_length (by omega)]; omega
          match slice nodes lo (lo + 1), hl with
          | [], _ => rfl
          | [a], _ => rfl
        rw [this]; simp) (by
        intro k t hk1 hk2 hs
        rw [rd_getD 0 (by omega), ok_bind, rd_getD 0 (by omega), ok_bind, rd_getD 0 (by omega), ok_bind,
          rd_getD 0 (by omega), ok_bind, wp_ok]
        rw [slice_snoc (k := k + 1) (by omega) (by omega), slice_snoc (k := k) (by omega) (by omega), List.append_assoc,
          List.singleton_append, neighbours_concat, ← slice_snoc (k := k) (by omega) (by omega), hs]
        split
        · rw [if_pos (by omega), Prod.mk.injEq]; push_cast; constructor <;> omega
        · rw [if_neg (by omega), Prod.mk.injEq]; push_cast; constructor <;> omega)
  obtain ⟨r, r1, r2⟩ := wp_iff.1 key
  rw [r1, r2, show hi - 1 + 1 = hi by omega]
  congr 2
  push_cast [show 1 ≤ hi by omega]
  omega

end DemoStat

/-- **C123** (finding).  `consecutiveRatio` of the grouped class, for a complete schedule of `m` groups of `n` nodes without
empty parts.  The numerator is the number `n - m` of node pairs inside groups plus the number of neighbouring groups, plus
once the number of parts; the denominator lacks the size of one group for every part. -/
theorem C123_grouped {s : Sched} {m parts n : Nat} (hl : PtrOk s.levelPtr s.levels parts) (hp : PtrOk s.partPtr parts m)
    (hc : s.Complete m) (hne : ∀ q, q < parts → s.part q ≠ []) {gp : List Nat} (hg : PtrOk gp m n) :
    consecutiveRatioGrouped gp s = ok (
      ((n : Int) - (m : Int)) + ((((List.range parts).map fun q => neighbours (s.part q)).sum : Nat) : Int) + (parts : Int),
      ((n : Int) - (parts : Int)) - (((List.range parts).map fun q =>
        (gp.getD (s.partPtr.getD (q + 1) 0) 0 : Int) - (gp.getD (s.partPtr.getD (q + 1) 0 - 1) 0 : Int)).sum)) := by
  obtain ⟨parts', h⟩ := Shape.of ⟨parts, hl, hp⟩ hc
  have hpp : parts' = parts := Option.some.inj (h.lev.last.symm.trans hl.last)
  subst hpp
  have hn := h.len
  have hpl := hp.len
  have hll := hl.len
  have hgl := hg.len
  unfold consecutiveRatioGrouped
  rw [rd_getD 0 (by omega), ok_bind, hl.dlast]
  obtain ⟨r, r1, r2⟩ := wp_iff.1 (forRange_wp (lo := 0) (hi := parts') (s := ((0 : Int), (0 : Int))) (f := fun i (t : Int × Int) => (do
    let lo ← rd s.partPtr i
    let hi ← rd s.partPtr (i + 1)
    let t ← forRange lo (hi - 1) (fun k1 t => do
      let b ← rd s.nodes (k1 + 1)
      let a ← rd s.nodes k1
      let g1 ← rd gp (k1 + 1)
      let g0 ← rd gp k1
      ok (if (b : Int) - (a : Int) = 1 then (t.1 + ((g1 : Int) - (g0 : Int)), t.2 + ((g1 : Int) - (g0 : Int)))
        else (t.1 + ((g1 : Int) - (g0 : Int) - 1), t.2 + ((g1 : Int) - (g0 : Int))))) t
    let e ← rd gp hi
    let d ← if hi = 0 then ub else rd gp (hi - 1)
    ok (t.1 + ((e : Int) - (d : Int)), t.2 + ((e : Int) - (e : Int)) - 1) : Res (Int × Int)))
    (I := fun i t => t = ((gp.getD (s.partPtr.getD i 0) 0 : Int) - (s.partPtr.getD i 0 : Int) + (i : Int)
        + ((((List.range i).map fun q => neighbours (s.part q)).sum : Nat) : Int),
      (gp.getD (s.partPtr.getD i 0) 0 : Int) - (i : Int) - (((List.range i).map fun q =>
        (gp.getD (s.partPtr.getD (q + 1) 0) 0 : Int) - (gp.getD (s.partPtr.getD (q + 1) 0 - 1) 0 : Int)).sum)))
    (Nat.zero_le _) (by rw [hp.d0, hg.d0]; simp) (by
      intro i t _ hi ht
      have hmono := hp.dmono hi
      have hle : s.partPtr.getD (i + 1) 0 ≤ m := hp.dle (by omega)
      have hlt : s.partPtr.getD i 0 < s.partPtr.getD (i + 1) 0 := by
        have h1 := h.part_len (q := i) hi
        have h2 := List.length_pos_of_ne_nil (hne i hi)
        omega
      rw [rd_getD 0 (by omega), ok_bind, rd_getD 0 (by omega), ok_bind, innerGrouped_eq hlt (by omega) (by omega), ok_bind,
        rd_getD 0 (by omega), ok_bind, if_neg (by omega), rd_getD 0 (by omega), ok_bind, wp_ok, ht]
      rw [List.range_succ, List.map_append, List.sum_append, List.map_append, List.sum_append]
      rw [← part_eq]
      simp only [List.map_cons, List.map_nil, List.sum_cons, List.sum_nil, Prod.mk.injEq]
      push_cast
      constructor <;> omega))
  rw [r1, r2, hp.dlast, hg.dlast]
  congr 2
  omega

/-- **C123** (finding): so the reported ratio is larger than one whenever it is a positive number although all nodes of
every part follow each other: numerator `n`, denominator at most `n - 2·parts`. -/
theorem C123_grouped_above_one {s : Sched} {m parts n : Nat} (hl : PtrOk s.levelPtr s.levels parts)
    (hp : PtrOk s.partPtr parts m) (hc : s.Complete m) (hne : ∀ q, q < parts → s.part q ≠ []) {gp : List Nat}
    (hg : PtrOk gp m n) (hpos : ∀ k, k < m → gp.getD k 0 < gp.getD (k + 1) 0)
    (hrun : ∀ q, q < parts → ∃ c, s.part q = List.range' c (s.part q).length) :
    ∃ b : Int, consecutiveRatioGrouped gp s = ok ((n : Int), b) ∧ b ≤ (n : Int) - 2 * (parts : Int) := by
  obtain ⟨a, b, r1, _, _, r2⟩ := C123_ratio hl hp hc hne
  rw [C123_consecutive hl hp hc] at r1
  injection r1 with r1
  rw [Prod.mk.injEq] at r1
  have hab := r2.2 hrun
  refine ⟨((n : Int) - (parts : Int)) - (((List.range parts).map fun q =>
    (gp.getD (s.partPtr.getD (q + 1) 0) 0 : Int) - (gp.getD (s.partPtr.getD (q + 1) 0 - 1) 0 : Int)).sum), ?_, ?_⟩
  · rw [C123_grouped hl hp hc hne hg]
    congr 2
    omega
  · have : ∀ k, k ≤ parts → (k : Int) ≤ ((List.range k).map fun q =>
        (gp.getD (s.partPtr.getD (q + 1) 0) 0 : Int) - (gp.getD (s.partPtr.getD (q + 1) 0 - 1) 0 : Int)).sum := by
      obtain ⟨parts', h⟩ := Shape.of ⟨parts, hl, hp⟩ hc
      have hpp : parts' = parts := Option.some.inj (h.lev.last.symm.trans hl.last)
      subst hpp
      intro k
      induction k with
      | zero => intro _; simp
      | succ k ih =>
        intro hk
        have h0 := ih (by omega)
        have h1 := h.part_len (q := k) (by omega)
        have h2 := List.length_pos_of_ne_nil (hne k (by omega))
        have h3 : s.partPtr.getD (k + 1) 0 ≤ m := hp.dle (by omega)
        have h4 := hpos (s.partPtr.getD (k + 1) 0 - 1) (by omega)
        rw [show s.partPtr.getD (k + 1) 0 - 1 + 1 = s.partPtr.getD (k + 1) 0 by omega] at h4
        rw [List.range_succ, List.map_append, List.sum_append]
        simp only [List.map_cons, List.map_nil, List.sum_cons, List.sum_nil]
        push_cast
        omega
    have := this parts (Nat.le_refl _)
    omega

namespace DemoStat

/-- The entries of row `v`. -/
def rowSize (rp : List Nat) (v : Nat) : Int := (rp.getD (v + 1) 0 : Int) - (rp.getD v 0 : Int)

theorem rowSize_sum {rp : List Nat} {n nnz : Nat} (hr : PtrOk rp n nnz) :
    ((List.range n).map (rowSize rp)).sum = (nnz : Int) := by
  have tele : ∀ m, m ≤ n → ((List.range m).map (rowSize rp)).sum = (rp.getD m 0 : Int) := by
    intro m
    induction m with
    | zero => intro _; rw [hr.d0]; simp
    | succ m ih =>
      intro hm
      rw [List.range_succ, List.map_append, List.sum_append, ih (by omega)]
      simp [rowSize]
  rw [tele n (Nat.le_refl n), hr.dlast]

theorem map_take_succ {l : List Nat} {k : Nat} (h : k < l.length) (f : Nat → Int) :
    ((l.take (k + 1)).map f).sum = ((l.take k).map f).sum + f (l.getD k 0) := by
  rw [List.take_add_one, List.getElem?_eq_getElem h, List.getD_eq_getElem?_getD, List.getElem?_eq_getElem h,
    List.map_append, List.sum_append]
  simp only [Option.toList_some, List.map_cons, List.map_nil, List.sum_cons, List.sum_nil, Int.add_zero, Option.getD_some]

theorem take_lt {l : List Nat} {n k : Nat} (h : (l.take n).Perm (List.range n)) (hk : k < n) (hl : n ≤ l.length) :
    l.getD k 0 < n := by
  have : l.getD k 0 ∈ l.take n := by
    rw [List.getD_eq_getElem?_getD, List.getElem?_eq_getElem (by omega)]
    exact List.mem_of_getElem? (i := k) (by
      rw [List.getElem?_take, if_pos (by omega), List.getElem?_eq_getElem (by omega)]; rfl)
  exact List.mem_range.1 (h.mem_iff.1 this)

end DemoStat

/-- **C123.** `averWsize` of the grouped class: with groups that list every node once, again the number of entries over the
number of parts. -/
theorem C123_average_size_grouped {s : Sched} {m n parts : Nat} (hl : PtrOk s.levelPtr s.levels parts)
    (hp : PtrOk s.partPtr parts m) (hc : s.Complete m) {gp gs : List Nat} (hg : PtrOk gp m n)
    (hgs : gs.Perm (List.range n)) {rp : List Nat} {nnz : Nat} (hr : PtrOk rp n nnz) :
    averWsizeGrouped rp gp gs s = ok ((nnz : Int), (parts : Int)) := by
  obtain ⟨parts', h⟩ := Shape.of ⟨parts, hl, hp⟩ hc
  have hpp : parts' = parts := Option.some.inj (h.lev.last.symm.trans hl.last)
  subst hpp
  have hn := h.len
  have hpl := hp.len
  have hll := hl.len
  have hrl := hr.len
  have hgl := hg.len
  have hgn : gs.length = n := by rw [hgs.length_eq, List.length_range]
  have hgt : (gs.take n).Perm (List.range n) := by rw [List.take_of_length_le (by omega)]; exact hgs
  -- the sum of the first `k` entries of `gs`
  let G : Nat → Int := fun k => ((gs.take k).map (rowSize rp)).sum
  let F : Nat → Int := fun k => G (gp.getD (k + 1) 0) - G (gp.getD k 0)
  unfold averWsizeGrouped
  rw [rd_getD 0 (by omega), ok_bind, hl.dlast]
  have key := forRange_wp (lo := 0) (hi := parts') (s := (0 : Int)) (f := fun i (acc : Int) => (do
    let lo ← rd s.partPtr i
    let hi ← rd s.partPtr (i + 1)
    forRange lo hi (fun j acc => do
      let k ← rd s.nodes j
      let glo ← rd gp k
      let ghi ← rd gp (k + 1)
      forRange glo ghi (fun l acc => do
        let k1 ← rd gs l
        let b ← rd rp (k1 + 1)
        let a ← rd rp k1
        ok (acc + ((b : Int) - (a : Int)))) acc) acc : Res Int))
    (I := fun i (acc : Int) => acc = ((s.nodes.take (s.partPtr.getD i 0)).map F).sum) (Nat.zero_le _)
    (by rw [hp.d0]; simp) (by
      intro i acc _ hi hacc
      have hmono := hp.dmono hi
      have hle : s.partPtr.getD (i + 1) 0 ≤ m := hp.dle (by omega)
      rw [rd_getD 0 (by omega), ok_bind, rd_getD 0 (by omega), ok_bind]
      refine wp_mono (forRange_wp (I := fun k (acc : Int) => acc = ((s.nodes.take k).map F).sum) hmono hacc ?_) fun _ h => h
      intro k acc' _ hk hacc'
      have hkm : s.nodes.getD k 0 < m := take_lt h.perm (by omega) hn
      have hgm := hg.dmono hkm
      have hgle : gp.getD (s.nodes.getD k 0 + 1) 0 ≤ n := hg.dle (by omega)
      rw [rd_getD 0 (by omega), ok_bind, rd_getD 0 (by omega), ok_bind, rd_getD 0 (by omega), ok_bind,
        map_take_succ (by omega), ← hacc']
      refine wp_mono (forRange_wp (I := fun l (a : Int) => a = acc' + (G l - G (gp.getD (s.nodes.getD k 0) 0))) hgm
        (by omega) ?_) fun _ h => h
      intro l a _ hlt ha
      have hv : gs.getD l 0 < n := take_lt hgt (by omega) (by omega)
      rw [rd_getD 0 (by omega), ok_bind, rd_getD 0 (by omega), ok_bind, rd_getD 0 (by omega), ok_bind, wp_ok, ha]
      have : G (l + 1) = G l + rowSize rp (gs.getD l 0) := map_take_succ (by omega) _
      rw [this]
      unfold rowSize
      omega)
  obtain ⟨r, r1, r2⟩ := wp_iff.1 key
  rw [r1, ok_bind, r2, hp.dlast, (h.perm.map _).sum_eq]
  have tele : ∀ k, k ≤ m → ((List.range k).map F).sum = G (gp.getD k 0) := by
    intro k
    induction k with
    | zero => intro _; rw [hg.d0]; simp [G]
    | succ k ih =>
      intro hk
      rw [List.range_succ, List.map_append, List.sum_append, ih (by omega)]
      simp [F]
  rw [tele m (Nat.le_refl m), hg.dlast]
  have : G n = (nnz : Int) := by
    show ((gs.take n).map (rowSize rp)).sum = _
    rw [(hgt.map _).sum_eq, rowSize_sum hr]
  rw [this]

/-- **C123** (finding): an empty first part makes the grouped class read before the array. -/
theorem C123_grouped_empty {s : Sched} {parts : Nat} (hl : s.levelPtr[s.levels]? = some (parts + 1))
    (h0 : s.partPtr[0]? = some 0) (h1 : s.partPtr[1]? = some 0) (gp : List Nat) : consecutiveRatioGrouped gp s = ub := by
  have e : ∀ t : Int × Int, forRange 0 (0 - 1) (fun k1 t => (do
      let b ← rd s.nodes (k1 + 1)
      let a ← rd s.nodes k1
      let g1 ← rd gp (k1 + 1)
      let g0 ← rd gp k1
      ok (if (b : Int) - (a : Int) = 1 then (t.1 + ((g1 : Int) - (g0 : Int)), t.2 + ((g1 : Int) - (g0 : Int)))
        else (t.1 + ((g1 : Int) - (g0 : Int) - 1), t.2 + ((g1 : Int) - (g0 : Int)))) : Res (Int × Int))) t = ok t :=
    fun t => forRange_empty _ _ (by omega)
  unfold consecutiveRatioGrouped
  rw [rd_some' hl, ok_bind, forRange_split _ (Nat.zero_le 1) (by omega : 1 ≤ parts + 1)]
  rw [show (1 : Nat) = 0 + 1 from rfl, forRange_one, rd_some' h0, ok_bind, rd_some' h1, ok_bind, e, ok_bind]
  unfold rd
  cases gp[0]? <;> rfl

/-! ### Cases -/

/-- Two levels, three parts: 0 1 | 4 3 | 2 5; sorted 0 1 | 3 4 | 2 5. -/
def exDemoSched : Sched := ⟨2, [0, 2, 3], [0, 2, 4, 6], [0, 1, 4, 3, 2, 5]⟩

theorem exDemoSched_ptrs : PtrOk exDemoSched.levelPtr exDemoSched.levels 3 ∧ PtrOk exDemoSched.partPtr 3 6 := by
  refine ⟨⟨rfl, rfl, ?_⟩, ⟨rfl, rfl, ?_⟩⟩
  · intro b hb lo hi h1 h2
    have : b = 0 ∨ b = 1 := by have : b < 2 := hb; omega
    rcases this with rfl | rfl <;> (cases h1; cases h2; decide)
  · intro b hb lo hi h1 h2
    have : b = 0 ∨ b = 1 ∨ b = 2 := by omega
    rcases this with rfl | rfl | rfl <;> (cases h1; cases h2; decide)

theorem exDemoSched_complete : exDemoSched.Complete 6 := by unfold Sched.Complete; decide

example : consecutiveRatio exDemoSched = ok (1, 3) := by decide

example : ∃ a b : Int, consecutiveRatio exDemoSched = ok (a, b) ∧ 0 ≤ a ∧ a ≤ b ∧
    (a = b ↔ ∀ q, q < 3 → ∃ c, exDemoSched.part q = List.range' c (exDemoSched.part q).length) :=
  C123_ratio exDemoSched_ptrs.1 exDemoSched_ptrs.2 exDemoSched_complete (by decide)

example : ∃ a a' b : Int, consecutiveRatio exDemoSched = ok (a, b) ∧
    consecutiveRatio { exDemoSched with nodes := [0, 1, 3, 4, 2, 5] } = ok (a', b) ∧ a ≤ a' :=
  C123_sorting_best exDemoSched_ptrs.1 exDemoSched_ptrs.2 exDemoSched_complete (by unfold Sched.Complete; decide) rfl rfl rfl
    (by decide) (by decide)

example : averWsize [0, 1, 3, 4, 6, 8, 11] exDemoSched = ok (11, 3) :=
  C123_average_size exDemoSched_ptrs.1 exDemoSched_ptrs.2 exDemoSched_complete ⟨rfl, rfl, by
    intro b hb lo hi h1 h2
    have : b = 0 ∨ b = 1 ∨ b = 2 ∨ b = 3 ∨ b = 4 ∨ b = 5 := by omega
    rcases this with rfl | rfl | rfl | rfl | rfl | rfl <;> (cases h1; cases h2; decide)⟩

/-- Three groups 0 1 | 2 | 3 4 in one part in order: the reported ratio is 5/2. -/
example : consecutiveRatioGrouped [0, 2, 3, 5] ⟨1, [0, 1], [0, 3], [0, 1, 2]⟩ = ok (5, 2) := by decide

example : ∃ b : Int, consecutiveRatioGrouped [0, 2, 3, 5] ⟨1, [0, 1], [0, 3], [0, 1, 2]⟩ = ok (((5 : Nat) : Int), b) ∧
    b ≤ ((5 : Nat) : Int) - 2 * ((1 : Nat) : Int) :=
  C123_grouped_above_one (m := 3) ⟨rfl, rfl, by
    intro b hb lo hi h1 h2
    obtain rfl : b = 0 := by have : b < 1 := hb; omega
    cases h1; cases h2; decide⟩ ⟨rfl, rfl, by
    intro b hb lo hi h1 h2
    obtain rfl : b = 0 := by have : b < 1 := hb; omega
    cases h1; cases h2; decide⟩ (by unfold Sched.Complete; decide) (by decide) ⟨rfl, rfl, by
    intro b hb lo hi h1 h2
    have : b = 0 ∨ b = 1 ∨ b = 2 := by omega
    rcases this with rfl | rfl | rfl <;> (cases h1; cases h2; decide)⟩ (by decide)
    (by intro q hq; obtain rfl : q = 0 := by omega
        exact ⟨0, by decide⟩)

example : consecutiveRatioGrouped [0, 2, 3, 5] ⟨1, [0, 2], [0, 0, 3], [0, 1, 2]⟩ = ub :=
  C123_grouped_empty (parts := 1) rfl rfl rfl _

/-- Six groups with one node each, listed backwards. -/
example : averWsizeGrouped [0, 1, 3, 4, 6, 8, 11] [0, 1, 2, 3, 4, 5, 6] [5, 4, 3, 2, 1, 0] exDemoSched = ok (11, 3) := by
  refine C123_average_size_grouped (n := 6) exDemoSched_ptrs.1 exDemoSched_ptrs.2 exDemoSched_complete ⟨rfl, rfl, ?_⟩
    (by decide) ⟨rfl, rfl, ?_⟩ <;>
  · intro b hb lo hi h1 h2
    have : b = 0 ∨ b = 1 ∨ b = 2 ∨ b = 3 ∨ b = 4 ∨ b = 5 := by omega
    rcases this with rfl | rfl | rfl | rfl | rfl | rfl <;> (cases h1; cases h2; decide)

/-- One node per part: 0/0. -/
example : consecutiveRatio ⟨1, [0, 2], [0, 1, 2], [1, 0]⟩ = ok (0, 0) := by decide

end Verif
