import Verif.Model.Metrics
import Verif.Spec.Metrics
import Verif.Proof.GroupDag
import Mathlib.Algebra.BigOperators.Group.Finset.Basic
import Mathlib.Algebra.BigOperators.Intervals
import Mathlib.Algebra.Order.BigOperators.Group.Finset
import Mathlib.Algebra.Order.Field.Basic
import Mathlib.Tactic.Ring
import Mathlib.Tactic.Linarith

/-! # Proofs for the measures of a schedule -/

namespace Verif.SchedStat
open Res Finset

theorem forRange_foldl {σ : Type} {f : Nat → σ → Res σ} {g : Nat → σ → σ} :
    ∀ (k lo : Nat), (∀ w, lo ≤ w → w < lo + k → ∀ t, f w t = ok (g w t)) → ∀ t,
      forRange lo (lo + k) f t = ok ((List.range' lo k).foldl (fun t w => g w t) t) := by
  intro k
  induction k with
  | zero => intro lo _ t; rw [Nat.add_zero, forRange_empty _ _ (Nat.le_refl _)]; rfl
  | succ k ih =>
    intro lo h t
    have : forRange lo (lo + (k + 1)) f t = (f lo t >>= forRange (lo + 1) (lo + 1 + k) f) := by
      unfold forRange
      rw [show lo + (k + 1) - lo = k + 1 by omega, show lo + 1 + k - (lo + 1) = k by omega]
      rfl
    rw [this, h lo (Nat.le_refl _) (by omega), ok_bind, ih (lo + 1) (fun w h1 h2 => h w (by omega) (by omega))]
    rfl

theorem forRange_foldl' {σ : Type} {f : Nat → σ → Res σ} (g : Nat → σ → σ) {lo hi : Nat} (hle : lo ≤ hi)
    (h : ∀ w, lo ≤ w → w < hi → ∀ t, f w t = ok (g w t)) (t : σ) :
    forRange lo hi f t = ok ((List.range' lo (hi - lo)).foldl (fun t w => g w t) t) := by
  obtain ⟨k, rfl⟩ := Nat.exists_eq_add_of_le hle
  rw [Nat.add_sub_cancel_left]
  exact forRange_foldl k lo h t

theorem forEach_foldl {α σ : Type} {f : α → σ → Res σ} (g : α → σ → σ) :
    ∀ (l : List α), (∀ a ∈ l, ∀ t, f a t = ok (g a t)) → ∀ t,
      forEach l f t = ok (l.foldl (fun t a => g a t) t) := by
  intro l
  induction l with
  | nil => intro _ t; rfl
  | cons a l ih =>
    intro h t
    show f a t >>= forEach l f = _
    rw [h a (by simp), ok_bind, ih (fun b hb => h b (by simp [hb]))]
    rfl

theorem sum_range_list {K : Type} [AddCommMonoid K] (f : Nat → K) (m : Nat) :
    ((List.range m).map f).sum = ∑ i ∈ range m, f i := by
  induction m with
  | zero => simp
  | succ m ih => rw [List.range_succ, List.map_append, List.sum_append, ih, Finset.sum_range_succ]; simp

variable {K : Type} [Field K] [LinearOrder K]

/-! ### Shape of a schedule -/

/-- The costs are given for all nodes. -/
structure Costs (n : Nat) (cost : List K) (c : Nat → K) : Prop where
  get : ∀ v, v < n → cost[v]? = some (c v)

variable {s : Sched} {n : Nat}

theorem part_eq (s : Sched) (q : Nat) : s.part q = slice s.nodes (s.partPtr.getD q 0) (s.partPtr.getD (q + 1) 0) := rfl

structure Shape (s : Sched) (n parts : Nat) : Prop where
  lev : PtrOk s.levelPtr s.levels parts
  prt : PtrOk s.partPtr parts n
  len : n ≤ s.nodes.length
  perm : (s.nodes.take n).Perm (List.range n)

theorem Shape.of (hp : s.PtrsOk n) (hc : s.Complete n) : ∃ parts, Shape s n parts := by
  obtain ⟨parts, h1, h2⟩ := hp
  refine ⟨parts, h1, h2, ?_, hc⟩
  have := hc.length_eq
  simp at this
  exact this

variable {parts : Nat}

theorem Shape.part_lt (h : Shape s n parts) {q : Nat} (hq : q < parts) : ∀ v ∈ s.part q, v < n := by
  intro v hv
  rw [part_eq, mem_slice] at hv
  obtain ⟨k, _, h2, h3⟩ := hv
  have : s.partPtr.getD (q + 1) 0 ≤ n := h.prt.dle (by omega)
  have : v ∈ s.nodes.take n := List.mem_of_getElem? (i := k) (by rw [List.getElem?_take, if_pos (by omega)]; exact h3)
  exact List.mem_range.1 (h.perm.mem_iff.1 this)

theorem Shape.part_len (h : Shape s n parts) {q : Nat} (hq : q < parts) :
    (s.part q).length = s.partPtr.getD (q + 1) 0 - s.partPtr.getD q 0 := by
  rw [part_eq, slice_length]
  have : s.partPtr.getD (q + 1) 0 ≤ n := h.prt.dle (by omega)
  have := h.len
  omega

theorem Shape.partsOf_lt (h : Shape s n parts) {l q : Nat} (hl : l < s.levels) (hq : q ∈ s.partsOf l) : q < parts := by
  unfold Sched.partsOf at hq
  rw [List.mem_range'_1] at hq
  have := h.lev.dmono hl
  have : s.levelPtr.getD (l + 1) 0 ≤ parts := h.lev.dle (by omega)
  omega

/-- All nodes, level by level and part by part. -/
theorem Shape.all (h : Shape s n parts) :
    (List.range s.levels).flatMap (fun l => (s.partsOf l).flatMap s.part) = s.nodes.take n := by
  have h1 : ∀ l, l < s.levels → s.partsOf l = slice (List.range parts) (s.levelPtr.getD l 0) (s.levelPtr.getD (l + 1) 0) := by
    intro l hl
    rw [slice_range (h.lev.dle (by omega))]
    rfl
  have h2 : (List.range s.levels).flatMap s.partsOf = List.range parts := by
    have : (List.range s.levels).flatMap s.partsOf = (List.range s.levels).flatMap fun l =>
        slice (List.range parts) (s.levelPtr.getD l 0) (s.levelPtr.getD (l + 1) 0) :=
      List.flatMap_congr fun l hl => h1 l (List.mem_range.1 hl)
    rw [this, flatMap_slices _ _ _ h.lev.d0 (fun b hb => h.lev.dmono hb), h.lev.dlast,
      List.take_of_length_le (by simp)]
  rw [← List.flatMap_assoc, h2]
  have := flatMap_slices s.nodes s.partPtr parts h.prt.d0 (fun b hb => h.prt.dmono hb)
  rw [h.prt.dlast] at this
  exact this

omit [LinearOrder K] in
theorem sum_flatMap {α : Type} (l : List α) (f : α → List Nat) (c : Nat → K) :
    ((l.flatMap f).map c).sum = (l.map fun a => ((f a).map c).sum).sum := by
  induction l with
  | nil => simp
  | cons a l ih => simp [ih]

omit [LinearOrder K] in
/-- The costs of the levels add up to the cost of all nodes. -/
theorem Shape.total (h : Shape s n parts) (c : Nat → K) :
    ∑ l ∈ range s.levels, s.levelCost c l = ∑ v ∈ range n, c v := by
  rw [← sum_range_list, ← sum_range_list, ← (h.perm.map c).sum_eq, ← h.all, sum_flatMap]
  congr 1
  refine List.map_congr_left fun l _ => ?_
  rw [sum_flatMap]
  rfl

theorem Shape.width (h : Shape s n parts) : ∑ l ∈ range s.levels, s.width l = n := by
  have := congrArg List.length h.all
  rw [List.length_take, Nat.min_eq_left h.len, List.length_flatMap] at this
  rw [← sum_range_list, ← this]
  congr 1
  refine List.map_congr_left fun l _ => ?_
  unfold Sched.width
  rw [List.length_flatMap]

/-! ### The loops -/

omit [LinearOrder K] in
theorem partSize_eq (h : Shape s n parts) {w : Nat} (hw : w < parts) :
    partSize s w = ok (((s.part w).length : Nat) : K) := by
  have hl := h.prt.len
  unfold partSize
  rw [rd_getD 0 (by omega), ok_bind, rd_getD 0 (by omega), ok_bind, h.part_len hw, Nat.cast_sub (h.prt.dmono hw)]

omit [LinearOrder K] in
theorem foldl_add (l : List Nat) (c : Nat → K) (a : K) : l.foldl (fun t v => t + c v) a = a + (l.map c).sum := by
  induction l generalizing a with
  | nil => simp
  | cons v l ih => rw [List.foldl_cons, ih, List.map_cons, List.sum_cons, add_assoc]

omit [LinearOrder K] in
theorem partCost_eq (h : Shape s n parts) {cost : List K} {c : Nat → K} (hc : Costs n cost c) {w : Nat} (hw : w < parts) :
    partCost cost s w = ok (s.partCost c w) := by
  have hl := h.prt.len
  have hle : s.partPtr.getD (w + 1) 0 ≤ n := h.prt.dle (by omega)
  have hn := h.len
  unfold partCost
  rw [rd_getD 0 (by omega), ok_bind, rd_getD 0 (by omega), ok_bind]
  rw [show (fun (i : Nat) (acc : K) => (do
      let node ← rd s.nodes i
      let x ← rd cost node
      ok (acc + x) : Res K)) = fun i acc => Res.bind (rd s.nodes i) fun node => (do
        let x ← rd cost node
        ok (acc + x) : Res K) from rfl, forRange_slice _ _ _ (h.prt.dmono hw) (by omega)]
  rw [forEach_foldl (fun v t => t + c v) _ (fun v hv t => by
    have : rd cost v = ok (c v) := by unfold rd; rw [hc.get v (h.part_lt hw v hv)]
    rw [this]; rfl)]
  rw [foldl_add, zero_add]
  rfl

/-- One level, for any size of a part. -/
def levelOf (n : Nat) (s : Sched) (z : Nat → K) (l : Nat) : Level K :=
  (s.partsOf l).foldl (fun t w => addPart (z w) t) ⟨0, n, 0⟩

theorem levels_eq (h : Shape s n parts) {size : Nat → Res K} {z : Nat → K} (hz : ∀ w, w < parts → size w = ok (z w)) :
    levels n size s = ok ((List.range s.levels).map (levelOf n s z)) := by
  have hl := h.lev.len
  unfold levels
  have := forRange_foldl' (fun (l : Nat) (ls : List (Level K)) => ls ++ [levelOf n s z l]) (Nat.zero_le s.levels)
    (f := fun lvl ls => (do
      let r ← levelLoop n size s lvl
      ok (ls ++ [r]) : Res (List (Level K)))) (by
    intro l _ hl' ls
    have : levelLoop n size s l = ok (levelOf n s z l) := by
      unfold levelLoop
      rw [rd_getD 0 (by omega), ok_bind, rd_getD 0 (by omega), ok_bind]
      rw [forRange_foldl' (fun w t => addPart (z w) t) (h.lev.dmono hl') (by
        intro w h1 h2 t
        have : s.levelPtr.getD (l + 1) 0 ≤ parts := h.lev.dle (by omega)
        rw [hz w (by omega)]; rfl)]
      rfl
    rw [this]; rfl) []
  rw [this, Nat.sub_zero]
  congr 1
  rw [← List.range_eq_range']
  generalize s.levels = m
  induction m with
  | zero => rfl
  | succ m ih => rw [List.range_succ, List.foldl_append, ih, List.map_append]; rfl

theorem fold_level (l : List Nat) (z : Nat → K) (t : Level K) :
    let r := l.foldl (fun t w => addPart (z w) t) t
    r.total = t.total + (l.map z).sum ∧
    (t.max ≤ r.max ∧ (∀ x ∈ l.map z, x ≤ r.max) ∧ (r.max = t.max ∨ r.max ∈ l.map z)) ∧
    (r.min ≤ t.min ∧ (∀ x ∈ l.map z, r.min ≤ x) ∧ (r.min = t.min ∨ r.min ∈ l.map z)) := by
  induction l generalizing t with
  | nil => simp
  | cons w l ih =>
    obtain ⟨h1, ⟨h2, h3, h4⟩, h5, h6, h7⟩ := ih (addPart (z w) t)
    dsimp only [List.foldl_cons, List.map_cons] at *
    have ht : (addPart (z w) t).total = t.total + z w := rfl
    have hm : (addPart (z w) t).max = max t.max (z w) := by
      show (if t.max < z w then z w else t.max) = _
      split
      · rw [max_eq_right (le_of_lt ‹_›)]
      · rw [max_eq_left (not_lt.1 ‹_›)]
    have hn : (addPart (z w) t).min = min t.min (z w) := by
      show (if z w < t.min then z w else t.min) = _
      split
      · rw [min_eq_right (le_of_lt ‹_›)]
      · rw [min_eq_left (not_lt.1 ‹_›)]
    rw [ht] at h1
    rw [hm] at h2 h4
    rw [hn] at h5 h7
    refine ⟨by rw [h1, List.map_cons, List.sum_cons, add_assoc], ⟨le_trans (le_max_left _ _) h2, ?_, ?_⟩,
      le_trans h5 (min_le_left _ _), ?_, ?_⟩
    · intro x hx
      rcases List.mem_cons.1 hx with rfl | hx
      · exact le_trans (le_max_right _ _) h2
      · exact h3 x hx
    · rcases h4 with h4 | h4
      · rcases max_choice t.max (z w) with h | h
        · left; rw [h4, h]
        · right; rw [h4, h]; simp
      · right; exact List.mem_cons_of_mem _ h4
    · intro x hx
      rcases List.mem_cons.1 hx with rfl | hx
      · exact le_trans h5 (min_le_right _ _)
      · exact h6 x hx
    · rcases h7 with h7 | h7
      · rcases min_choice t.min (z w) with h | h
        · left; rw [h7, h]
        · right; rw [h7, h]; simp
      · right; exact List.mem_cons_of_mem _ h7

theorem isMax_of {xs : List K} {M : K} (hx : ∀ x ∈ xs, 0 ≤ x) (h2 : ∀ x ∈ xs, x ≤ M)
    (h3 : M = 0 ∨ M ∈ xs) : Sched.IsMax xs M := by
  refine ⟨h2, ?_⟩
  rcases h3 with h3 | h3
  · cases xs with
    | nil => exact .inr ⟨rfl, h3⟩
    | cons a xs =>
      left
      have := h2 a (by simp)
      have h0 := hx a (by simp)
      have : a = M := le_antisymm this (by rw [h3]; exact h0)
      rw [← this]; simp
  · exact .inl h3

/-- What a level is, in terms of its parts. -/
theorem levelOf_spec (n : Nat) (s : Sched) {z : Nat → K} {l : Nat} (hz : ∀ q ∈ s.partsOf l, 0 ≤ z q) :
    (levelOf n s z l).total = ((s.partsOf l).map z).sum ∧ Sched.IsMax ((s.partsOf l).map z) (levelOf n s z l).max ∧
    Sched.IsMin (n : K) ((n : K) :: (s.partsOf l).map z) (levelOf n s z l).min := by
  obtain ⟨h1, ⟨h2, h3, h4⟩, h5, h6, h7⟩ := fold_level (s.partsOf l) z ⟨0, n, 0⟩
  refine ⟨h1.trans (zero_add _), isMax_of ?_ h3 h4, ?_, ?_⟩
  · intro x hx
    obtain ⟨q, hq, rfl⟩ := List.mem_map.1 hx
    exact hz q hq
  · intro x hx
    rcases List.mem_cons.1 hx with rfl | hx
    · exact h5
    · exact h6 x hx
  · left
    rcases h7 with h7 | h7
    · rw [show (levelOf n s z l).min = n from h7]; simp
    · exact List.mem_cons_of_mem _ h7

/-! ### The potential gain -/

/-- What a part adds. -/
def addGain (s : Sched) (c : Nat → K) (q : Nat) (a : Acc K) : Acc K :=
  ⟨a.parts + (if s.part q ≠ [] then 1 else 0), a.nodes + ((s.part q).length : Nat), a.cost + s.partCost c q,
    max a.max (s.partCost c q), a.total + s.partCost c q⟩

omit [LinearOrder K] in
theorem gainFold (c : Nat → K) (l : List Nat) (a : Acc K) (x : K) :
    l.foldl (fun (t : Acc K × K) v => ({ t.1 with total := t.1.total + c v, cost := t.1.cost + c v, nodes := t.1.nodes + 1 }, t.2 + c v))
      (a, x) = ({ a with total := a.total + (l.map c).sum, cost := a.cost + (l.map c).sum, nodes := a.nodes + (l.length : Nat) },
        x + (l.map c).sum) := by
  induction l generalizing a x with
  | nil => simp
  | cons v l ih =>
    rw [List.foldl_cons, ih]
    simp only [List.map_cons, List.sum_cons, List.length_cons, Nat.cast_add, Nat.cast_one, Prod.mk.injEq, Acc.mk.injEq,
      true_and]
    refine ⟨⟨by ring, by ring, by ring⟩, by ring⟩

theorem gainStep_eq (h : Shape s n parts) {cost : List K} {c : Nat → K} (hc : Costs n cost c) {q : Nat} (hq : q < parts)
    (a : Acc K) : gainStep cost s q a = ok (addGain s c q a) := by
  have hl := h.prt.len
  have hle : s.partPtr.getD (q + 1) 0 ≤ n := h.prt.dle (by omega)
  have hn := h.len
  unfold gainStep
  rw [rd_getD 0 (by omega), ok_bind, rd_getD 0 (by omega), ok_bind]
  have hg : ∀ b : Acc K, gainPart cost s (s.partPtr.getD q 0) (s.partPtr.getD (q + 1) 0) b
      = ok ({ b with total := b.total + s.partCost c q, cost := b.cost + s.partCost c q,
                     nodes := b.nodes + ((s.part q).length : Nat) }, s.partCost c q) := by
    intro b
    unfold gainPart
    rw [show (fun (k : Nat) (t : Acc K × K) => (do
        let node ← rd s.nodes k
        let x ← rd cost node
        ok ({ t.1 with total := t.1.total + x, cost := t.1.cost + x, nodes := t.1.nodes + 1 }, t.2 + x) : Res (Acc K × K)))
        = fun k t => Res.bind (rd s.nodes k) fun node => (do
        let x ← rd cost node
        ok ({ t.1 with total := t.1.total + x, cost := t.1.cost + x, nodes := t.1.nodes + 1 }, t.2 + x) : Res (Acc K × K))
        from rfl, forRange_slice _ _ _ (h.prt.dmono hq) (by omega)]
    rw [forEach_foldl (fun v (t : Acc K × K) => ({ t.1 with total := t.1.total + c v, cost := t.1.cost + c v, nodes := t.1.nodes + 1 },
      t.2 + c v)) _ (fun v hv t => by
        have : rd cost v = ok (c v) := by unfold rd; rw [hc.get v (h.part_lt hq v hv)]
        rw [this]; rfl)]
    rw [gainFold, zero_add]
    rfl
  rw [hg, ok_bind]
  have hne : s.partPtr.getD (q + 1) 0 ≠ s.partPtr.getD q 0 ↔ s.part q ≠ [] := by
    have := h.part_len hq
    have := h.prt.dmono hq
    rw [ne_eq, ne_eq, ← List.length_eq_zero_iff]
    omega
  congr 1
  unfold addGain
  by_cases he : s.part q ≠ []
  · rw [if_pos (hne.2 he), if_pos he]
    dsimp only
    split
    · rw [max_eq_right (le_of_lt ‹_›)]
    · rw [max_eq_left (not_lt.1 ‹_›)]
  · rw [if_neg (fun h => he (hne.1 h)), if_neg he]
    dsimp only
    rw [add_zero]
    split
    · rw [max_eq_right (le_of_lt ‹_›)]
    · rw [max_eq_left (not_lt.1 ‹_›)]

/-- The largest cost of a part of a level, as it is computed. -/
def maxOf (s : Sched) (c : Nat → K) (l : Nat) : K := ((s.partsOf l).map (s.partCost c)).foldl max 0

theorem gainFolds (s : Sched) (c : Nat → K) (l : List Nat) (a : Acc K) :
    l.foldl (fun t q => addGain s c q t) a
      = ⟨a.parts + ((l.filter fun q => s.part q ≠ []).length : Nat), a.nodes + (((l.map fun q => (s.part q).length).sum : Nat) : K),
        a.cost + (l.map (s.partCost c)).sum, (l.map (s.partCost c)).foldl max a.max, a.total + (l.map (s.partCost c)).sum⟩ := by
  induction l generalizing a with
  | nil => simp
  | cons q l ih =>
    rw [List.foldl_cons, ih]
    unfold addGain
    simp only [List.map_cons, List.sum_cons, List.foldl_cons, Nat.cast_add, Acc.mk.injEq, List.filter_cons]
    refine ⟨?_, by ring, by ring, trivial, by ring⟩
    by_cases he : s.part q = []
    · simp [he]
    · simp [he]; ring

theorem gainLoop_eq (h : Shape s n parts) {cost : List K} {c : Nat → K} (hc : Costs n cost c) :
    ∃ g, gainLoop cost s = ok g ∧ g.total = ∑ v ∈ range n, c v ∧ g.critical = ∑ l ∈ range s.levels, maxOf s c l ∧
      g.levels = (List.range s.levels).map fun l => (⟨s.busy l, s.width l, s.levelCost c l, maxOf s c l,
        ∑ i ∈ range (l + 1), s.levelCost c i⟩ : Acc K) := by
  have hl := h.lev.len
  rw [← h.total c]
  unfold gainLoop
  refine wp_iff.1 (wp_mono (forRange_wp (I := fun lvl (g : Gain K) => g.total = ∑ l ∈ range lvl, s.levelCost c l ∧
    g.critical = ∑ l ∈ range lvl, maxOf s c l ∧
    g.levels = (List.range lvl).map fun l => (⟨s.busy l, s.width l, s.levelCost c l, maxOf s c l,
        ∑ i ∈ range (l + 1), s.levelCost c i⟩ : Acc K)) (Nat.zero_le _) ?_ ?_) ?_)
  · simp
  · rintro l g _ hl' ⟨h1, h2, h3⟩
    rw [rd_getD 0 (by omega), ok_bind, rd_getD 0 (by omega), ok_bind]
    rw [forRange_foldl' (addGain s c) (h.lev.dmono hl') (fun q h1 h2 t => gainStep_eq h hc (by
      have : s.levelPtr.getD (l + 1) 0 ≤ parts := h.lev.dle (by omega)
      omega) t), ok_bind]
    have := gainFolds s c (s.partsOf l) ⟨0, 0, 0, 0, g.total⟩
    unfold Sched.partsOf at this
    rw [this, wp_ok]
    dsimp only
    rw [h1, h2, h3, Finset.sum_range_succ, Finset.sum_range_succ, List.range_succ, List.map_append]
    refine ⟨rfl, rfl, ?_⟩
    simp only [zero_add, List.map_cons, List.map_nil, Finset.sum_range_succ]
    rfl
  · exact fun g hg => hg

end Verif.SchedStat
