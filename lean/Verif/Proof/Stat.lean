import Verif.Model.Stat
import Verif.Spec.Stat
import Verif.Proof.Graph
import Verif.Proof.Slices
import Verif.Proof.GroupDag
import Verif.Proof.SchedWin
import Mathlib.Data.List.GetD
import Mathlib.Algebra.Order.Group.Unbundled.Int

/-! # The statistics of the solvers: the loops -/

namespace Verif.Stat
open Res Csc Hdagg

variable {g : Csc}

theorem count_steps (a b : Nat) (s : Nat × Nat) :
    forRange a b (fun _ (s : Nat × Nat) => ok (s.1 + 2, s.2 + 3)) s
      = ok (s.1 + 2 * (b - a), s.2 + 3 * (b - a)) := by
  by_cases h : a ≤ b
  · obtain ⟨r, hr, h1⟩ := wp_iff.1 (forRange_wp'
      (f := fun _ (s : Nat × Nat) => ok (s.1 + 2, s.2 + 3)) (s := s)
      (fun k (r : Nat × Nat) => r = (s.1 + 2 * (k - a), s.2 + 3 * (k - a))) (Q := fun r => r = (s.1 + 2 * (b - a), s.2 + 3 * (b - a)))
      h (by simp) (by
        intro i t h1 h2 h3
        rw [wp_ok, h3]
        ext <;> dsimp only <;> omega) (fun _ h => h))
    rw [hr, h1]
  · rw [forRange_empty _ _ (by omega)]
    have : b - a = 0 := by omega
    simp [this]

theorem fsCsr_wp (hwf : g.WF) (hne : ∀ i, i < g.n → g.ptr i < g.ptr (i + 1)) :
    wp (fsCsr g.n g.p g.i) (fun r => r.1 + g.n = 2 * g.ptr g.n ∧ r.2.1 + g.n = 3 * g.ptr g.n ∧
      r.2.2 = ((List.range' 1 (g.n - 1)).map (fun i => (g.col i).dropLast.count (i - 1))).sum) := by
  unfold fsCsr
  rw [wp_bind]
  refine forRange_wp' (fun i (s : Nat × Nat) => s.1 + i = 2 * g.ptr i ∧ s.2 + i = 3 * g.ptr i) (Nat.zero_le _) ?_ ?_ ?_
  · rw [hwf.p0]; simp
  · rintro i s _ hi ⟨h1, h2⟩
    rw [hwf.rd_p (by omega), ok_bind, hwf.rd_p (by omega), ok_bind, count_steps, ok_bind, wp_ok]
    have := hne i hi
    dsimp only
    omega
  · rintro s ⟨h1, h2⟩
    rw [wp_bind]
    have key : wp (forRange 1 g.n (fun i r => do
        let a ← rd g.p i
        let b ← rd g.p (i + 1)
        forRange a (b - 1) (fun j r => do
          let c ← rd g.i j
          if c = i - 1 then ok (r + 1) else ok r) r) 0)
        (fun r => r = ((List.range' 1 (g.n - 1)).map (fun i => (g.col i).dropLast.count (i - 1))).sum) := by
      by_cases hn : 1 ≤ g.n
      · refine forRange_wp' (fun k r => r = ((List.range' 1 (k - 1)).map
          (fun i => (g.col i).dropLast.count (i - 1))).sum) hn (by simp) ?_ (fun _ h => h)
        intro i r hi1 hi hr
        rw [hwf.rd_p (by omega), ok_bind, hwf.rd_p (by omega), ok_bind]
        have hb : g.ptr (i + 1) ≤ g.i.length := hwf.ptr_le (by omega)
        have hlt := hne i hi
        unfold forRange
        rw [forRange_rd g.i (fun c r => if c = i - 1 then ok (r + 1) else ok r) _ _ _ (by omega)]
        have hsl : (g.i.drop (g.ptr i)).take (g.ptr (i + 1) - 1 - g.ptr i) = (g.col i).dropLast := by
          rw [List.dropLast_eq_take, hwf.col_length hi, Csc.col, List.take_take]
          congr 1; omega
        rw [hsl]
        have := forEach_wp (fun p (r' : Nat) => r' = r + p.count (i - 1))
          (f := fun c r => if c = i - 1 then ok (r + 1) else ok r) (g.col i).dropLast [] r (by simp) ?_
        · refine wp_mono this ?_
          intro r' hr'
          rw [hr', List.nil_append, hr, show i + 1 - 1 = (i - 1) + 1 by omega, List.range'_concat, List.map_append, List.sum_append]
          simp only [List.map_cons, List.map_nil, List.sum_cons, List.sum_nil]
          rw [show 1 + 1 * (i - 1) = i by omega]; omega
        · intro p c q r' _ hr'
          split
          · rename_i hc
            rw [wp_ok, hr', List.count_append, hc]
            simp; omega
          · rename_i hc
            rw [wp_ok, hr', List.count_append, List.count_singleton]
            simp [hc]
      · rw [forRange_empty _ _ (by omega), show g.n - 1 = 0 by omega]; rfl
    refine wp_mono key ?_
    intro r hr
    rw [wp_ok]
    exact ⟨h1, h2, hr⟩

theorem pairs_cons (x : Nat) (xs ys : List Nat) : pairs (x :: xs) ys = ys.count x + pairs xs ys := by
  simp [pairs]

theorem pairs_snoc (xs ys : List Nat) (x : Nat) : pairs (xs ++ [x]) ys = pairs xs ys + ys.count x := by
  simp [pairs]

/-- One entry `y` of the other column is compared with all entries of a list. -/
theorem compare_wp (y : Nat) (l : List Nat) (s : Nat × Nat) :
    forEach l (fun x (s : Nat × Nat) => if x = y then ok (s.1 + 2, s.2 + 1 + 3) else ok (s.1, s.2 + 1)) s
      = ok (s.1 + 2 * l.count y, s.2 + l.length + 3 * l.count y) := by
  induction l generalizing s with
  | nil => simp [forEach]
  | cons x l ih =>
    rw [forEach]
    by_cases h : x = y
    · rw [if_pos h, ok_bind, ih, h, List.count_cons_self, List.length_cons]
      congr 2 <;> dsimp only <;> omega
    · rw [if_neg h, ok_bind, ih, List.count_cons_of_ne h, List.length_cons]
      congr 2; dsimp only; omega

theorem compares_wp (xs l : List Nat) (s : Nat × Nat) :
    forEach xs (fun y s => forEach l (fun x (s : Nat × Nat) =>
        if x = y then ok (s.1 + 2, s.2 + 1 + 3) else ok (s.1, s.2 + 1)) s) s
      = ok (s.1 + 2 * pairs xs l, s.2 + xs.length * l.length + 3 * pairs xs l) := by
  induction xs generalizing s with
  | nil => simp [forEach, pairs]
  | cons y xs ih =>
    rw [forEach, compare_wp, ok_bind, ih, pairs_cons, List.length_cons, Nat.add_mul]
    congr 2 <;> dsimp only <;> omega

theorem loop_congr {σ : Type} {f f' : Nat → σ → Res σ} {lo hi : Nat}
    (h : ∀ i s, lo ≤ i → i < hi → f i s = f' i s) (s : σ) : forRange lo hi f s = forRange lo hi f' s := by
  have key : ∀ (c lo : Nat) (s : σ), (∀ i s, lo ≤ i → i < lo + c → f i s = f' i s) →
      forN c lo f s = forN c lo f' s := by
    intro c
    induction c with
    | zero => intro lo s _; rfl
    | succ c ih =>
      intro lo s h
      rw [forN, forN, h lo s (Nat.le_refl _) (by omega)]
      congr 1
      funext t
      exact ih (lo + 1) t (fun i s h1 h2 => h i s (by omega) (by omega))
  exact key _ _ _ (fun i s h1 h2 => h i s h1 (by omega))

theorem ic0_step (hwf : g.WF) {i : Nat} (hi : i < g.n) {m : Nat} (h1 : g.ptr i ≤ m) (h2 : m < g.ptr (i + 1))
    (s : Nat × Nat) :
    (do
      let r ← rd g.i m
      let c ← rd g.p r
      let d ← rd g.p (r + 1)
      forRange c d (fun k s =>
        forRange m (g.ptr (i + 1)) (fun l (s : Nat × Nat) => do
          let x ← rd g.i l
          let y ← rd g.i k
          if x = y then ok (s.1 + 2, s.2 + 1 + 3) else ok (s.1, s.2 + 1)) s) s)
      = ok (s.1 + 2 * pairs (g.col (g.idx m)) ((g.i.drop m).take (g.ptr (i + 1) - m)),
        s.2 + (g.col (g.idx m)).length * (g.ptr (i + 1) - m)
          + 3 * pairs (g.col (g.idx m)) ((g.i.drop m).take (g.ptr (i + 1) - m))) := by
  have hb : g.ptr (i + 1) ≤ g.i.length := hwf.ptr_le (by omega)
  have hn : g.ptr (i + 1) ≤ g.ptr g.n := hwf.mono_le (by omega) (Nat.le_refl _)
  have hx := hwf.idx_lt hi h1 h2
  rw [hwf.rd_i (by omega), ok_bind, hwf.rd_p (by omega), ok_bind, hwf.rd_p (by omega), ok_bind]
  have hb' : g.ptr (g.idx m + 1) ≤ g.i.length := hwf.ptr_le (by omega)
  have hmono := hwf.mono _ hx
  have hlen : ((g.i.drop m).take (g.ptr (i + 1) - m)).length = g.ptr (i + 1) - m := by
    simp; omega
  have hin : ∀ k, g.ptr (g.idx m) ≤ k → k < g.ptr (g.idx m + 1) → ∀ s : Nat × Nat,
      forRange m (g.ptr (i + 1)) (fun l (s : Nat × Nat) => do
          let x ← rd g.i l
          let y ← rd g.i k
          if x = y then ok (s.1 + 2, s.2 + 1 + 3) else ok (s.1, s.2 + 1)) s
      = (rd g.i k >>= fun y => forEach ((g.i.drop m).take (g.ptr (i + 1) - m)) (fun x (s : Nat × Nat) =>
        if x = y then ok (s.1 + 2, s.2 + 1 + 3) else ok (s.1, s.2 + 1)) s) := by
    intro k hk1 hk2 s
    rw [rd_getD 0 (show k < g.i.length by omega)]
    simp only [ok_bind]
    unfold forRange
    rw [forRange_rd g.i (fun x (s : Nat × Nat) =>
        if x = g.i.getD k 0 then ok (s.1 + 2, s.2 + 1 + 3) else ok (s.1, s.2 + 1)) _ _ _ (by omega)]
  have hcong : forRange (g.ptr (g.idx m)) (g.ptr (g.idx m + 1)) (fun k s =>
        forRange m (g.ptr (i + 1)) (fun l (s : Nat × Nat) => do
          let x ← rd g.i l
          let y ← rd g.i k
          if x = y then ok (s.1 + 2, s.2 + 1 + 3) else ok (s.1, s.2 + 1)) s) s
      = forRange (g.ptr (g.idx m)) (g.ptr (g.idx m + 1)) (fun k s => rd g.i k >>= fun y =>
        forEach ((g.i.drop m).take (g.ptr (i + 1) - m)) (fun x (s : Nat × Nat) =>
        if x = y then ok (s.1 + 2, s.2 + 1 + 3) else ok (s.1, s.2 + 1)) s) s := by
    exact loop_congr (fun k s h1 h2 => hin k h1 h2 s) s
  rw [hcong]
  unfold forRange
  rw [forRange_rd g.i (fun y s => forEach ((g.i.drop m).take (g.ptr (i + 1) - m)) (fun x (s : Nat × Nat) =>
        if x = y then ok (s.1 + 2, s.2 + 1 + 3) else ok (s.1, s.2 + 1)) s) _ _ _ (by omega), compares_wp, hlen]
  rfl

theorem ic0Csc_wp (hwf : g.WF) (hne : ∀ i, i < g.n → g.ptr i < g.ptr (i + 1)) :
    wp (ic0Csc g.n g.p g.i) (fun r =>
      r.1 = g.ptr g.n + g.n + 2 * ((List.range g.n).map (fun i => g.updates (g.col i).tail)).sum ∧
      r.2.1 = g.ptr g.n + ((List.range g.n).map (fun i => g.compares (g.col i).tail)).sum
        + 3 * ((List.range g.n).map (fun i => g.updates (g.col i).tail)).sum ∧ r.2.2 = 0) := by
  unfold ic0Csc
  rw [wp_bind]
  refine forRange_wp' (fun i (s : Nat × Nat) =>
      s.1 = g.ptr i + i + 2 * ((List.range i).map (fun i => g.updates (g.col i).tail)).sum ∧
      s.2 = g.ptr i + ((List.range i).map (fun i => g.compares (g.col i).tail)).sum
        + 3 * ((List.range i).map (fun i => g.updates (g.col i).tail)).sum) (Nat.zero_le _) ?_ ?_ ?_
  · rw [hwf.p0]; simp
  · rintro i s _ hi ⟨h1, h2⟩
    rw [hwf.rd_p (by omega), ok_bind, hwf.rd_p (by omega), ok_bind]
    have hlt := hne i hi
    have hb : g.ptr (i + 1) ≤ g.i.length := hwf.ptr_le (by omega)
    have hrest : ∀ m, m < g.ptr (i + 1) → (g.i.drop m).take (g.ptr (i + 1) - m)
        = g.idx m :: (g.i.drop (m + 1)).take (g.ptr (i + 1) - (m + 1)) := by
      intro m hm
      rw [List.drop_eq_getElem_cons (show m < g.i.length by omega),
        show g.ptr (i + 1) - m = g.ptr (i + 1) - (m + 1) + 1 by omega, List.take_succ_cons, Csc.idx,
        List.getD_eq_getElem?_getD, List.getElem?_eq_getElem (show m < g.i.length by omega)]
      rfl
    have htail : (g.col i).tail = (g.i.drop (g.ptr i + 1)).take (g.ptr (i + 1) - (g.ptr i + 1)) := by
      rw [Csc.col, hrest _ hlt, List.tail_cons]
    refine forRange_wp' (fun m (t : Nat × Nat) =>
      t.1 + 2 * g.updates ((g.i.drop m).take (g.ptr (i + 1) - m))
        = s.1 + (g.ptr (i + 1) - g.ptr i + 1) + 2 * g.updates (g.col i).tail ∧
      t.2 + g.compares ((g.i.drop m).take (g.ptr (i + 1) - m))
        + 3 * g.updates ((g.i.drop m).take (g.ptr (i + 1) - m))
        = s.2 + (g.ptr (i + 1) - g.ptr i) + g.compares (g.col i).tail + 3 * g.updates (g.col i).tail)
      (by omega) ?_ ?_ ?_
    · rw [htail]; exact ⟨rfl, rfl⟩
    · rintro m t hm1 hm2 ⟨k1, k2⟩
      rw [ic0_step hwf hi (by omega) hm2, wp_ok]
      dsimp only
      have hl : ((g.i.drop (m + 1)).take (g.ptr (i + 1) - (m + 1))).length + 1 = g.ptr (i + 1) - m := by
        simp; omega
      rw [hrest m hm2, updates] at k1 k2
      rw [compares, hl] at k2
      rw [hrest m hm2]
      omega
    · rintro t ⟨k1, k2⟩
      rw [Nat.sub_self, List.take_zero, updates] at k1 k2
      rw [compares] at k2
      rw [List.range_succ]
      simp only [List.map_append, List.sum_append, List.map_cons, List.map_nil, List.sum_cons, List.sum_nil]
      omega
  · rintro s ⟨h1, h2⟩
    rw [wp_ok]
    exact ⟨h1, h2, rfl⟩

/-! ### The load of the threads -/

theorem work_append (Lp a b : List Nat) : work Lp (a ++ b) = work Lp a + work Lp b := by
  simp [work]

/-- One more row of thread `t`. -/
theorem addRow_ok {Lp : List Nat} {t i : Nat} {cost : List Int} (ht : t < cost.length) (hi : i + 1 < Lp.length) :
    addRow Lp t i cost = ok (cost.set t (cost.getD t 0 + rowSize Lp i)) := by
  unfold addRow
  rw [rd_getD 0 ht, ok_bind, rd_getD 0 hi, ok_bind, rd_getD 0 (by omega), ok_bind, wr_eq ht]
  rfl

theorem addRows_ok {Lp : List Nat} {t : Nat} : ∀ (rows : List Nat) {cost : List Int}, t < cost.length →
    (∀ i ∈ rows, i + 1 < Lp.length) →
    forEach rows (addRow Lp t) cost = ok (cost.set t (cost.getD t 0 + work Lp rows)) := by
  intro rows
  induction rows with
  | nil =>
    intro cost ht _
    rw [forEach]
    congr 1
    refine (List.ext_getElem? ?_).symm
    intro k
    rw [List.getElem?_set]
    split
    · rename_i h
      subst h
      rw [List.getElem?_eq_getElem ht, List.getD_eq_getElem?_getD, List.getElem?_eq_getElem ht]
      simp [work]
    · rfl
  | cons i rows ih =>
    intro cost ht hi
    rw [forEach, addRow_ok ht (hi i (by simp)), ok_bind, ih (by simpa using ht) (fun j hj => hi j (by simp [hj])),
      List.set_set, getD_set, if_pos ⟨rfl, ht⟩]
    congr 2
    simp only [work, List.map_cons, List.sum_cons]
    omega

/-- The body of the parallel loop adds the rows `rows j` to the entry of the thread. -/
def Adds (Lp : List Nat) (iter : Nat → Nat → List Int → Res (List Int)) (rows : Nat → List Nat) (a b : Nat) : Prop :=
  ∀ j t cost, a ≤ j → j < b → t < cost.length →
    iter t j cost = ok (cost.set t (cost.getD t 0 + work Lp (rows j)))

theorem mem_take_of_block {α : Type} {l : List α} {a b n : Nat} (hab : a ≤ b) (hb : b ≤ n) {x : α}
    (h : x ∈ (l.drop a).take (b - a)) : x ∈ l.take n := by
  rw [List.take_drop, Nat.add_sub_cancel' hab] at h
  have h' := List.mem_of_mem_drop h
  rw [← Nat.min_eq_left hb, ← List.take_take] at h'
  exact List.mem_of_mem_take h'

theorem adds_block {Lp ptr set : List Nat} {m n k : Nat} (hp : PtrOk ptr m n) (hset : n ≤ set.length)
    (hs : ∀ x ∈ set.take n, x + 1 < Lp.length) (hk : k < m) {t : Nat} {cost : List Int} (ht : t < cost.length) :
    (do
      let a ← rd ptr k
      let b ← rd ptr (k + 1)
      forRange a b (fun k c => do
        let j ← rd set k
        addRow Lp t j c) cost) = ok (cost.set t (cost.getD t 0 + work Lp (block ptr set k))) := by
  have hl := hp.len
  have h1 := hp.dle (b := k + 1) (by omega)
  rw [rd_getD 0 (by omega), ok_bind, rd_getD 0 (by omega), ok_bind]
  have h2 := hp.dmono hk
  unfold forRange
  rw [forRange_rd set (addRow Lp t) _ _ _ (by omega), addRows_ok _ ht ?_]
  · rfl
  · intro i hi
    exact hs i (mem_take_of_block h2 h1 hi)

theorem spread_wp {len : Nat} (hl : 0 < len) {cost : List Int} (hc : cost.length = len) :
    wp (spread len cost) (fun v => Spread len (fun t => cost.getD t 0) v) := by
  unfold spread
  rw [wp_bind]
  refine forRange_wp' (fun i (l : List Int) =>
    (∀ x ∈ l, ∃ s t, s < len ∧ t < len ∧ x = cost.getD s 0 - cost.getD t 0) ∧
    ∀ s t, s < i → s < t → t < len → ((cost.getD s 0 - cost.getD t 0).natAbs : Int) ∈ l) (Nat.zero_le _) ?_ ?_ ?_
  · refine ⟨by simp, ?_⟩
    intro s t hs; omega
  · rintro i l _ hi ⟨h1, h2⟩
    refine forRange_wp' (fun j (l : List Int) =>
      (∀ x ∈ l, ∃ s t, s < len ∧ t < len ∧ x = cost.getD s 0 - cost.getD t 0) ∧
      (∀ s t, s < i → s < t → t < len → ((cost.getD s 0 - cost.getD t 0).natAbs : Int) ∈ l) ∧
      ∀ t, i < t → t < j → ((cost.getD i 0 - cost.getD t 0).natAbs : Int) ∈ l) (by omega) ?_ ?_ ?_
    · exact ⟨h1, h2, fun t _ _ => by omega⟩
    · rintro j l' hj1 hj2 ⟨k1, k2, k3⟩
      rw [rd_getD 0 (by omega), ok_bind, rd_getD 0 (by omega), ok_bind, wp_ok]
      refine ⟨?_, ?_, ?_⟩
      · intro x hx
        rw [List.mem_append, List.mem_singleton] at hx
        rcases hx with hx | hx
        · exact k1 x hx
        · rcases Int.natAbs_eq (cost.getD i 0 - cost.getD j 0) with h | h
          · exact ⟨i, j, hi, hj2, by omega⟩
          · exact ⟨j, i, hj2, hi, by omega⟩
      · intro s t hs hst ht
        exact List.mem_append_left _ (k2 s t hs hst ht)
      · intro t hit htj
        by_cases htj' : t = j
        · subst htj'; simp
        · exact List.mem_append_left _ (k3 t hit (by omega))
    · rintro l' ⟨k1, k2, k3⟩
      refine ⟨k1, ?_⟩
      intro s t hs hst ht
      by_cases hsi : s = i
      · subst hsi; exact k3 t hst ht
      · exact k2 s t (by omega) hst ht
  · rintro l ⟨h1, h2⟩
    have hmem : ∀ x, x ∈ l.mergeSort (fun a b => decide (b ≤ a)) ↔ x ∈ l := fun x => List.mem_mergeSort
    have hsort := List.pairwise_mergeSort (le := fun a b : Int => decide (b ≤ a))
      (by intro a b c h1 h2; simp at *; omega) (by intro a b; simp; omega) l
    have hle : ∀ v, (∀ x ∈ l, x ≤ v) → 0 ≤ v → ∀ s t, s < len → t < len →
        cost.getD s 0 - cost.getD t 0 ≤ v := by
      intro v hv h0 s t hs ht
      rcases Nat.lt_trichotomy s t with h | h | h
      · have := hv _ (h2 s t hs h ht); omega
      · subst h; omega
      · have := hv _ (h2 t s ht h hs); omega
    split
    · rename_i he
      have hnil : l = [] := by
        apply List.eq_nil_iff_forall_not_mem.2
        intro x hx
        have := (hmem x).2 hx
        rw [he] at this
        simp at this
      rw [wp_ok]
      exact ⟨⟨0, 0, hl, hl, by omega⟩, hle 0 (by rw [hnil]; simp) (Int.le_refl _)⟩
    · rename_i x r he
      rw [wp_ok]
      have hx : x ∈ l := (hmem x).1 (by rw [he]; simp)
      refine ⟨h1 x hx, ?_⟩
      rw [he, List.pairwise_cons] at hsort
      have hmax : ∀ y ∈ l, y ≤ x := by
        intro y hy
        have := (hmem y).2 hy
        rw [he, List.mem_cons] at this
        rcases this with h | h
        · omega
        · have := hsort.1 y h
          simpa using this
      obtain ⟨s, t, hs, ht, hxs⟩ := h1 x hx
      refine hle x hmax ?_
      rcases Nat.lt_trichotomy s t with h | h | h
      · have := hmax _ (h2 s t hs h ht); omega
      · subst h; omega
      · have := hmax _ (h2 t s ht h hs); omega

theorem level_wp {Lp : List Nat} {iter : Nat → Nat → List Int → Res (List Int)} {rows : Nat → List Nat} {a b len : Nat}
    (hadd : Adds Lp iter rows a b) {owner : Nat → Nat} (hown : ∀ j, a ≤ j → j < b → owner j < len)
    {order : List Nat} (hord : order.Perm (List.range' a (b - a))) :
    wp (forEach order (fun li c => iter (owner li) li c) (List.replicate len 0))
      (fun cost => cost.length = len ∧ ∀ t, t < len → cost.getD t 0 = load Lp rows owner a b t) := by
  have hin : ∀ j ∈ order, a ≤ j ∧ j < b := by
    intro j hj
    have := List.mem_range'_1.1 (hord.mem_iff.1 hj)
    omega
  have key := forEach_wp (fun p (cost : List Int) => cost.length = len ∧
      ∀ t, t < len → cost.getD t 0 = work Lp ((p.filter (fun j => owner j == t)).flatMap rows))
    (f := fun li c => iter (owner li) li c) order [] (List.replicate len (0 : Int)) ?_ ?_
  · refine wp_mono key ?_
    rintro cost ⟨h1, h2⟩
    refine ⟨h1, ?_⟩
    intro t ht
    rw [h2 t ht, List.nil_append, load]
    refine List.Perm.sum_eq (List.Perm.map _ ?_)
    exact (hord.filter _).flatMap_right _
  · refine ⟨by simp, ?_⟩
    intro t ht
    rw [getD_replicate _ _ _ _ ht]
    rfl
  · rintro p j q cost he ⟨h1, h2⟩
    rw [List.nil_append] at he
    have hj := hin j (by rw [he]; simp)
    have ho := hown j hj.1 hj.2
    rw [hadd j (owner j) cost hj.1 hj.2 (by omega), wp_ok]
    refine ⟨by simpa using h1, ?_⟩
    intro t ht
    rw [getD_set, List.filter_append, List.flatMap_append, work_append]
    by_cases hto : t = owner j
    · rw [if_pos ⟨hto.symm, by omega⟩, h2 (owner j) ho, hto, List.filter_cons_of_pos (by simp)]
      simp
    · rw [if_neg (by omega), h2 t ht, List.filter_cons_of_neg (by simp; omega)]
      simp [work]

/-- All levels. -/
theorem overLevels_wp {Lp : List Nat} {T : Threads} {iter : Nat → Nat → List Int → Res (List Int)}
    {rows : Nat → List Nat} {levels m : Nat} {levelPtr : List Nat} (hp : PtrOk levelPtr levels m)
    (hT : 0 < T.len) (hadd : Adds Lp iter rows 0 m)
    (hown : ∀ l j, T.tid l j < T.len)
    (hord : ∀ l a b, (T.order l a b).Perm (List.range' a (b - a))) {lcost : List Int} (hlc : levels ≤ lcost.length) :
    wp (overLevels T iter levels levelPtr lcost) (fun r => r.length = lcost.length ∧
      (∀ l, l < levels → Spread T.len
        (load Lp rows (T.tid l) (levelPtr.getD l 0) (levelPtr.getD (l + 1) 0)) (r.getD l 0)) ∧
      ∀ l, levels ≤ l → r[l]? = lcost[l]?) := by
  unfold overLevels
  rw [wp_bind]
  have hl := hp.len
  refine forRange_wp' (fun k (s : List Int × List Int) => s.1 = List.replicate T.len 0 ∧ s.2.length = lcost.length ∧
      (∀ l, l < k → Spread T.len
        (load Lp rows (T.tid l) (levelPtr.getD l 0) (levelPtr.getD (l + 1) 0)) (s.2.getD l 0)) ∧
      ∀ l, k ≤ l → s.2[l]? = lcost[l]?) (Nat.zero_le _) ⟨rfl, rfl, fun l h => by omega, fun _ _ => rfl⟩ ?_ ?_
  · rintro k ⟨c, lc⟩ _ hk ⟨h1, h2, h3, h4⟩
    dsimp only at h1 h2 h3 h4
    subst h1
    rw [rd_getD 0 (by omega), ok_bind, rd_getD 0 (by omega), ok_bind, wp_bind]
    have hle := hp.dle (b := k + 1) (by omega)
    refine wp_mono (level_wp (fun j t cost hj1 hj2 ht => hadd j t cost (Nat.zero_le _) (by omega) ht)
      (fun j _ _ => hown k j) (hord k _ _)) ?_
    rintro cost ⟨c1, c2⟩
    rw [wp_bind]
    refine wp_mono (spread_wp hT c1) ?_
    rintro v ⟨⟨s, t, hs, ht, hv1⟩, hv2⟩
    dsimp only at hv1 hv2 ⊢
    rw [wr_eq (by omega), ok_bind, wp_ok]
    refine ⟨rfl, by simpa using h2, ?_, ?_⟩
    · intro l hlk
      dsimp only
      rw [getD_set]
      by_cases hlk' : l = k
      · subst hlk'
        rw [if_pos ⟨rfl, by omega⟩]
        refine ⟨⟨s, t, hs, ht, by rw [hv1, c2 s hs, c2 t ht]⟩, ?_⟩
        intro s t hs ht
        rw [← c2 s hs, ← c2 t ht]
        exact hv2 s t hs ht
      · rw [if_neg (by omega)]
        exact h3 l (by omega)
    · intro l hlk
      dsimp only
      rw [List.getElem?_set_ne (by omega)]
      exact h4 l (by omega)
  · rintro ⟨c, lc⟩ ⟨h1, h2, h3, h4⟩
    rw [wp_ok]
    exact ⟨h2, h3, h4⟩

end Verif.Stat
